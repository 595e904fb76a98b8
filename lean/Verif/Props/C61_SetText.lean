import Verif.Proofs.NodeClass
import Verif.Props.C35_AsciiSet

/-! # C61: the two written forms of an `ASCIISet` -/

namespace GoMatcher
namespace C61

/-- `StringAll` lists the members from 1 to 126 in ascending order, each of them once. -/
theorem stringAll_exact (s : ASCIISet) :
    (∀ c, c ∈ s.writeStringAll ↔ s.contains c = true ∧ 1 ≤ c.toNat ∧ c.toNat ≤ 126) ∧
    s.writeStringAll.Pairwise fun a b => a.toNat < b.toNat := by
  unfold ASCIISet.writeStringAll
  constructor
  · intro c
    rw [List.mem_filter, List.mem_map]
    constructor
    · rintro ⟨⟨n, hn, rfl⟩, h⟩
      rw [List.mem_range'_1] at hn
      rw [u8_ofNat_toNat (by omega)]
      exact ⟨h, by omega, by omega⟩
    · rintro ⟨h, h1, h2⟩
      exact ⟨⟨c.toNat, List.mem_range'_1.2 ⟨h1, by omega⟩, by simp⟩, h⟩
  · refine List.Pairwise.filter _ (List.pairwise_map.2 ?_)
    refine List.Pairwise.imp_of_mem ?_ (List.pairwise_lt_range' (s := 1) (n := 126))
    intro a b ha hb h
    rw [List.mem_range'_1] at ha hb
    rw [u8_ofNat_toNat (by omega), u8_ofNat_toNat (by omega)]
    exact h

/-- `MakeASCIISet(StringAll(s))` has the members of `s`, if NUL and DEL are not among them. -/
theorem stringAll_make_partial (s : ASCIISet) (h0 : s.contains 0 = false)
    (h127 : s.contains 127 = false) :
    (ASCIISet.make s.writeStringAll).2 = true ∧
    ∀ c, (ASCIISet.make s.writeStringAll).1.contains c = s.contains c := by
  have hx := (stringAll_exact s).1
  have ha : ∀ c ∈ s.writeStringAll, c.toNat < 128 := fun c hc => by
    have := (hx c).1 hc; omega
  refine ⟨(C35.make_spec _).1.2 ha, fun c => ?_⟩
  rw [Bool.eq_iff_iff, (C35.make_spec _).2 ha, hx]
  refine ⟨fun h => h.1, fun h => ⟨h, ?_⟩⟩
  have hlt : c.toNat < 128 := by
    apply Classical.byContradiction
    intro hn
    unfold ASCIISet.contains at h
    rw [if_pos (by omega)] at h
    cases h
  constructor
  · apply Classical.byContradiction
    intro hn
    have : c = 0 := UInt8.toNat_inj.1 (by show c.toNat = 0; omega)
    rw [this, h0] at h; cases h
  · apply Classical.byContradiction
    intro hn
    have : c = 127 := UInt8.toNat_inj.1 (by show c.toNat = 127; omega)
    rw [this, h127] at h; cases h

/-- `StringAll` forgets NUL and DEL. -/
theorem stringAll_wrong : (C35.built [0, 97, 127]).writeStringAll = b!"a" := by decide +kernel

/-- `String` between brackets, read by `RunesRangeExpand`, gives the members of the set back, if
NUL is not a member, `~` and DEL not both are, and `-` only together with `,` and `.`. -/
theorem string_expand_partial (s : ASCIISet) (h0 : s.contains 0 = false)
    (hdel : ¬ (s.contains 126 = true ∧ s.contains 127 = true))
    (hdash : s.contains 45 = true → s.contains 44 = true ∧ s.contains 46 = true) :
    ∃ rs, RunesRanges.expand (b!"[" ++ s.writeString ++ b!"]") = some rs ∧
      ∀ c : Nat, rs.contains c = true ↔ c < 128 ∧ s.contains (UInt8.ofNat c) = true := by
  obtain ⟨I, e, h1, h2⟩ := ascii_write s (by simpa [asciiMem] using h0) hdel
  have key : ∀ n : Nat, n < 128 → n ≠ 45 →
      ∃ c ∈ (((List.range 128).map Char.ofNat).map ClassElt.one).flatMap ClassElt.render,
        c.toNat = n ∧ c ≠ '-' ∧ c.toNat ≠ 0xFFFD := by
    intro n hn h45
    have ht : (Char.ofNat n).toNat = n := by
      have : n.isValidChar := Or.inl (by omega)
      simp [Char.ofNat, this, Char.ofNatAux, Char.toNat]
    refine ⟨Char.ofNat n, ?_, ht, ?_, by omega⟩
    · rw [List.mem_flatMap]
      exact ⟨.one (Char.ofNat n), List.mem_map.2 ⟨_, List.mem_map.2 ⟨n, List.mem_range.2 hn, rfl⟩, rfl⟩,
        by simp [ClassElt.render]⟩
    · intro hc
      rw [hc] at ht
      exact h45 ht.symm
  obtain ⟨es, q1, q2, q3, _⟩ := elts_of_intervals
    (es := ((List.range 128).map Char.ofNat).map ClassElt.one) I (by
      intro p hp
      obtain ⟨a1, a2, a3, a4, a5, a6⟩ := h1 p hp
      refine ⟨a2, ?_, key _ (by omega) ?_, fun hne => key _ a3 ?_⟩
      · unfold ClassElt.width
        rw [if_pos (by omega), if_pos (by omega)]
      · intro h45
        rw [h45] at a4 a5
        exact a5 (hdash a4).1
      · obtain ⟨b1, b2, b3⟩ := a6 hne
        intro h45
        rw [h45] at b1 b3
        exact b3 (hdash b1).2)
  obtain ⟨rs, r1, r2⟩ := RunesRanges.expand_sem es q1
  refine ⟨rs, ?_, fun c => ?_⟩
  · rw [q2, ← e] at r1
    exact r1
  · rw [r2.mem, q3, h2]
    rfl

/-- What goes wrong otherwise: NUL is forgotten, of `~` and DEL only `~` is left, `-` at the
end of a run is read as the sign of a range. -/
theorem string_wrong :
    (C35.built [0, 97]).writeString = b!"a" ∧ (C35.built [126, 127]).writeString = b!"~" ∧
    (C35.built (b!"+-a")).writeString = b!"+-a" ∧
    (RunesRanges.expand (b!"[+-a]")).any (fun rs => rs.contains 0x41) = true ∧
    (C35.built (b!"+-a")).contains 0x41 = false := by
  decide +kernel

example : (C35.built (b!",-.xyz7ab")).writeString = b!",-.7a-bx-z" ∧
    (C35.built (b!",-.xyz7ab")).writeStringAll = b!",-.7abxyz" := by decide +kernel
example : (C35.built (b!",-.xyz7ab")).contains 0 = false ∧
    ¬ ((C35.built (b!",-.xyz7ab")).contains 126 = true ∧ (C35.built (b!",-.xyz7ab")).contains 127 = true) ∧
    (C35.built (b!",-.xyz7ab")).contains 44 = true ∧ (C35.built (b!",-.xyz7ab")).contains 46 = true := by
  decide +kernel

end C61
end GoMatcher
