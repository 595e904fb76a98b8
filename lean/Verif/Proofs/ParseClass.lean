import Verif.Proofs.Norm
import Verif.Proofs.ParseTotal

/-! # The parser on written globs: chunks of simple tokens -/

namespace GoMatcher

/-! ## Bytes of characters -/

theorem mem_utf8_ascii {b : UInt8} (hb : b.toNat < 128) (cs : List Char) :
    b ∈ utf8 cs ↔ ∃ c ∈ cs, c.toNat = b.toNat := by
  induction cs with
  | nil => simp
  | cons c cs ih =>
    rw [utf8_cons, List.mem_append, ih]
    have : b ∈ encodeRune c.toNat ↔ c.toNat = b.toNat := by
      by_cases h : c.toNat < 0x80
      · rw [encodeRune_ascii h]
        constructor
        · intro e
          simp only [List.mem_singleton] at e
          rw [e, ofNat_toNat_lt (by omega)]
        · intro e
          simp only [List.mem_singleton]
          rw [e]
          simp
      · constructor
        · intro e
          have := encodeRune_nonascii (Char.runeOk c) (by omega) b e
          omega
        · intro e; omega
    rw [this]
    simp

theorem indexP_append {p : UInt8 → Bool} {a : Str} {b : UInt8} {t : Str}
    (ha : ∀ x ∈ a, p x = false) (hb : p b = true) : indexP p (a ++ b :: t) = some a.length := by
  induction a with
  | nil => simp [indexP, hb]
  | cons x a ih =>
    rw [List.cons_append, indexP, if_neg (by simp [ha x (by simp)]),
      ih (fun y hy => ha y (by simp [hy]))]
    rfl

theorem strIndex_byte {a : Str} {b : UInt8} (t : Str) (ha : b ∉ a) :
    strIndex (a ++ b :: t) [b] = some a.length := by
  induction a with
  | nil => simp [strIndex]
  | cons x a ih =>
    simp only [List.mem_cons, not_or] at ha
    rw [List.cons_append, strIndex]
    rw [if_neg (by simp [ha.1]), ih ha.2]
    rfl

theorem cutAfter_byte {a : Str} {b : UInt8} (t : Str) (ha : b ∉ a) :
    cutAfter (a ++ b :: t) b = .ok (a ++ [b], t) := by
  unfold cutAfter
  rw [strIndex_byte t ha]
  simp only [sliceFrom, sliceTo]
  rw [if_pos (by simp), if_pos (by simp)]
  simp only [R.bind_ok]
  have : a ++ b :: t = (a ++ [b]) ++ t := by simp
  rw [this]
  have h2 : a.length + 1 = (a ++ [b]).length := by simp
  rw [h2, List.drop_left, List.take_left]

theorem isWild_lt {b : UInt8} (h : isWild b = true) : b.toNat < 128 := by
  simp only [isWild, Bool.or_eq_true, decide_eq_true_eq] at h
  rcases h with ((((rfl | rfl) | rfl) | rfl) | rfl) | rfl <;> decide

theorem isSpecial_of_wild {c : Char} {b : UInt8} (h : isWild b = true) (e : c.toNat = b.toNat) :
    isSpecial c = true := by
  simp only [isWild, Bool.or_eq_true, decide_eq_true_eq] at h
  have key : ∀ d : Char, d.toNat = b.toNat → c = d := fun d hd => Char.toNat_val_inj (e.trans hd.symm)
  rcases h with ((((rfl | rfl) | rfl) | rfl) | rfl) | rfl
  · rw [key '[' rfl]; decide
  · rw [key ']' rfl]; decide
  · rw [key '{' rfl]; decide
  · rw [key '}' rfl]; decide
  · rw [key '*' rfl]; decide
  · rw [key '?' rfl]; decide

theorem isWild_of_special {c : Char} (h : isSpecial c = true) :
    ∃ b : UInt8, utf8 [c] = [b] ∧ isWild b = true := by
  simp only [isSpecial, Bool.or_eq_true, decide_eq_true_eq] at h
  rcases h with ((((rfl | rfl) | rfl) | rfl) | rfl) | rfl
  · exact ⟨91, by decide⟩
  · exact ⟨93, by decide⟩
  · exact ⟨123, by decide⟩
  · exact ⟨125, by decide⟩
  · exact ⟨42, by decide⟩
  · exact ⟨63, by decide⟩

theorem no_wild {cs : List Char} (h : ∀ c ∈ cs, isSpecial c = false) :
    ∀ x ∈ utf8 cs, isWild x = false := by
  intro x hx
  cases hw : isWild x with
  | false => rfl
  | true =>
    obtain ⟨c, hc, e⟩ := (mem_utf8_ascii (isWild_lt hw) cs).1 hx
    have := isSpecial_of_wild hw e
    rw [h c hc] at this
    cases this

theorem hasWildcard_utf8 (cs : List Char) : hasWildcard (utf8 cs) = cs.any isSpecial := by
  rw [Bool.eq_iff_iff]
  simp only [hasWildcard, List.any_eq_true]
  constructor
  · rintro ⟨b, hb, hw⟩
    obtain ⟨c, hc, e⟩ := (mem_utf8_ascii (isWild_lt hw) cs).1 hb
    exact ⟨c, hc, isSpecial_of_wild hw e⟩
  · rintro ⟨c, hc, hs⟩
    obtain ⟨b, e, hw⟩ := isWild_of_special hs
    refine ⟨b, ?_, hw⟩
    obtain ⟨l, r, rfl⟩ := List.append_of_mem hc
    rw [utf8_append, List.mem_append]
    right
    rw [show c :: r = [c] ++ r from rfl, utf8_append, e]
    simp

/-! ## Literal runs -/

theorem literalItem_isLit {cs : List Char} (hne : cs ≠ []) (hff : ∀ c ∈ cs, isFF c = false) :
    IsLit (literalItem (utf8 cs)) cs := by
  cases cs with
  | nil => exact absurd rfl hne
  | cons c cs =>
    unfold literalItem
    rw [decodeRune_utf8_cons]
    dsimp only
    have hl : (utf8 (c :: cs)).length = (encodeRune c.toNat).length + (utf8 cs).length := by
      rw [utf8_cons]; simp
    split
    · rename_i h
      have hcs : cs = [] := by
        rw [← utf8_eq_nil, ← List.length_eq_zero_iff]; omega
      subst hcs
      split
      · rename_i h1
        refine ⟨?_, ?_⟩
        · rw [utf8_cons, encodeRune_ascii (by omega)]; rfl
        · rw [ofNat_toNat_lt (by omega)]; omega
      · refine ⟨c, rfl, rfl, ?_⟩
        have := hff c (by simp)
        simpa [isFF, runeError] using this
    · rfl

/-! ## Classes -/

/-- The item of a character class. -/
structure ClsItem (es : List ClassElt) (it : Item) : Prop where
  kind : (∃ c : Char, IsLit it [c]) ∨ IsRanges it
  sem : ∀ cs, it.Sem cs ↔ ∃ c : Char, cs = [c] ∧ ClassMem es c.toNat
  pos : 1 ≤ it.minLen
  bounds : ∀ c : Char, ClassMem es c.toNat →
    it.minLen ≤ (utf8 [c]).length ∧ ((utf8 [c]).length : Int) ≤ it.maxLen
  maxNonneg : 0 ≤ it.maxLen
  cls : ∀ rs, it = .ranges rs → RunesRanges.ClassSem rs (ClassMem es)
  canon : ∀ rs, it = .ranges rs → rs.needMerge = false
  two : ∀ rs, it = .ranges rs → ∃ c d, c ≠ d ∧ ClassMem es c ∧ ClassMem es d

theorem class_endpoint {es : List ClassElt} (hne : es ≠ []) (hok : ∀ e ∈ es, e.Ok) :
    ∃ c : Char, ClassMem es c.toNat ∧ c.toNat ≠ 0xFFFD := by
  cases es with
  | nil => exact absurd rfl hne
  | cons e es =>
    have h := hok e (by simp)
    cases e with
    | one c => exact ⟨c, ⟨_, List.mem_cons_self, by simp [ClassElt.Mem]⟩, h.2⟩
    | range a b =>
      simp only [ClassElt.Ok] at h
      exact ⟨a, ⟨_, List.mem_cons_self, by simp [ClassElt.Mem]; omega⟩, h.2.2.1⟩

theorem mem_codes {d : Nat} (h0 : d ≠ 0) (h1 : d < 128) : UInt8.ofNat d ∈ ASCIISet.codes := by
  unfold ASCIISet.codes
  exact List.mem_map.2 ⟨d, by simp [List.mem_range'_1]; omega, rfl⟩

theorem utf8_single_length (c : Char) : ((utf8 [c]).length : Int) = runeLen c.toNat := by
  rw [utf8_cons]
  simp [← encodeRune_length (Char.runeOk c)]

theorem isLit_clsItem {es : List ClassElt} {it : Item} {c : Char} (h : IsLit it [c])
    (hc : ClassMem es c.toNat) (hm : ∀ d, ClassMem es d → d = c.toNat) : ClsItem es it where
  kind := Or.inl ⟨c, h⟩
  two := by rintro rs rfl; exact h.elim
  sem := by
    intro cs
    rw [h.sem]
    constructor
    · rintro rfl; exact ⟨c, rfl, hc⟩
    · rintro ⟨d, rfl, hd⟩; rw [Char.toNat_val_inj (hm _ hd)]
  pos := by
    rw [h.lens.1, utf8_single_length]
    exact RunesRanges.runeLen_pos (Char.runeOk c)
  bounds := by
    intro d hd
    rw [Char.toNat_val_inj (hm _ hd), h.lens.1, h.lens.2]
    omega
  maxNonneg := by rw [h.lens.2]; omega
  cls := by rintro rs rfl; exact h.elim
  canon := by rintro rs rfl; exact h.elim

theorem addOne_needMerge (rs : RunesRanges) (n : Nat) :
    (rs.addOne n).needMerge = rs.needMerge := by
  unfold RunesRanges.addOne RunesRanges.setSizes
  split <;> dsimp only <;> repeat' split
  all_goals rfl

theorem expandLoop_needMerge (cs : List Nat) (rs : RunesRanges) (start : Nat) (b : Bool)
    (h0 : rs.needMerge = false) (rs' : RunesRanges)
    (h : RunesRanges.expandLoop rs start b cs = some rs') : rs'.needMerge = false := by
  have hset : ∀ (r : RunesRanges) (n : Int), (r.setSizes n).needMerge = r.needMerge := by
    intro r n
    unfold RunesRanges.setSizes
    dsimp only
    repeat' split
    all_goals rfl
  have hadd : (if start ≠ runeError then rs.addOne start else rs).needMerge = false := by
    split
    · rw [addOne_needMerge, h0]
    · exact h0
  induction cs generalizing rs start b with
  | nil =>
    rw [RunesRanges.expandLoop] at h
    injection h with h
    subst h
    exact hadd
  | cons c cs ih =>
    have go : ∀ (r : RunesRanges) (st : Nat) (b : Bool), r.needMerge = false →
        RunesRanges.expandLoop r st b cs = some rs' → rs'.needMerge = false := by
      intro r st b hr h
      refine ih r st b hr h ?_
      split
      · rw [addOne_needMerge, hr]
      · exact hr
    rw [RunesRanges.expandLoop] at h
    dsimp only at h
    repeat' split at h
    all_goals first
      | exact go _ _ _ h0 h
      | exact go _ _ _ (by rw [hset]; exact h0) h
      | exact go _ _ _ ((hset _ _).trans h0) h
      | exact go _ _ _ (by rw [addOne_needMerge]; exact h0) h
      | cases h

theorem expand_needMerge {s : Str} {rs : RunesRanges} (h : RunesRanges.expand s = some rs) :
    rs.needMerge = false := by
  unfold RunesRanges.expand at h
  split at h
  · split at h
    · dsimp only at h
      split at h
      · injection h with h; rw [← h]
      · exact expandLoop_needMerge _ _ _ _ rfl _ h
    · cases h
  · cases h

theorem codes_nodup : ASCIISet.codes.Nodup := by decide +kernel

theorem ascii_of_contains {s : ASCIISet} {b : UInt8} (h : s.contains b = true) : b.toNat < 128 := by
  unfold ASCIISet.contains at h
  split at h
  · cases h
  · omega

theorem classItem_spec {es : List ClassElt} (hne : es ≠ []) (hok : ∀ e ∈ es, e.Ok)
    (h0 : ¬ ClassMem es 0) {rs : RunesRanges} (hs : RunesRanges.ClassSem rs (ClassMem es))
    (hnm : rs.needMerge = false) :
    ∃ it, classItem rs = some it ∧ ClsItem es it := by
  obtain ⟨c, hc, hff⟩ := class_endpoint hne hok
  have hcount := ASCIISet.count_eq rs.ascii
  -- membership below and above 128
  have lowMem : ∀ d, d < 128 → (ClassMem es d ↔ rs.ascii.contains (UInt8.ofNat d) = true) := by
    intro d hd
    rw [← hs.mem, RunesRanges.contains_of_lt rs (by omega)]
  have lowIn : ∀ d, d < 128 → ClassMem es d →
      UInt8.ofNat d ∈ ASCIISet.codes.filter rs.ascii.contains := by
    intro d hd hm
    have hd0 : d ≠ 0 := by rintro rfl; exact h0 hm
    exact List.mem_filter.2 ⟨mem_codes hd0 hd, (lowMem d hd).1 hm⟩
  have highMem : ∀ d, 128 ≤ d → (ClassMem es d ↔ InRanges rs.ranges d) := by
    intro d hd
    rw [← hs.mem, RunesRanges.contains_of_ge rs (by omega)]
    exact RunesRanges.containsUnicode_spec hs.sorted d
  have hranges : (∃ c d, c ≠ d ∧ ClassMem es c ∧ ClassMem es d) → ClsItem es (.ranges rs) := by
    intro htwo
    have hsz := hs.sizes c.toNat (Char.runeOk c) hc
    refine ⟨Or.inr ⟨rs, rfl, ?_⟩, ?_, ?_, ?_, ?_, ?_, ?_, fun _ _ => htwo⟩
    · intro d hd
      exact (hs.sizes d.toNat (Char.runeOk d) ((hs.mem _).1 hd)).2.1
    · intro cs
      simp only [Item.Sem, hs.mem]
    · exact hsz.1
    · intro d hd
      rw [utf8_single_length]
      exact (hs.sizes d.toNat (Char.runeOk d) hd).2
    · simp only [Item.maxLen]; omega
    · rintro _ ⟨⟩; exact hs
    · rintro _ ⟨⟩; exact hnm
  have codeMem : ∀ b ∈ ASCIISet.codes.filter rs.ascii.contains, ClassMem es b.toNat := by
    intro b hb
    have hb := (List.mem_filter.1 hb).2
    have hlt := ascii_of_contains hb
    refine (lowMem _ hlt).2 ?_
    simpa using hb
  unfold classItem
  rw [hcount]
  dsimp only
  generalize hL : ASCIISet.codes.filter rs.ascii.contains = L at *
  by_cases hr : rs.ranges = []
  · -- only ASCII members
    have hlt : ∀ d, ClassMem es d → d < 128 := by
      intro d hd
      apply Classical.byContradiction
      intro hn
      have := (highMem d (by omega)).1 hd
      rw [hr] at this
      obtain ⟨r, h, _⟩ := this
      cases h
    have hcL := lowIn c.toNat (hlt _ hc) hc
    have hL0 : L.length ≠ 0 := by
      intro e
      rw [List.length_eq_zero_iff.1 e] at hcL
      cases hcL
    rw [if_neg (by simp [hL0])]
    by_cases h1 : L.length = 1
    · rw [if_pos ⟨by simp [hr], h1⟩]
      obtain ⟨b, rfl⟩ := List.length_eq_one_iff.1 h1
      refine ⟨_, rfl, ?_⟩
      have hb : b = UInt8.ofNat c.toNat := (List.mem_singleton.1 hcL).symm
      have hbn : b.toNat = c.toNat := by
        rw [hb, ofNat_toNat_lt (by have := hlt _ hc; omega)]
      apply isLit_clsItem (c := c) _ hc
      · intro d hd
        have h2 := lowIn d (hlt d hd) hd
        have h3 : UInt8.ofNat d = b := by simpa using h2
        have h4 : (UInt8.ofNat d).toNat = d := ofNat_toNat_lt (by have := hlt d hd; omega)
        rw [h3] at h4
        omega
      · refine ⟨?_, ?_⟩
        · rw [utf8_cons, encodeRune_ascii (hlt _ hc)]
          simp [hb]
        · simp only [List.head?_cons, Option.getD_some]
          rw [hbn]; exact hlt _ hc
    · rw [if_neg (by simp [h1])]
      rw [hr]
      refine ⟨_, rfl, hranges ?_⟩
      match L, hL, hL0, h1 with
      | [], _, h, _ => exact absurd rfl h
      | [_], _, _, h => exact absurd rfl h
      | b :: b' :: L, hL, _, _ =>
        have hnd : (b :: b' :: L).Nodup := hL ▸ codes_nodup.filter _
        have hb : ∀ x ∈ b :: b' :: L, ClassMem es x.toNat := by
          exact codeMem
        refine ⟨b.toNat, b'.toNat, ?_, hb b (by simp), hb b' (by simp)⟩
        intro e
        have := UInt8.toNat_inj.1 e
        rw [this] at hnd
        simp at hnd
  · have hrl : rs.ranges.length ≠ 0 := by simpa using hr
    rw [if_neg (by simp [hr]), if_neg (by simp [hr])]
    split
    · rename_i r hre
      by_cases hcond : L.length = 0 ∧ r.first = r.last
      · rw [if_pos hcond]
        refine ⟨_, rfl, ?_⟩
        have hge : ∀ d, ClassMem es d → d = r.first := by
          intro d hd
          have hd128 : 128 ≤ d := by
            apply Classical.byContradiction
            intro hn
            have := lowIn d (by omega) hd
            rw [List.length_eq_zero_iff.1 hcond.1] at this
            cases this
          obtain ⟨r', hr', h1, h2⟩ := (highMem d hd128).1 hd
          rw [hre] at hr'
          simp only [List.mem_singleton] at hr'
          subst hr'
          omega
        apply isLit_clsItem (c := c) _ hc
        · intro d hd
          rw [hge d hd, hge _ hc]
        · exact ⟨c, rfl, hge _ hc, by rw [← hge _ hc]; exact hff⟩
      · rw [if_neg hcond]
        refine ⟨_, rfl, hranges ?_⟩
        have hw := hs.sorted.wf r (by rw [hre]; simp)
        have h127 := hs.wf r (by rw [hre]; simp)
        have hf : ClassMem es r.first := (highMem _ (by omega)).2 ⟨r, by rw [hre]; simp, by omega, hw⟩
        by_cases hl : L.length = 0
        · exact ⟨r.first, r.last, fun e => hcond ⟨hl, e⟩, hf,
            (highMem _ (by omega)).2 ⟨r, by rw [hre]; simp, hw, by omega⟩⟩
        · obtain ⟨b, hb⟩ := List.exists_mem_of_ne_nil L (by rintro rfl; exact hl rfl)
          have h2 := codeMem b hb
          rw [← hL] at hb
          have h3 : b.toNat < 128 := ascii_of_contains (List.mem_filter.1 hb).2
          exact ⟨b.toNat, r.first, by omega, h2, hf⟩
    · rename_i hn
      refine ⟨_, rfl, hranges ?_⟩
      match hre : rs.ranges, hr, hn with
      | [], h, _ => exact absurd rfl h
      | [r], _, h => exact absurd rfl (h r)
      | r :: r' :: l, _, _ =>
        have hw := hs.sorted.wf r (by rw [hre]; simp)
        have hw' := hs.sorted.wf r' (by rw [hre]; simp)
        have h127 := hs.wf r (by rw [hre]; simp)
        have h127' := hs.wf r' (by rw [hre]; simp)
        have hsep := hs.sorted.sep
        rw [hre] at hsep
        have := (List.pairwise_cons.1 hsep).1 r' (by simp)
        exact ⟨r.first, r'.first, by omega,
          (highMem _ (by omega)).2 ⟨r, by rw [hre]; simp, by omega, hw⟩,
          (highMem _ (by omega)).2 ⟨r', by rw [hre]; simp, by omega, hw'⟩⟩

end GoMatcher
