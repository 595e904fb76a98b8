import Verif.Proofs.AsciiSet

/-!
# C35: `ASCIISet` is a set of ASCII bytes

Statements only mention the public operations and lists of bytes.
-/

namespace GoMatcher
namespace C35

/-- The set obtained by calling `Add` on the bytes of `xs`, in order. -/
def built (xs : List UInt8) : ASCIISet := xs.foldl (fun s c => (s.add c).1) ASCIISet.empty

/-- After any sequence of `Add` calls, `Contains` is membership among the added
ASCII bytes. -/
theorem contains_built (xs : List UInt8) (d : UInt8) :
    (built xs).contains d = true ↔ d ∈ xs ∧ d.toNat < 128 := by
  unfold built ASCIISet.empty
  rw [ASCIISet.contains_foldl_add]
  simp

/-- `Add` reports whether the byte is ASCII, and leaves the set alone otherwise. -/
theorem add_flag (s : ASCIISet) (c : UInt8) :
    (s.add c).2 = decide (c.toNat < 128) ∧ (128 ≤ c.toNat → (s.add c).1 = s) := by
  unfold ASCIISet.add
  by_cases h : 128 ≤ c.toNat
  · have : ¬ c.toNat < 128 := by omega
    simp [h, this]
  · have : c.toNat < 128 := by omega
    simp [h, this]

/-- One `Add` on any set (not only one built by `Add`) changes membership of the
added byte only. -/
theorem contains_add (s : ASCIISet) (c d : UInt8) :
    (s.add c).1.contains d = true ↔ s.contains d = true ∨ (d = c ∧ c.toNat < 128) := by
  rw [ASCIISet.contains_add]; simp

/-- `Clear` empties the set. -/
theorem contains_clear (s : ASCIISet) (d : UInt8) : s.clear.contains d = false := by
  unfold ASCIISet.clear; simp

/-- `MakeASCIISet` succeeds exactly on ASCII-only text and then contains exactly
the bytes of the text. -/
theorem make_spec (cs : Str) :
    ((ASCIISet.make cs).2 = true ↔ ∀ c ∈ cs, c.toNat < 128) ∧
    ((∀ c ∈ cs, c.toNat < 128) → ∀ d, (ASCIISet.make cs).1.contains d = true ↔ d ∈ cs) := by
  refine ⟨ASCIISet.makeLoop_ok cs _, fun h d => ?_⟩
  unfold ASCIISet.make
  rw [ASCIISet.makeLoop_contains cs _ h]
  simp

/-- `MakeASCIISetMust` panics exactly on text that is not pure ASCII. -/
theorem makeMust_panic_iff (cs : Str) :
    ASCIISet.makeMust cs = R.panic ↔ ∃ c ∈ cs, 128 ≤ c.toNat := by
  have h := (make_spec cs).1
  have e : ASCIISet.makeMust cs = R.panic ↔ ¬ (ASCIISet.make cs).2 = true := by
    unfold ASCIISet.makeMust
    cases hb : (ASCIISet.make cs).2 <;> simp [hb]
  rw [e, h]
  constructor
  · intro hn
    apply Classical.byContradiction
    intro hne
    apply hn
    intro c hc
    apply Classical.byContradiction
    intro hlt
    exact hne ⟨c, hc, by omega⟩
  · rintro ⟨c, hc, hlt⟩ hh
    have := hh c hc
    omega

/-- `Index` is the position of the first member; `-1` means there is none. -/
theorem index_some (s : ASCIISet) (t : Str) (i : Nat) :
    s.index t = some i ↔
      ∃ h : i < t.length, s.contains t[i] = true ∧ ∀ j (hj : j < i), s.contains t[j] = false :=
  indexP_some

theorem index_none (s : ASCIISet) (t : Str) :
    s.index t = none ↔ ∀ b ∈ t, s.contains b = false :=
  indexP_none

/-- `LastIndex` is the position of the last member; `-1` means there is none. -/
theorem lastIndex_some (s : ASCIISet) (t : Str) (i : Nat) :
    s.lastIndex t = some i ↔
      ∃ h : i < t.length, s.contains t[i] = true ∧
        ∀ j (hj : j < t.length), i < j → s.contains t[j] = false := by
  unfold ASCIISet.lastIndex
  rw [ASCIISet.lastIndexLoop_some (Nat.le_refl _)]
  constructor
  · rintro ⟨h1, h2, h3⟩
    refine ⟨h1, ?_, fun j hj hij => ?_⟩
    · rw [getD_eq_getElem _ _ h1] at h2; exact h2
    · have := h3 j hij hj
      rw [getD_eq_getElem _ _ hj] at this; exact this
  · rintro ⟨h1, h2, h3⟩
    refine ⟨h1, ?_, fun j hij hj => ?_⟩
    · rw [getD_eq_getElem _ _ h1]; exact h2
    · rw [getD_eq_getElem _ _ hj]; exact h3 j hj hij

theorem lastIndex_none (s : ASCIISet) (t : Str) :
    s.lastIndex t = none ↔ ∀ b ∈ t, s.contains b = false := by
  unfold ASCIISet.lastIndex
  rw [ASCIISet.lastIndexLoop_none]
  constructor
  · intro h b hb
    obtain ⟨i, hi, e⟩ := List.getElem_of_mem hb
    have := h i hi
    rw [getD_eq_getElem _ _ hi, e] at this
    exact this
  · intro h i hi
    rw [getD_eq_getElem _ _ hi]
    exact h _ (List.getElem_mem hi)

/-- `Count` returns how many of the bytes 1..127 are members, and the smallest of
them (0 when there is none).  Byte 0 is not counted. -/
theorem count_spec (s : ASCIISet) :
    s.count.1 = (((List.range' 1 127).map UInt8.ofNat).filter s.contains).length ∧
    s.count.2 = ((((List.range' 1 127).map UInt8.ofNat).filter s.contains).head?).getD 0 := by
  rw [ASCIISet.count_eq]
  exact ⟨rfl, rfl⟩

/-- NUL can be added and is then a member, but `Count` does not see it. -/
theorem count_ignores_nul :
    (built [0]).contains 0 = true ∧ (built [0]).count = (0, 0) := by decide +kernel

-- Concrete, non-trivial cases.
example : (built (b! "abcz-")).contains 0x7A = true ∧ (built (b! "abcz-")).contains 0x64 = false ∧
    (built (b! "bя")).contains 0xD1 = false := by decide +kernel
example : (built (b! "zabc")).count = (4, 0x61) := by decide +kernel
example : (built (b! "bc")).index (b! "aacab") = some 2 ∧
    (built (b! "bc")).lastIndex (b! "aacab") = some 4 ∧
    (built (b! "bc")).lastIndex (b! "xyz") = none := by decide +kernel
example : ASCIISet.makeMust (b! "aя") = R.panic := by decide +kernel

end C35
end GoMatcher
