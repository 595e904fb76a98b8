import Verif.Model.AsciiSet

/-! # Facts about the ASCII set model -/

namespace GoMatcher
namespace ASCIISet

theorem and_shift_ne_zero (w : BitVec 32) (n : Nat) (hn : n < 32) :
    ((w &&& (1#32 <<< n)) != 0) = w.getLsbD n := by
  have h : (1#32 <<< n) = BitVec.twoPow 32 n := by
    rw [BitVec.twoPow_eq]
  rw [h, BitVec.and_twoPow]
  split
  · rename_i hb
    rw [hb]
    have : BitVec.twoPow 32 n ≠ 0#32 := by
      intro e
      have := congrArg (fun b => b.getLsbD n) e
      simp [hn] at this
    simpa using this
  · rename_i hb
    simp at hb
    simp [hb]

theorem or_shift_getLsbD (w : BitVec 32) (n m : Nat) (hn : n < 32) :
    (w ||| (1#32 <<< n)).getLsbD m = (w.getLsbD m || decide (m = n)) := by
  have h : (1#32 <<< n) = BitVec.twoPow 32 n := by
    rw [BitVec.twoPow_eq]
  rw [h, BitVec.getLsbD_or, BitVec.getLsbD_twoPow]
  congr 1
  simp [hn]
  exact eq_comm

theorem contains_eq (s : ASCIISet) (c : UInt8) :
    s.contains c = (decide (c.toNat < 128) && (s.get (c.toNat / 32)).getLsbD (c.toNat % 32)) := by
  unfold contains
  split
  · rename_i h
    have : ¬ c.toNat < 128 := by omega
    simp [this]
  · rename_i h
    rw [and_shift_ne_zero _ _ (by omega)]
    have : c.toNat < 128 := by omega
    simp [this]

theorem get_set (s : ASCIISet) (i j : Nat) (w : BitVec 32) (hi : i < 8) (hj : j < 8) :
    (s.set i w).get j = if j = i then w else s.get j := by
  have : i = 0 ∨ i = 1 ∨ i = 2 ∨ i = 3 ∨ i = 4 ∨ i = 5 ∨ i = 6 ∨ i = 7 := by omega
  have : j = 0 ∨ j = 1 ∨ j = 2 ∨ j = 3 ∨ j = 4 ∨ j = 5 ∨ j = 6 ∨ j = 7 := by omega
  rcases ‹i = 0 ∨ _› with h | h | h | h | h | h | h | h <;> subst h <;>
  rcases ‹j = 0 ∨ _› with h | h | h | h | h | h | h | h <;> subst h <;> rfl

theorem contains_setBit (s : ASCIISet) (c d : UInt8) (hc : c.toNat < 128) :
    (s.setBit c).contains d = (s.contains d || decide (d = c)) := by
  rw [contains_eq, contains_eq]
  by_cases hd : d.toNat < 128
  · simp only [hd, decide_true, Bool.true_and]
    unfold setBit
    rw [get_set _ _ _ _ (by omega) (by omega)]
    by_cases e : d.toNat / 32 = c.toNat / 32
    · rw [if_pos e, e, or_shift_getLsbD _ _ _ (by omega)]
      congr 1
      by_cases e2 : d.toNat % 32 = c.toNat % 32
      · have : d = c := UInt8.toNat_inj.mp (by omega)
        simp [this]
      · have : d ≠ c := by rintro rfl; exact e2 rfl
        simp [e2, this]
    · have : d ≠ c := by rintro rfl; exact e rfl
      simp [e, this]
  · have : d ≠ c := by rintro rfl; exact hd hc
    simp [hd, this]

theorem contains_add (s : ASCIISet) (c d : UInt8) :
    (s.add c).1.contains d = (s.contains d || (decide (d = c) && decide (c.toNat < 128))) := by
  unfold add
  split
  · have : ¬ c.toNat < 128 := by omega
    simp [this]
  · have : c.toNat < 128 := by omega
    simp [this, contains_setBit]

@[simp] theorem contains_empty (d : UInt8) : contains {} d = false := by
  rw [contains_eq]
  have : ∀ i, get {} i = 0#32 := by
    intro i
    unfold get
    split <;> rfl
  rw [this]; simp

theorem contains_lt {s : ASCIISet} {d : UInt8} (h : s.contains d = true) : d.toNat < 128 := by
  rw [contains_eq] at h
  simp at h
  exact h.1

theorem contains_foldl_add (xs : List UInt8) (s : ASCIISet) (d : UInt8) :
    (xs.foldl (fun s c => (s.add c).1) s).contains d = true ↔
      s.contains d = true ∨ (d ∈ xs ∧ d.toNat < 128) := by
  induction xs generalizing s with
  | nil => simp
  | cons x xs ih =>
    rw [List.foldl_cons, ih, contains_add]
    simp only [Bool.or_eq_true, Bool.and_eq_true, decide_eq_true_eq, List.mem_cons]
    constructor
    · rintro ((h | ⟨h, h2⟩) | ⟨h, h2⟩)
      · exact Or.inl h
      · subst h; exact Or.inr ⟨Or.inl rfl, h2⟩
      · exact Or.inr ⟨Or.inr h, h2⟩
    · rintro (h | ⟨h | h, h2⟩)
      · exact Or.inl (Or.inl h)
      · subst h; exact Or.inl (Or.inr ⟨rfl, h2⟩)
      · exact Or.inr ⟨h, h2⟩

theorem makeLoop_ok (cs : Str) (s : ASCIISet) :
    (makeLoop s cs).2 = true ↔ ∀ c ∈ cs, c.toNat < 128 := by
  induction cs generalizing s with
  | nil => simp [makeLoop]
  | cons c cs ih =>
    unfold makeLoop
    split
    · simp; omega
    · rw [ih]; simp; omega

theorem makeLoop_contains (cs : Str) (s : ASCIISet) (h : ∀ c ∈ cs, c.toNat < 128) (d : UInt8) :
    (makeLoop s cs).1.contains d = true ↔ s.contains d = true ∨ d ∈ cs := by
  induction cs generalizing s with
  | nil => simp [makeLoop]
  | cons c cs ih =>
    have hc := h c (by simp)
    unfold makeLoop
    rw [if_neg (by omega), ih _ (fun x hx => h x (by simp [hx])), contains_setBit _ _ _ hc]
    simp [or_assoc]

/-- An empty bit array contains nothing. -/
theorem isEmpty_contains {s : ASCIISet} (h : s.isEmpty = true) (d : UInt8) :
    s.contains d = false := by
  unfold isEmpty at h
  simp at h
  rw [contains_eq]
  have : ∀ i, s.get i = 0#32 := by
    intro i
    unfold get
    split <;> simp [h]
  simp [this]

theorem mem_codes (d : UInt8) : d ∈ codes ↔ 1 ≤ d.toNat ∧ d.toNat < 128 := by
  unfold codes
  simp only [List.mem_map, List.mem_range'_1]
  constructor
  · rintro ⟨a, ⟨h1, h2⟩, rfl⟩
    rw [UInt8.toNat_ofNat', Nat.mod_eq_of_lt (by omega)]
    omega
  · rintro ⟨h1, h2⟩
    refine ⟨d.toNat, by omega, by simp⟩

theorem countLoop_fst (s : ASCIISet) (l : List UInt8) (n : Nat) (f : UInt8) :
    (countLoop s l (n, f)).1 = n + (l.filter s.contains).length := by
  induction l generalizing n f with
  | nil => simp [countLoop]
  | cons i is ih =>
    unfold countLoop
    split
    · rename_i h
      rw [ih]; simp [h]; omega
    · rename_i h
      rw [ih]; simp [h]

theorem countLoop_snd (s : ASCIISet) (l : List UInt8) (n : Nat) (f : UInt8)
    (h0 : ∀ x ∈ l, x ≠ 0) :
    (countLoop s l (n, f)).2 = if f = 0 then ((l.filter s.contains).head?).getD 0 else f := by
  induction l generalizing n f with
  | nil => simp [countLoop]
  | cons i is ih =>
    have hi : i ≠ 0 := h0 i (by simp)
    unfold countLoop
    split
    · rename_i h
      rw [ih _ _ (fun x hx => h0 x (by simp [hx]))]
      by_cases hf : f = 0
      · simp [hf, h, hi]
      · simp [hf]
    · rename_i h
      rw [ih _ _ (fun x hx => h0 x (by simp [hx]))]
      simp [h]

theorem codes_ne_zero : ∀ x ∈ codes, x ≠ 0 := by
  intro x hx e
  rw [mem_codes, e] at hx
  simp at hx

theorem filter_codes_of_isEmpty {s : ASCIISet} (h : s.isEmpty = true) :
    codes.filter s.contains = [] := by
  rw [List.filter_eq_nil_iff]
  intro a _
  rw [isEmpty_contains h]; simp

theorem count_eq (s : ASCIISet) :
    s.count = ((codes.filter s.contains).length, ((codes.filter s.contains).head?).getD 0) := by
  unfold count
  split
  · rename_i h
    rw [filter_codes_of_isEmpty h]; rfl
  · apply Prod.ext
    · rw [countLoop_fst]; simp
    · rw [countLoop_snd _ _ _ _ codes_ne_zero]; simp

end ASCIISet

theorem getD_eq_getElem {α : Type} (l : List α) (d : α) {i : Nat} (h : i < l.length) :
    l.getD i d = l[i] := by
  simp [List.getD_eq_getElem?_getD, h]

/-! ## Byte searches -/

theorem indexP_some {p : UInt8 → Bool} {s : Str} {i : Nat} :
    indexP p s = some i ↔
      ∃ h : i < s.length, p s[i] = true ∧ ∀ j (hj : j < i), p s[j] = false := by
  induction s generalizing i with
  | nil => simp [indexP]
  | cons b t ih =>
    unfold indexP
    split
    · rename_i hb
      constructor
      · intro h
        simp at h
        subst h
        exact ⟨by simp, by simpa using hb, by omega⟩
      · rintro ⟨h1, h2, h3⟩
        cases i with
        | zero => rfl
        | succ i =>
          have := h3 0 (by omega)
          simp [hb] at this
    · rename_i hb
      cases i with
      | zero => simp [hb]
      | succ i =>
        simp only [Option.map_eq_some_iff, Nat.add_right_cancel_iff, exists_eq_right]
        rw [ih]
        constructor
        · rintro ⟨h1, h2, h3⟩
          refine ⟨by simpa using h1, by simpa using h2, ?_⟩
          intro j hj
          cases j with
          | zero => simpa using hb
          | succ j => simpa using h3 j (by omega)
        · rintro ⟨h1, h2, h3⟩
          refine ⟨by simpa using h1, by simpa using h2, ?_⟩
          intro j hj
          simpa using h3 (j + 1) (by omega)

theorem indexP_none {p : UInt8 → Bool} {s : Str} :
    indexP p s = none ↔ ∀ b ∈ s, p b = false := by
  induction s with
  | nil => simp [indexP]
  | cons b t ih =>
    unfold indexP
    split
    · rename_i hb; simp [hb]
    · rename_i hb
      simp [ih, hb]

namespace ASCIISet

theorem lastIndexLoop_some {s : ASCIISet} {t : Str} {n i : Nat} (hn : n ≤ t.length) :
    lastIndexLoop s t n = some i ↔
      i < n ∧ s.contains (t.getD i 0) = true ∧
        ∀ j, i < j → j < n → s.contains (t.getD j 0) = false := by
  induction n with
  | zero => simp [lastIndexLoop]
  | succ n ih =>
    unfold lastIndexLoop
    split
    · rename_i h
      constructor
      · intro e
        simp at e
        subst e
        exact ⟨by omega, h, by omega⟩
      · rintro ⟨h1, h2, h3⟩
        by_cases e : i = n
        · rw [e]
        · have := h3 n (by omega) (by omega)
          rw [h] at this; cases this
    · rename_i h
      rw [ih (by omega)]
      constructor
      · rintro ⟨h1, h2, h3⟩
        refine ⟨by omega, h2, fun j hj1 hj2 => ?_⟩
        by_cases e : j = n
        · subst e; simpa using h
        · exact h3 j hj1 (by omega)
      · rintro ⟨h1, h2, h3⟩
        refine ⟨?_, h2, fun j hj1 hj2 => h3 j hj1 (by omega)⟩
        by_cases e : i = n
        · subst e; exact absurd h2 h
        · omega

theorem lastIndexLoop_none {s : ASCIISet} {t : Str} {n : Nat} :
    lastIndexLoop s t n = none ↔ ∀ i, i < n → s.contains (t.getD i 0) = false := by
  induction n with
  | zero => simp [lastIndexLoop]
  | succ n ih =>
    unfold lastIndexLoop
    split
    · rename_i h
      simp only [reduceCtorEq, false_iff]
      intro hh
      have := hh n (by omega)
      rw [h] at this; cases this
    · rename_i h
      rw [ih]
      constructor
      · intro hh i hi
        by_cases e : i = n
        · subst e; simpa using h
        · exact hh i (by omega)
      · intro hh i hi
        exact hh i (by omega)

end ASCIISet
end GoMatcher
