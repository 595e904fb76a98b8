import Verif.Basic

/-! # Facts about sorting and searching in lists -/

namespace GoMatcher

section Sorting
variable {α : Type} (le : α → α → Bool)

theorem insertSorted_perm (x : α) (l : List α) : (insertSorted le x l).Perm (x :: l) := by
  induction l with
  | nil => exact List.Perm.refl _
  | cons y ys ih =>
    unfold insertSorted
    split
    · exact List.Perm.refl _
    · exact (List.Perm.cons y ih).trans (List.Perm.swap x y ys)

theorem sortBy_perm (l : List α) : (sortBy le l).Perm l := by
  induction l with
  | nil => exact List.Perm.refl _
  | cons x xs ih =>
    exact (insertSorted_perm le x _).trans (List.Perm.cons x ih)

theorem mem_sortBy {l : List α} {x : α} : x ∈ sortBy le l ↔ x ∈ l :=
  (sortBy_perm le l).mem_iff

theorem insertSorted_pairwise (total : ∀ a b, le a b = true ∨ le b a = true)
    (trans : ∀ a b c, le a b = true → le b c = true → le a c = true)
    (x : α) (l : List α) (h : l.Pairwise (fun a b => le a b = true)) :
    (insertSorted le x l).Pairwise (fun a b => le a b = true) := by
  induction l with
  | nil => simp [insertSorted]
  | cons y ys ih =>
    unfold insertSorted
    rw [List.pairwise_cons] at h
    split
    · rename_i hxy
      rw [List.pairwise_cons]
      refine ⟨?_, List.pairwise_cons.mpr h⟩
      intro z hz
      rcases List.mem_cons.mp hz with rfl | hz
      · exact hxy
      · exact trans _ _ _ hxy (h.1 z hz)
    · rename_i hxy
      rw [List.pairwise_cons]
      refine ⟨?_, ih h.2⟩
      intro z hz
      rcases List.mem_cons.mp ((insertSorted_perm le x ys).mem_iff.mp hz) with rfl | hz
      · rcases total z y with h' | h'
        · exact absurd h' hxy
        · exact h'
      · exact h.1 z hz

theorem sortBy_pairwise (total : ∀ a b, le a b = true ∨ le b a = true)
    (trans : ∀ a b c, le a b = true → le b c = true → le a c = true) (l : List α) :
    (sortBy le l).Pairwise (fun a b => le a b = true) := by
  induction l with
  | nil => simp [sortBy]
  | cons x xs ih => exact insertSorted_pairwise le total trans x _ ih

theorem perm_pairwise_eq (antisymm : ∀ a b, le a b = true → le b a = true → a = b)
    {l₁ l₂ : List α} (hp : l₁.Perm l₂) (h₁ : l₁.Pairwise (fun a b => le a b = true))
    (h₂ : l₂.Pairwise (fun a b => le a b = true)) : l₁ = l₂ :=
  hp.eq_of_pairwise (fun a b _ _ hab hba => antisymm a b hab hba) h₁ h₂

theorem sortBy_eq_of_perm (total : ∀ a b, le a b = true ∨ le b a = true)
    (trans : ∀ a b c, le a b = true → le b c = true → le a c = true)
    (antisymm : ∀ a b, le a b = true → le b a = true → a = b)
    {l₁ l₂ : List α} (hp : l₁.Perm l₂) : sortBy le l₁ = sortBy le l₂ :=
  perm_pairwise_eq le antisymm
    (((sortBy_perm le l₁).trans hp).trans (sortBy_perm le l₂).symm)
    (sortBy_pairwise le total trans l₁) (sortBy_pairwise le total trans l₂)

theorem sortBy_eq_self (total : ∀ a b, le a b = true ∨ le b a = true)
    (trans : ∀ a b c, le a b = true → le b c = true → le a c = true)
    (antisymm : ∀ a b, le a b = true → le b a = true → a = b)
    {l : List α} (h : l.Pairwise (fun a b => le a b = true)) : sortBy le l = l :=
  perm_pairwise_eq le antisymm (sortBy_perm le l) (sortBy_pairwise le total trans l) h

end Sorting

/-! ## The byte order on strings -/

theorem strLe_refl (a : Str) : strLe a a = true := by
  induction a with
  | nil => rfl
  | cons x xs ih => simp [strLe, ih]

theorem strLe_total (a b : Str) : strLe a b = true ∨ strLe b a = true := by
  induction a generalizing b with
  | nil => left; rfl
  | cons x xs ih =>
    cases b with
    | nil => right; rfl
    | cons y ys =>
      unfold strLe
      by_cases h1 : x < y
      · left; simp [h1]
      · by_cases h2 : x = y
        · subst h2
          simpa using ih ys
        · right
          have : y < x := by
            rw [UInt8.lt_iff_toNat_lt] at h1 ⊢
            have : x.toNat ≠ y.toNat := fun h => h2 (UInt8.toNat_inj.mp h)
            omega
          simp [this]

theorem strLe_trans (a b c : Str) (h1 : strLe a b = true) (h2 : strLe b c = true) :
    strLe a c = true := by
  induction a generalizing b c with
  | nil => rfl
  | cons x xs ih =>
    cases b with
    | nil => simp [strLe] at h1
    | cons y ys =>
      cases c with
      | nil => simp [strLe] at h2
      | cons z zs =>
        unfold strLe at h1 h2 ⊢
        by_cases hxy : x < y
        · by_cases hyz : y < z
          · have : x < z := by rw [UInt8.lt_iff_toNat_lt] at *; omega
            simp [this]
          · by_cases e : y = z
            · subst e; simp [hxy]
            · simp [hyz, e] at h2
        · by_cases e : x = y
          · subst e
            by_cases hyz : x < z
            · simp [hyz]
            · by_cases e : x = z
              · subst e
                simp at h1 h2 ⊢
                exact ih _ _ h1 h2
              · simp [hyz, e] at h2
          · simp [hxy, e] at h1

theorem strLe_antisymm (a b : Str) (h1 : strLe a b = true) (h2 : strLe b a = true) : a = b := by
  induction a generalizing b with
  | nil =>
    cases b with
    | nil => rfl
    | cons y ys => simp [strLe] at h2
  | cons x xs ih =>
    cases b with
    | nil => simp [strLe] at h1
    | cons y ys =>
      unfold strLe at h1 h2
      by_cases hxy : x < y
      · have h3 : ¬ y < x := by rw [UInt8.lt_iff_toNat_lt] at *; omega
        have h4 : y ≠ x := by rintro rfl; rw [UInt8.lt_iff_toNat_lt] at hxy; omega
        simp [h3, h4] at h2
      · by_cases e : x = y
        · subst e
          simp at h1 h2
          rw [ih _ h1 h2]
        · simp [hxy, e] at h1

theorem sortStrings_eq_of_perm {l₁ l₂ : List Str} (hp : l₁.Perm l₂) :
    sortBy strLe l₁ = sortBy strLe l₂ :=
  sortBy_eq_of_perm strLe strLe_total strLe_trans strLe_antisymm hp

/-! ## `strings.Index` -/

theorem strIndex_some {s w : Str} {i : Nat} :
    strIndex s w = some i ↔
      (∃ q, s = s.take i ++ w ++ q) ∧ i ≤ s.length ∧ ∀ j < i, ¬ w <+: s.drop j := by
  induction s generalizing i with
  | nil =>
    unfold strIndex
    split
    · rename_i h
      rw [List.isPrefixOf_iff_prefix] at h
      have hw : w = [] := List.prefix_nil.mp h
      subst hw
      constructor
      · intro h; simp at h; subst h; simp
      · rintro ⟨_, h, _⟩; simp at h; simp [h]
    · rename_i h
      rw [List.isPrefixOf_iff_prefix] at h
      constructor
      · intro h; simp at h
      · rintro ⟨⟨q, hq⟩, h1, h2⟩
        simp at hq
        exact absurd (by simp [hq.1]) h
  | cons b t ih =>
    unfold strIndex
    split
    · rename_i h
      rw [List.isPrefixOf_iff_prefix] at h
      constructor
      · intro e
        simp at e
        subst e
        obtain ⟨q, hq⟩ := h
        exact ⟨⟨q, by simp [hq]⟩, by simp, by omega⟩
      · rintro ⟨_, h1, h2⟩
        cases i with
        | zero => rfl
        | succ i => exact absurd h (h2 0 (by omega))
    · rename_i h
      rw [List.isPrefixOf_iff_prefix] at h
      cases i with
      | zero =>
        simp only [Option.map_eq_some_iff, Nat.add_eq_zero_iff, Nat.succ_ne_self, and_false,
          exists_const, false_iff]
        rintro ⟨⟨q, hq⟩, _⟩
        exact h ⟨q, by simpa using hq.symm⟩
      | succ i =>
        simp only [Option.map_eq_some_iff, Nat.add_right_cancel_iff, exists_eq_right]
        rw [ih]
        constructor
        · rintro ⟨⟨q, hq⟩, h1, h2⟩
          refine ⟨⟨q, by simpa using hq⟩, by simpa using h1, ?_⟩
          intro j hj
          cases j with
          | zero => simpa using h
          | succ j => simpa using h2 j (by omega)
        · rintro ⟨⟨q, hq⟩, h1, h2⟩
          refine ⟨⟨q, by simpa using hq⟩, by simpa using h1, ?_⟩
          intro j hj
          simpa using h2 (j + 1) (by omega)

theorem strIndex_none {s w : Str} :
    strIndex s w = none ↔ ∀ p q, s ≠ p ++ w ++ q := by
  induction s with
  | nil =>
    unfold strIndex
    split
    · rename_i h
      rw [List.isPrefixOf_iff_prefix] at h
      have hw : w = [] := List.prefix_nil.mp h
      subst hw
      simp only [reduceCtorEq, false_iff]
      intro h
      exact h [] [] rfl
    · rename_i h
      rw [List.isPrefixOf_iff_prefix] at h
      simp only [true_iff]
      intro p q hpq
      simp at hpq
      exact h (by simp [hpq.2.1])
  | cons b t ih =>
    unfold strIndex
    split
    · rename_i h
      rw [List.isPrefixOf_iff_prefix] at h
      obtain ⟨q, hq⟩ := h
      simp only [reduceCtorEq, false_iff]
      intro h
      exact h [] q (by simp [hq])
    · rename_i h
      rw [List.isPrefixOf_iff_prefix] at h
      simp only [Option.map_eq_none_iff]
      rw [ih]
      constructor
      · intro hh p q hpq
        cases p with
        | nil => exact h ⟨q, by simpa using hpq.symm⟩
        | cons c p =>
          simp at hpq
          exact hh p q (by simp [hpq.2])
      · intro hh p q hpq
        exact hh (b :: p) q (by rw [hpq]; simp)

theorem strIndex_lt_length {s w : Str} {i : Nat} (h : strIndex s w = some i) :
    i + w.length ≤ s.length := by
  obtain ⟨⟨q, hq⟩, h1, _⟩ := strIndex_some.mp h
  have := congrArg List.length hq
  simp at this
  omega

/-! ## Split on a separator byte -/

theorem splitByte_ne_nil (s : Str) (sep : UInt8) : splitByte s sep ≠ [] := by
  cases s with
  | nil => simp [splitByte]
  | cons b t =>
    unfold splitByte
    split
    · simp
    · split <;> simp

/-- Concatenation of parts with a separator byte between them (`strings.Join`). -/
def joinByte (sep : UInt8) : List Str → Str
  | [] => []
  | [p] => p
  | p :: q :: r => p ++ sep :: joinByte sep (q :: r)

theorem joinByte_cons_cons (sep : UInt8) (p q : Str) (r : List Str) :
    joinByte sep (p :: q :: r) = p ++ sep :: joinByte sep (q :: r) := rfl

theorem joinByte_splitByte (s : Str) (sep : UInt8) : joinByte sep (splitByte s sep) = s := by
  induction s with
  | nil => rfl
  | cons b t ih =>
    unfold splitByte
    split
    · rename_i h
      subst h
      cases hs : splitByte t b with
      | nil => exact absurd hs (splitByte_ne_nil _ _)
      | cons p ps => rw [joinByte_cons_cons, ← hs, ih]; rfl
    · cases hs : splitByte t sep with
      | nil => exact absurd hs (splitByte_ne_nil _ _)
      | cons p ps =>
        rw [hs] at ih
        cases ps with
        | nil => simp [joinByte] at ih ⊢; exact ih
        | cons q r =>
          rw [joinByte_cons_cons] at ih
          simp only [joinByte_cons_cons]
          rw [← ih]; rfl

theorem splitByte_no_sep (s : Str) (sep : UInt8) : ∀ p ∈ splitByte s sep, sep ∉ p := by
  induction s with
  | nil => simp [splitByte]
  | cons b t ih =>
    unfold splitByte
    split
    · intro p hp
      rcases List.mem_cons.mp hp with rfl | hp
      · simp
      · exact ih p hp
    · rename_i hb
      cases hs : splitByte t sep with
      | nil => exact absurd hs (splitByte_ne_nil _ _)
      | cons q qs =>
        rw [hs] at ih
        intro p hp
        rcases List.mem_cons.mp hp with rfl | hp
        · simp only [List.mem_cons, not_or]
          exact ⟨fun e => hb e.symm, ih q (by simp)⟩
        · exact ih p (by simp [hp])

theorem splitByte_of_not_mem {s : Str} {sep : UInt8} (h : sep ∉ s) : splitByte s sep = [s] := by
  induction s with
  | nil => rfl
  | cons b t ih =>
    simp only [List.mem_cons, not_or] at h
    unfold splitByte
    rw [if_neg (fun e => h.1 e.symm), ih h.2]

theorem splitByte_append_sep {p : Str} {sep : UInt8} (t : Str) (h : sep ∉ p) :
    splitByte (p ++ sep :: t) sep = p :: splitByte t sep := by
  induction p with
  | nil => simp [splitByte]
  | cons b p ih =>
    simp only [List.mem_cons, not_or] at h
    rw [List.cons_append, splitByte, if_neg (fun e => h.1 e.symm), ih h.2]

theorem splitByte_joinByte {sep : UInt8} {ps : List Str} (hne : ps ≠ [])
    (h : ∀ p ∈ ps, sep ∉ p) : splitByte (joinByte sep ps) sep = ps := by
  induction ps with
  | nil => exact absurd rfl hne
  | cons p ps ih =>
    cases ps with
    | nil => exact splitByte_of_not_mem (h p (by simp))
    | cons q r =>
      rw [joinByte_cons_cons, splitByte_append_sep _ (h p (by simp)),
        ih (by simp) (fun x hx => h x (by simp [hx]))]

end GoMatcher
