import Verif.Model.Wildcard
import Verif.Proofs.Lists
import Verif.Proofs.Utf8

namespace GoMatcher

theorem dupStart_spec (a : List Str) (h : a ≠ []) :
    dupStart a < a.length ∧ ∀ k, k ≤ dupStart a → a[k]? = a[dupStart a]? := by
  induction a with
  | nil => exact absurd rfl h
  | cons x t ih =>
    cases t with
    | nil => simp [dupStart]
    | cons y t =>
      have ih := ih (by simp)
      rw [dupStart]
      split
      · simp
      · rename_i hxy
        have hxy : x = y := Classical.not_not.mp hxy
        refine ⟨by simpa using ih.1, ?_⟩
        intro k hk
        cases k with
        | zero =>
          have := ih.2 0 (Nat.zero_le _)
          simpa [hxy] using this
        | succ k => simpa using ih.2 k (by omega)

theorem dupEnd_spec (a : List Str) (i j0 : Nat) (hi : i ≤ j0) :
    i ≤ dupEnd a i j0 ∧ dupEnd a i j0 ≤ j0 ∧
    ∀ k, dupEnd a i j0 ≤ k → k ≤ j0 → a[k]? = a[dupEnd a i j0]? := by
  induction j0 with
  | zero => simp [dupEnd]; omega
  | succ j ih =>
    rw [dupEnd]
    split
    · rename_i h
      have ih := ih (by omega)
      refine ⟨ih.1, by omega, ?_⟩
      intro k h1 h2
      by_cases hk : k = j + 1
      · subst hk
        rw [← h.2]
        exact ih.2.2 j ih.2.1 (Nat.le_refl _)
      · exact ih.2.2 k h1 (by omega)
    · refine ⟨hi, Nat.le_refl _, ?_⟩
      intro k h1 h2
      have : k = j + 1 := by omega
      rw [this]

/-- Adjacent equal elements collapsed (the last of a run is kept). -/
def dedupAdj : List Str → List Str
  | [] => []
  | [x] => [x]
  | x :: y :: t => if x = y then dedupAdj (y :: t) else x :: dedupAdj (y :: t)

theorem mem_dedupAdj (l : List Str) (x : Str) : x ∈ dedupAdj l ↔ x ∈ l := by
  induction l with
  | nil => simp [dedupAdj]
  | cons y t ih =>
    cases t with
    | nil => simp [dedupAdj]
    | cons z t =>
      rw [dedupAdj]
      split
      · rename_i h; rw [ih, h]; simp
      · rw [List.mem_cons, ih, List.mem_cons (a := x) (b := y)]

theorem strLt_of_le_ne {a b : Str} (h : strLe a b = true) (hne : a ≠ b) : strLt a b = true := by
  unfold strLt
  cases hb : strLe b a with
  | false => rfl
  | true => exact absurd (strLe_antisymm _ _ h hb) hne

theorem dedupAdj_sorted (l : List Str) (h : l.Pairwise (fun a b => strLe a b = true)) :
    (dedupAdj l).Pairwise (fun a b => strLt a b = true) := by
  induction l with
  | nil => simp [dedupAdj]
  | cons y t ih =>
    cases t with
    | nil => simp [dedupAdj]
    | cons z t =>
      rw [List.pairwise_cons] at h
      rw [dedupAdj]
      split
      · exact ih h.2
      · rename_i hne
        rw [List.pairwise_cons]
        refine ⟨?_, ih h.2⟩
        intro w hw
        rw [mem_dedupAdj] at hw
        have h1 := h.1 z (by simp)
        have h2 : strLe z w = true := by
          rcases List.mem_cons.mp hw with rfl | hw
          · exact strLe_refl _
          · exact (List.pairwise_cons.mp h.2).1 w hw
        apply strLt_of_le_ne (strLe_trans _ _ _ h1 h2)
        intro heq
        subst heq
        exact hne (strLe_antisymm _ _ h1 h2)

theorem dedupLoop_spec (fuel i j : Nat) (a : List Str) (hf : a.length ≤ i + fuel) (hj : j ≤ i)
    (hi : i ≤ a.length) :
    let r := dedupLoop a.length fuel i a j
    r.1.take r.2 = a.take j ++ dedupAdj (a.drop i) := by
  suffices H : ∀ n, n = a.length → let r := dedupLoop n fuel i a j
      r.1.take r.2 = a.take j ++ dedupAdj (a.drop i) by exact H _ rfl
  intro n hn
  induction fuel generalizing i j a with
  | zero =>
    have : a.drop i = [] := List.drop_eq_nil_of_le (by omega)
    simp [dedupLoop, this, dedupAdj]
  | succ fuel ih =>
    rw [dedupLoop]
    by_cases hlt : i < n
    · rw [if_pos hlt]
      have hlt' : i < a.length := by omega
      split
      · rename_i h
        have h1 : i + 1 < a.length := by omega
        have := ih (i + 1) j a (by omega) (by omega) (by omega) hn
        simp only at this ⊢
        rw [this]
        congr 1
        rw [List.drop_eq_getElem_cons hlt', List.drop_eq_getElem_cons h1, dedupAdj, if_pos]
        have := h.2
        rw [List.getElem?_eq_getElem hlt', List.getElem?_eq_getElem h1] at this
        simpa using this
      · rename_i h
        have := ih (i + 1) (j + 1) (a.set j (a.getD i [])) (by simp; omega) (by omega) (by simp; omega)
          (by simpa using hn)
        simp only at this ⊢
        rw [this]
        have hget : a.getD i [] = a[i] := by simp [List.getD, List.getElem?_eq_getElem hlt']
        rw [hget]
        have hd : (a.set j a[i]).drop (i + 1) = a.drop (i + 1) := by
          rw [List.drop_set]; simp; omega
        have ht : (a.set j a[i]).take (j + 1) = a.take j ++ [a[i]] := by
          rw [List.take_add_one]
          congr 1
          · rw [List.take_set_of_le (Nat.le_refl _)]
          · have : j < a.length := by omega
            simp [this]
        rw [hd, ht, List.append_assoc]
        congr 1
        rw [List.drop_eq_getElem_cons hlt']
        by_cases h1 : i + 1 < a.length
        · rw [List.drop_eq_getElem_cons h1, dedupAdj, if_neg]
          · rfl
          · intro heq
            apply h
            refine ⟨by omega, ?_⟩
            rw [List.getElem?_eq_getElem hlt', List.getElem?_eq_getElem h1, heq]
        · rw [List.drop_eq_nil_of_le (by omega : a.length ≤ i + 1)]
          simp [dedupAdj]
    · rw [if_neg hlt]
      have : a.drop i = [] := List.drop_eq_nil_of_le (by omega)
      simp [this, dedupAdj]

theorem removeDuplicated_spec (a : List Str) (hne : a ≠ []) :
    ∃ b, removeDuplicated a = dedupAdj b ∧ b.Sublist a ∧ ∀ x, x ∈ b ↔ x ∈ a := by
  obtain ⟨s1, s2⟩ := dupStart_spec a hne
  obtain ⟨e1, e2, e3⟩ := dupEnd_spec a (dupStart a) (a.length - 1) (by omega)
  unfold removeDuplicated
  simp only
  generalize dupStart a = i at *
  generalize dupEnd a i (a.length - 1) = j at *
  refine ⟨(a.drop i).take (j + 1 - i), ?_, ?_, ?_⟩
  · have := dedupLoop_spec ((a.drop i).take (j + 1 - i)).length 0 0 ((a.drop i).take (j + 1 - i))
      (by omega) (Nat.le_refl _) (Nat.zero_le _)
    simpa using this
  · exact (List.take_sublist _ _).trans (List.drop_sublist _ _)
  · intro x
    constructor
    · intro h
      exact List.mem_of_mem_drop (List.mem_of_mem_take h)
    · intro h
      obtain ⟨k, hk, rfl⟩ := List.mem_iff_getElem.mp h
      have key : ∀ m, i ≤ m → m ≤ j → ∀ hm : m < a.length, a[m] ∈ (a.drop i).take (j + 1 - i) := by
        intro m h1 h2 hm
        rw [List.mem_iff_getElem]
        refine ⟨m - i, by simp; omega, ?_⟩
        simp only [List.getElem_take, List.getElem_drop]
        congr 1; omega
      have hjl : j < a.length := by omega
      by_cases hki : k < i
      · have := s2 k (by omega)
        rw [List.getElem?_eq_getElem hk, List.getElem?_eq_getElem s1] at this
        injection this with this
        rw [this]
        exact key i (Nat.le_refl _) e1 s1
      · by_cases hkj : k ≤ j
        · exact key k (by omega) hkj hk
        · have := e3 k (by omega) (by omega)
          rw [List.getElem?_eq_getElem hk, List.getElem?_eq_getElem hjl] at this
          injection this with this
          rw [this]
          exact key j e1 (Nat.le_refl _) hjl

theorem listExpand_braces (body : Str) :
    listExpand (123 :: (body ++ [125])) =
      if body = [] then some [] else some (removeDuplicated (sortBy strLe (splitByte body 44))) := by
  unfold listExpand
  have h4 : (123 :: (body ++ [125])).getLast? = some 125 := by
    rw [← List.cons_append, List.getLast?_append]; simp
  rw [if_pos ⟨by simp, by simp, h4⟩]
  simp

theorem listExpand_none (s : Str) (h : ¬ ∃ body, s = 123 :: (body ++ [125])) : listExpand s = none := by
  unfold listExpand
  rw [if_neg]
  rintro ⟨h1, h2, h3⟩
  apply h
  cases s with
  | nil => simp at h1
  | cons c t =>
    simp at h2
    subst h2
    rcases List.eq_nil_or_concat t with rfl | ⟨t, d, rfl⟩
    · simp at h1
    · rw [List.concat_eq_append] at *
      refine ⟨t, ?_⟩
      have : d = 125 := by
        have h4 : (123 :: (t ++ [d])).getLast? = some d := by
          rw [← List.cons_append, List.getLast?_append]; simp
        rw [h4] at h3; simpa using h3
      rw [this]

end GoMatcher
