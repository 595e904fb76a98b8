import Verif.Model.Path
import Verif.Proofs.Lists

namespace GoMatcher

theorem splitByte_length (s : Str) : (splitByte s 46).length = countDots s + 1 := by
  induction s with
  | nil => rfl
  | cons c t ih =>
    unfold countDots at *
    by_cases h : c = 46
    · subst h
      rw [splitByte, if_pos rfl, List.length_cons, ih, List.count_cons_self]
    · rw [splitByte, if_neg h, List.count_cons_of_ne h]
      cases hs : splitByte t 46 with
      | nil => exact absurd hs (splitByte_ne_nil _ _)
      | cons p ps => rw [hs] at ih; simpa using ih

theorem trimDot_concat (s : Str) : trimDot (s ++ [46]) = s := by simp [trimDot]

theorem pathSplit_eq (path : Str) :
    pathSplit path = if path = [] then [] else splitByte (trimDot path) 46 := by
  unfold pathSplit trimDot
  split
  · rfl
  · split <;> rfl

theorem countDots_trim (path : Str) (h : path.getLast? = some 46) :
    countDots path = countDots path.dropLast + 1 := by
  rcases List.eq_nil_or_concat path with rfl | ⟨t, d, rfl⟩
  · simp at h
  · simp only [List.concat_eq_append, List.getLast?_append, List.getLast?_singleton,
      Option.some_or, Option.some.injEq] at h
    subst h
    simp [countDots]

theorem pathLevel_eq (path : Str) :
    pathLevel path = (trimDot path, (pathSplit path).length) := by
  unfold pathLevel
  by_cases h0 : path = []
  · subst h0; rfl
  · rw [if_neg h0, pathSplit_eq, if_neg h0, splitByte_length]
    unfold trimDot
    split
    · rename_i h
      rw [countDots_trim path h]
    · rfl

/-- `strings.Cut` and the first part of `strings.Split`. -/
theorem splitByte_cut (s : Str) :
    splitByte s 46 = (cutDot s).1 :: (if (cutDot s).2.2 then splitByte (cutDot s).2.1 46 else []) ∧
    ((cutDot s).2.2 = false → (cutDot s).2.1 = []) := by
  induction s with
  | nil => simp [splitByte, cutDot]
  | cons c t ih =>
    by_cases h : c = 46
    · subst h; simp [splitByte, cutDot]
    · rw [splitByte, if_neg h, cutDot, if_neg h]
      obtain ⟨ih1, ih2⟩ := ih
      refine ⟨?_, ih2⟩
      rw [ih1]

/-- Drop one empty part at the end. -/
def dropEmptyEnd (ps : List Str) : List Str :=
  if ps.getLast? = some [] then ps.dropLast else ps

theorem dropEmptyEnd_cons (p : Str) (ps : List Str) (h : ps ≠ []) :
    dropEmptyEnd (p :: ps) = p :: dropEmptyEnd ps := by
  unfold dropEmptyEnd
  cases ps with
  | nil => exact absurd rfl h
  | cons q qs =>
    rw [List.getLast?_cons_cons]
    split <;> simp

theorem pathSplitBLoop_spec (s : Str) :
    ((pathSplitBLoop s).2 = true ↔ ∀ p ∈ dropEmptyEnd (splitByte s 46), p ≠ []) ∧
    ((pathSplitBLoop s).2 = true → (pathSplitBLoop s).1 = dropEmptyEnd (splitByte s 46)) := by
  fun_induction pathSplitBLoop s with
  | case1 => simp [splitByte, dropEmptyEnd]
  | case2 c t r h =>
    obtain ⟨h1, h2⟩ := splitByte_cut (c :: t)
    have hr : r = cutDot (c :: t) := rfl
    rw [h1, ← hr, h]
    have hf : r.2.2 = true := by
      rw [hr]
      rw [hr, cutDot] at h
      rw [cutDot]
      by_cases hc : c = 46
      · simp [hc]
      · simp [hc] at h
    rw [hf, if_pos rfl, dropEmptyEnd_cons _ _ (splitByte_ne_nil _ _)]
    simp
  | case3 c t r h q ih =>
    obtain ⟨h1, h2⟩ := splitByte_cut (c :: t)
    have hr : r = cutDot (c :: t) := rfl
    rw [h1, ← hr]
    rw [← hr] at h2
    by_cases hf : r.2.2 = true
    · rw [hf, if_pos rfl, dropEmptyEnd_cons _ _ (splitByte_ne_nil _ _)]
      constructor
      · rw [ih.1]; simp [h]
      · intro hq
        show r.1 :: q.1 = _
        rw [ih.2 hq]
    · have hf' : r.2.2 = false := by simpa using hf
      have hnil := h2 hf'
      have hq : q = ([], true) := by
        show pathSplitBLoop r.2.1 = _
        rw [hnil, pathSplitBLoop]
      rw [hq, hf']
      have : dropEmptyEnd [r.1] = [r.1] := by
        unfold dropEmptyEnd
        rw [if_neg]
        simpa using h
      simp [this, h]

end GoMatcher
