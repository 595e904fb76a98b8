import Verif.Proofs.Path

/-! # C16: path splitting -/

namespace GoMatcher
namespace C16

/-- `PathLevel` counts the parts of `PathSplit` and strips the trailing dot. -/
theorem pathLevel_spec (path : Str) :
    (pathLevel path).2 = (pathSplit path).length ∧
    (∀ p, path = p ++ b! "." → (pathLevel path).1 = p) ∧
    ((∀ p, path ≠ p ++ b! ".") → (pathLevel path).1 = path) := by
  rw [pathLevel_eq]
  refine ⟨rfl, ?_, ?_⟩
  · rintro p rfl; exact trimDot_concat p
  · intro h
    simp only [trimDot]
    rw [if_neg]
    intro hl
    rcases List.eq_nil_or_concat path with rfl | ⟨t, d, rfl⟩
    · simp at hl
    · simp at hl; subst hl; exact h t (by simp)

/-- Joining the parts with dots gives back the path without its trailing dot. -/
theorem pathSplit_join (path : Str) : joinByte 46 (pathSplit path) = (pathLevel path).1 := by
  rw [pathLevel_eq, pathSplit_eq]
  split
  · rename_i h; subst h; rfl
  · exact joinByte_splitByte _ _

/-- No part contains a dot. -/
theorem pathSplit_no_dot (path : Str) : ∀ p ∈ pathSplit path, (46 : UInt8) ∉ p := by
  rw [pathSplit_eq]
  split
  · simp
  · exact splitByte_no_sep _ _

/-- Only the empty path has no part. -/
theorem pathSplit_nil (path : Str) : pathSplit path = [] ↔ path = [] := by
  rw [pathSplit_eq]
  split
  · simp_all
  · rename_i h; simp [h, splitByte_ne_nil]

/-- Splitting inverts joining. -/
theorem pathSplit_of_join (ps : List Str) (hne : joinByte 46 ps ≠ []) (hd : ∀ p ∈ ps, (46 : UInt8) ∉ p)
    (hlast : ps.getLast? ≠ some []) : pathSplit (joinByte 46 ps) = ps := by
  have hps : ps ≠ [] := by rintro rfl; exact hne rfl
  have hs := splitByte_joinByte hps hd
  rw [pathSplit_eq, if_neg hne]
  have : trimDot (joinByte 46 ps) = joinByte 46 ps := by
    unfold trimDot
    rw [if_neg]
    intro h
    rcases List.eq_nil_or_concat (joinByte 46 ps) with h0 | ⟨t, d, h1⟩
    · exact hne h0
    · rw [h1] at h
      simp at h
      subst h
      rw [h1] at hs
      have key : ∀ t : Str, (splitByte (t ++ [46]) 46).getLast? = some [] := by
        intro t
        induction t with
        | nil => rfl
        | cons c t ih =>
          rw [List.cons_append, splitByte]
          split
          · cases hx : splitByte (t ++ [46]) 46 with
            | nil => exact absurd hx (splitByte_ne_nil _ _)
            | cons a b => rw [hx] at ih; rw [List.getLast?_cons_cons]; exact ih
          · cases hx : splitByte (t ++ [46]) 46 with
            | nil => exact absurd hx (splitByte_ne_nil _ _)
            | cons a b =>
              rw [hx] at ih
              cases b with
              | nil =>
                simp at ih; subst ih
                have := splitByte_length (t ++ [46])
                rw [hx] at this
                simp [countDots] at this
              | cons b bs => rw [List.getLast?_cons_cons] at ih ⊢; exact ih
      rw [List.concat_eq_append] at hs
      rw [← hs] at hlast
      exact hlast (key t)
  rw [this, hs]

/-- Full description of `PathSplitB`: it ignores one empty part at the end, refuses
every other empty part (and the empty path), and otherwise gives the parts. The old
content of the slice is irrelevant. -/
theorem pathSplitB_exact (path : Str) (old : List Str) :
    ((pathSplitB path old).2 = true ↔
      path ≠ [] ∧ ∀ p ∈ dropEmptyEnd (pathSplit path), p ≠ []) ∧
    ((pathSplitB path old).2 = true → (pathSplitB path old).1 = dropEmptyEnd (pathSplit path)) := by
  unfold pathSplitB
  rw [pathSplit_eq]
  by_cases h : path = []
  · simp [h]
  · simp only [if_neg h]
    have := pathSplitBLoop_spec (trimDot path)
    exact ⟨⟨fun hx => ⟨h, this.1.mp hx⟩, fun hx => this.1.mpr hx.2⟩, this.2⟩

/-- The claim of C16 about `PathSplitB`, for paths whose last part is not empty.
Missing: paths such as `a..` and `.`, where it is false
(`pathSplitB_double_dot`). -/
theorem pathSplitB_partial (path : Str) (old : List Str) (hne : path ≠ [])
    (hlast : (pathSplit path).getLast? ≠ some []) :
    ((pathSplitB path old).2 = true ↔ hasEmptyParts (pathSplit path) = false) ∧
    ((pathSplitB path old).2 = true → (pathSplitB path old).1 = pathSplit path) := by
  have hd : dropEmptyEnd (pathSplit path) = pathSplit path := by simp [dropEmptyEnd, hlast]
  have := pathSplitB_exact path old
  rw [hd] at this
  refine ⟨?_, this.2⟩
  rw [this.1]
  simp [hasEmptyParts, hne]

/-- `PathSplitB` accepts `a..` and `.` although `PathSplit` finds an empty part. -/
theorem pathSplitB_double_dot :
    pathSplitB (b! "a..") [] = ([b! "a"], true) ∧ pathSplit (b! "a..") = [b! "a", []] ∧
    pathSplitB (b! ".") [] = ([], true) ∧ pathSplit (b! ".") = [[]] := by
  simp [pathSplitB, trimDot, pathSplitBLoop, cutDot, pathSplit, splitByte]

theorem hasEmptyParts_spec (parts : List Str) : hasEmptyParts parts = true ↔ [] ∈ parts := by
  simp [hasEmptyParts]

example : pathSplit (b! "a.bc.") = [b! "a", b! "bc"] := by decide
example : (pathSplit (b! "a.bc.")).getLast? ≠ some [] := by decide
example : joinByte 46 [b! "a", b! "bc"] = b! "a.bc" := by decide

end C16
end GoMatcher
