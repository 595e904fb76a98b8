import Verif.Basic

/-! # Model of path splitting (`gglob/utils.go:7-62`) -/

namespace GoMatcher

/-- `strings.Count(path, ".")`. -/
def countDots (s : Str) : Nat := s.count 46

/-- `path[:len(path)-1]` when the last byte is a dot, else `path` (utils.go:12-13, 24-25,
38-41). -/
def trimDot (path : Str) : Str := if path.getLast? = some 46 then path.dropLast else path

/-- `PathLevel` (utils.go:7-17). -/
def pathLevel (path : Str) : Str × Nat :=
  if path = [] then (path, 0)
  else if path.getLast? = some 46 then (path.dropLast, countDots path)
  else (path, countDots path + 1)

/-- `PathSplit` (utils.go:19-30). -/
def pathSplit (path : Str) : List Str :=
  if path = [] then []
  else if path.getLast? = some 46 then splitByte path.dropLast 46
  else splitByte path 46

/-- `strings.Cut(path, ".")`: text before the first dot, text after it, found. -/
def cutDot : Str → Str × Str × Bool
  | [] => ([], [], false)
  | c :: t =>
    if c = 46 then ([], t, true)
    else
      let r := cutDot t
      (c :: r.1, r.2.1, r.2.2)

theorem cutDot_length (s : Str) (h : s ≠ []) : (cutDot s).2.1.length < s.length := by
  induction s with
  | nil => exact absurd rfl h
  | cons c t ih =>
    rw [cutDot]
    split
    · simp
    · cases t with
      | nil => simp [cutDot]
      | cons d t =>
        have := ih (by simp)
        simp only [List.length_cons] at this ⊢
        omega

/-- Loop of `PathSplitB` (utils.go:44-50): collected parts and `ok`. -/
def pathSplitBLoop (path : Str) : List Str × Bool :=
  match path with
  | [] => ([], true)
  | c :: t =>
    let r := cutDot (c :: t)
    if r.1 = [] then ([], false)
    else
      let q := pathSplitBLoop r.2.1
      (r.1 :: q.1, q.2)
termination_by path.length
decreasing_by exact cutDot_length _ (by simp)

/-- `PathSplitB` (utils.go:32-53): the new content of `*parts` and `ok`; the previous
content is dropped. -/
def pathSplitB (path : Str) (_parts : List Str) : List Str × Bool :=
  if path = [] then ([], false) else pathSplitBLoop (trimDot path)

/-- `HasEmptyParts` (utils.go:55-62). -/
def hasEmptyParts (parts : List Str) : Bool := parts.any (· = [])

end GoMatcher
