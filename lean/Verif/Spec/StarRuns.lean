import Verif.Spec.GlobLang

/-! # Runs of `*` and `?` -/

namespace GoMatcher

/-- The number of runs of `*` and `?` that contain a star; the flag says that a star stands before,
in the same run. -/
def starRuns : Bool → List Sub → Nat
  | _, [] => 0
  | p, .star :: ss => (if p then 0 else 1) + starRuns true ss
  | p, .any :: ss => starRuns p ss
  | _, .lit _ :: ss => starRuns false ss
  | _, .cls _ :: ss => starRuns false ss

end GoMatcher
