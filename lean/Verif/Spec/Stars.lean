import Verif.Spec.GlobLang

/-! # Specification: where stars stand inside braces -/

namespace GoMatcher

/-- What the run of wildcards that is being read consists of so far. -/
inductive Run where
  /-- no wildcard -/
  | none
  /-- stars only -/
  | stars
  /-- at least one `?` -/
  | mixed
  deriving DecidableEq

/-- In an alternative, a run of stars without any `?` beside it stands at the end only. -/
def starsEnd : Run → List Sub → Bool
  | _, [] => true
  | r, .star :: ss => starsEnd (if r = .mixed then .mixed else .stars) ss
  | _, .any :: ss => starsEnd .mixed ss
  | r, .lit _ :: ss => decide (r ≠ .stars) && starsEnd .none ss
  | r, .cls _ :: ss => decide (r ≠ .stars) && starsEnd .none ss

/-- The same for all alternatives of a glob. -/
def StarsEnd (ts : List Tok) : Prop :=
  ∀ alts, .alt alts ∈ ts → ∀ a ∈ alts, starsEnd .none a = true

-- `{a*,b?*c}` has it, `{a*b,c}` has not
example : StarsEnd [.alt [[.lit 'a', .star], [.lit 'b', .any, .star, .lit 'c']]] := by
  simp [StarsEnd, starsEnd]
example : ¬ StarsEnd [.alt [[.lit 'a', .star, .lit 'b'], [.lit 'c']]] := by
  simp [StarsEnd, starsEnd]

/-- The glob contains a star, also inside braces. -/
def HasStar (ts : List Tok) : Prop :=
  .sub .star ∈ ts ∨ ∃ alts a, .alt alts ∈ ts ∧ a ∈ alts ∧ .star ∈ a

example : ¬ HasStar [.sub (.lit 'a'), .alt [[.lit 'b'], [.any]]] := by
  simp [HasStar]

end GoMatcher
