import Verif.Spec.GlobLang

/-! # Specification: globs whose random samples are usable

A class is usable when it has a single member or no ASCII member. -/

namespace GoMatcher

/-- A class without ASCII members, or with a single member. -/
def ClassSampled (es : List ClassElt) : Prop :=
  (∀ c, ClassMem es c → 127 < c) ∨ ∃ c, ∀ d, ClassMem es d → d = c

/-- All classes of the part are usable. -/
def Sub.Sampled : Sub → Prop
  | .cls es => ClassSampled es
  | _ => True

/-- All classes of the token are usable. -/
def Tok.Sampled : Tok → Prop
  | .sub s => s.Sampled
  | .alt alts => ∀ a ∈ alts, ∀ s ∈ a, s.Sampled

end GoMatcher
