import Verif.Spec.GlobLang

/-! # Specification: choosing one alternative of every brace expression -/

namespace GoMatcher

/-- The alternatives that `WriteRandom` can choose: an alternative that is just a star hides the
others, and the empty word is left out of a list of words. -/
def Choosable (alts : List (List Sub)) (a : List Sub) : Prop :=
  ([.star] ∈ alts → a = [.star]) ∧ (a = [] → plainAlts alts = false ∨ ∀ b ∈ alts, b = [])

/-- `us` is `ts` with every brace expression replaced by one of its choosable alternatives. -/
inductive Branch : List Tok → List Tok → Prop
  | nil : Branch [] []
  | sub {s : Sub} {ts us : List Tok} (h : Branch ts us) : Branch (.sub s :: ts) (.sub s :: us)
  | alt {alts : List (List Sub)} {a : List Sub} {ts us : List Tok} (ha : a ∈ alts)
      (hc : Choosable alts a) (h : Branch ts us) : Branch (.alt alts :: ts) (a.map .sub ++ us)

end GoMatcher
