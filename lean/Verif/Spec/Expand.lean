import Verif.Spec.GlobLang

/-!
# Specification: expansion of globs

What a list or class stands for, and the product of the choices.
-/

namespace GoMatcher

/-- Tokens that can be expanded: literals, classes without special characters in their text,
lists without wildcards.  From the first other token on, a glob is kept as it is. -/
def Tok.simple : Tok → Bool
  | .sub (.lit _) => true
  | .sub (.cls es) => (es.flatMap ClassElt.render).all fun c => !isSpecial c
  | .alt alts => plainAlts alts
  | _ => false

/-- The texts a token can be replaced by, in order: the alternatives of a list as written, the
members of a class by code point. -/
def Choices : Tok → List (List Char) → Prop
  | .sub (.lit c), L => L = [[c]]
  | .sub (.cls es), L => ∃ cs : List Char, L = cs.map (fun c => [c]) ∧
      cs.Pairwise (fun a b => a.toNat < b.toNat) ∧ ∀ c, c ∈ cs ↔ ClassMem es c.toNat
  | .alt alts, L => L = alts.map renderSubs
  | _, _ => False

/-- One choice per token. -/
inductive AllChoices : List Tok → List (List (List Char)) → Prop
  | nil : AllChoices [] []
  | cons {t : Tok} {L : List (List Char)} {ts : List Tok} {Ls : List (List (List Char))}
      (h : Choices t L) (hs : AllChoices ts Ls) : AllChoices (t :: ts) (L :: Ls)

/-- All ways to choose one text per place, in lexicographic order of the choices. -/
def product : List (List (List Char)) → List (List Char)
  | [] => [[]]
  | L :: Ls => L.flatMap fun a => (product Ls).map fun b => a ++ b

/-- The number of ways. -/
def productSize : List (List (List Char)) → Nat
  | [] => 1
  | L :: Ls => L.length * productSize Ls

/-- No class contains U+FFFD or spans the surrogates (which no text can contain). -/
def Tok.noGap : Tok → Prop
  | .sub (.cls es) => ∀ n, ClassMem es n → n ≠ 0xFFFD ∧ ¬ (0xD800 ≤ n ∧ n < 0xE000)
  | _ => True

/-- No class contains a character that has a meaning in globs.  (The expansion of `[)-+]`
contains the glob `*`.) -/
def Tok.plainMembers : Tok → Prop
  | .sub (.cls es) => ∀ c : Char, ClassMem es c.toNat → isSpecial c = false
  | _ => True

/-- A token that is not expanded: brackets around a single choice (a list of one alternative,
a class of one ASCII character) are removed, anything else is as written. -/
def Tok.kept : Tok → List Tok
  | .alt [a] => a.map .sub
  | .sub (.cls [.one c]) => if c.toNat < 128 then [.sub (.lit c)] else [.sub (.cls [.one c])]
  | t => [t]

/-- A glob that is not expanded. -/
def keptGlob : List Tok → List Tok
  | [] => []
  | t :: ts => if t.simple then t.kept ++ keptGlob ts else t :: ts

end GoMatcher
