import Verif.Spec.Class

/-!
# Specification: the glob language

A glob is a sequence of tokens.  `render` is the text a user writes, `Fits` says which
texts the glob describes.  Nothing here refers to the matcher.
-/

namespace GoMatcher

/-- Tokens that may appear at top level and inside braces. -/
inductive Sub where
  | lit (c : Char)
  | any
  | star
  | cls (es : List ClassElt)
  deriving DecidableEq, Repr

/-- Tokens of a glob.  Braces do not nest. -/
inductive Tok where
  | sub (s : Sub)
  | alt (alts : List (List Sub))
  deriving DecidableEq, Repr

/-! ## Written form -/

def Sub.render : Sub → List Char
  | .lit c => [c]
  | .any => ['?']
  | .star => ['*']
  | .cls es => '[' :: es.flatMap ClassElt.render ++ [']']

def renderSubs (ss : List Sub) : List Char := ss.flatMap Sub.render

/-- Alternatives separated by commas. -/
def renderAlts : List (List Sub) → List Char
  | [] => []
  | [a] => renderSubs a
  | a :: b :: l => renderSubs a ++ ',' :: renderAlts (b :: l)

def Tok.render : Tok → List Char
  | .sub s => s.render
  | .alt alts => '{' :: renderAlts alts ++ ['}']

/-- The text of a glob. -/
def renderGlob (ts : List Tok) : List Char := ts.flatMap Tok.render

/-! ## Meaning -/

def Sub.Fits : Sub → List Char → Prop
  | .lit c, cs => cs = [c]
  | .any, cs => cs.length = 1
  | .star, _ => True
  | .cls es, cs => ∃ c : Char, cs = [c] ∧ ClassMem es c.toNat

/-- Consecutive pieces fit the tokens in order. -/
def subsFit : List Sub → List Char → Prop
  | [], cs => cs = []
  | s :: ss, cs => ∃ a b, cs = a ++ b ∧ s.Fits a ∧ subsFit ss b

def Tok.Fits : Tok → List Char → Prop
  | .sub s, cs => s.Fits cs
  | .alt alts, cs => ∃ a ∈ alts, subsFit a cs

/-- Consecutive pieces fit the tokens in order. -/
def Fits : List Tok → List Char → Prop
  | [], cs => cs = []
  | t :: ts, cs => ∃ a b, cs = a ++ b ∧ t.Fits a ∧ Fits ts b

/-! ## Which token sequences can be written -/

/-- The characters with a meaning outside classes. -/
def isSpecial (c : Char) : Bool :=
  c = '[' || c = ']' || c = '{' || c = '}' || c = '*' || c = '?'

/-- U+FFFD, the character Go uses for undecodable bytes. -/
def isFF (c : Char) : Bool := c.toNat = 0xFFFD

def Sub.isLit : Sub → Bool
  | .lit _ => true
  | _ => false

/-- No wildcard in any alternative. -/
def plainAlts (alts : List (List Sub)) : Bool := alts.all fun a => a.all Sub.isLit

/-- Tokens that can be written: literals are no special characters (and inside braces no
comma), classes are not empty and do not contain their own terminator, NUL or U+FFFD
(which the implementation does not support). -/
def Sub.Ok (inBraces : Bool) : Sub → Prop
  | .lit c => isSpecial c = false ∧ isFF c = false ∧ (inBraces = true → c ≠ ',')
  | .any => True
  | .star => True
  | .cls es => es ≠ [] ∧ (∀ e ∈ es, e.Ok) ∧ ¬ ClassMem es 0 ∧
      ∀ c ∈ es.flatMap ClassElt.render, c ≠ ']' ∧ (inBraces = true → c ≠ ',' ∧ c ≠ '}')

/-- Braces need an alternative, and braces with wildcards need two different ones (the
implementation reads `{a*}` as literal text). -/
def Tok.Ok : Tok → Prop
  | .sub s => s.Ok false
  | .alt alts => alts ≠ [] ∧ (∀ a ∈ alts, ∀ s ∈ a, s.Ok true) ∧
      (plainAlts alts = true ∨ ∃ a ∈ alts, ∃ b ∈ alts, renderSubs a ≠ renderSubs b)

/-! ## Shapes

The star search of the implementation works under restrictions that are written down
here.  `Pos` says what precedes a place in the glob. -/

/-- `plain`: no star directly before.  `after`: a star (and perhaps `?`) directly before.
`behind`: a star directly before, but a brace lies between. -/
inductive Pos where
  | plain | after | behind
  deriving DecidableEq, Repr

/-- Going through a brace. -/
def Pos.cross : Pos → Pos
  | .plain => .plain
  | _ => .behind

/-- Restrictions on a run of simple tokens at position `p`, where `K` is the restriction on
what follows: `?` must not stand behind a star across a brace; a star neither, if
exactness (`ex`) is wanted. -/
def subsShape (ex : Bool) : Pos → List Sub → (Pos → Prop) → Prop
  | p, [], K => K p
  | _, .lit _ :: ss, K => subsShape ex .plain ss K
  | _, .cls _ :: ss, K => subsShape ex .plain ss K
  | p, .any :: ss, K => p ≠ .behind ∧ subsShape ex p ss K
  | p, .star :: ss, K => (p = .behind → ex = false) ∧
      subsShape ex (if p = .behind then .behind else .after) ss K

/-- The next wildcard is a star, with only `?` before it. -/
def startsStar : List Tok → Bool
  | .sub .star :: _ => true
  | .sub .any :: ts => startsStar ts
  | _ => false

/-- Only literal text follows, or a star comes next. -/
def endsOrStar (ts : List Tok) : Bool :=
  startsStar ts || ts.all fun t => match t with
    | .sub (.lit _) => true
    | _ => false

/-- Restrictions on a glob; `ex` adds those that are needed for exactness: a list of
several plain alternatives after a star must be the last wildcard or be followed
by a star. -/
def Shape (ex : Bool) : Pos → List Tok → Prop
  | _, [] => True
  | p, .sub s :: ts => subsShape ex p [s] (fun q => Shape ex q ts)
  | p, .alt alts :: ts =>
    if plainAlts alts then
      Shape ex .plain ts ∧
      (p ≠ .plain → (ex = true → alts.length ≤ 1 ∨ endsOrStar ts = true) ∧
        ([] ∈ alts → Shape ex .behind ts))
    else if [.star] ∈ alts then subsShape ex p [.star] (fun q => Shape ex q ts)
    else ∀ a ∈ alts, subsShape ex p.cross a (fun q => Shape ex q.cross ts)

/-- No class of the token contains the character `*`. -/
def Sub.noStarClass : Sub → Prop
  | .cls es => ¬ ClassMem es '*'.toNat
  | _ => True

def Tok.noStarClass : Tok → Prop
  | .sub s => s.noStarClass
  | .alt alts => ∀ a ∈ alts, ∀ s ∈ a, s.noStarClass

/-- Restriction that makes the recorded maximal length right: when an alternative
contains a star, some star stands at top level or ends an alternative. -/
def MaxOk (ts : List Tok) : Prop :=
  (∀ t ∈ ts, ∀ alts, t = .alt alts → ∀ a ∈ alts, .star ∉ a) ∨
  (∃ t ∈ ts, t = .sub .star ∨ ∃ alts, t = .alt alts ∧ ∃ a ∈ alts, a.getLast? = some .star)

end GoMatcher
