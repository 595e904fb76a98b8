import Verif.Spec.GlobLang
import Verif.Spec.ClassText

/-!
# Specification: how the parser reads the text of a glob

`GlobText loose g ts`: the text `g` is read as the tokens `ts`.  Every accepted text has a
reading (see C01).  Unlike `renderGlob` this covers all texts: classes with
free dashes, empty classes, braces whose alternatives are all the same, malformed alternatives
behind a `*`.
-/

namespace GoMatcher

/-- The text between `[` and `]` lists the ranges `es`, none of them reversed or across UTF-8
widths. -/
def ClassText (body : List Char) (es : List (Char × Char)) : Prop :=
  ']' ∉ body ∧ Reads body es ∧
    ∀ e ∈ es, e.1.toNat ≤ e.2.toNat ∧ ClassElt.width e.1.toNat = ClassElt.width e.2.toNat

/-- The text of one token without braces. -/
inductive SubTok : List Char → Sub → Prop
  | lit {c : Char} (h : isSpecial c = false) : SubTok [c] (.lit c)
  | any : SubTok ['?'] .any
  | star : SubTok ['*'] .star
  | cls {body : List Char} {es : List (Char × Char)} (h : ClassText body es) (hne : es ≠ []) :
      SubTok ('[' :: body ++ [']']) (.cls (es.map fun e => .range e.1 e.2))

/-- The text of a class without members, such as `[]` or `[-]`. -/
def EmptyClass (p : List Char) : Prop := ∃ body, p = '[' :: body ++ [']'] ∧ ClassText body []

/-- The text of an alternative.  Empty classes are skipped. -/
inductive SubText : List Char → List Sub → Prop
  | nil : SubText [] []
  | cons {p g : List Char} {s : Sub} {ss : List Sub} (h : SubTok p s) (hr : SubText g ss) :
      SubText (p ++ g) (s :: ss)
  | empty {p g : List Char} {ss : List Sub} (h : EmptyClass p) (hr : SubText g ss) : SubText (p ++ g) ss

/-- The texts of several alternatives.  Empty classes are allowed; without `loose` they must
leave something behind, and more than a star. -/
inductive SubTexts (loose : Bool) : List (List Char) → List (List Sub) → Prop
  | nil : SubTexts loose [] []
  | cons {p : List Char} {ss : List Sub} {ps : List (List Char)} {alts : List (List Sub)}
      (h : SubText p ss)
      (hl : loose = false → (ss = [] → p = []) ∧ (ss = [.star] → p = ['*']))
      (hr : SubTexts loose ps alts) :
      SubTexts loose (p :: ps) (ss :: alts)

/-- Texts separated by commas. -/
def joinComma : List (List Char) → List Char
  | [] => []
  | [a] => a
  | a :: b :: l => a ++ ',' :: joinComma (b :: l)

/-- The text of braces: parts without `,` and `}`. -/
def BraceText (p : List Char) (parts : List (List Char)) : Prop :=
  p = '{' :: joinComma parts ++ ['}'] ∧ parts ≠ [] ∧ ∀ a ∈ parts, ',' ∉ a ∧ '}' ∉ a

/-- The text of a glob. -/
inductive GlobText (loose : Bool) : List Char → List Tok → Prop
  | nil : GlobText loose [] []
  /-- A token without braces. -/
  | sub {p g : List Char} {s : Sub} {ts : List Tok} (h : SubTok p s) (hr : GlobText loose g ts) :
      GlobText loose (p ++ g) (.sub s :: ts)
  /-- A class without members stands for the empty text. -/
  | empty {p g : List Char} {ts : List Tok} (h : EmptyClass p) (hr : GlobText loose g ts) :
      GlobText loose (p ++ g) (.alt [[]] :: ts)
  /-- All alternatives are the same: literal text, even with wildcards. -/
  | same {p g a : List Char} {parts : List (List Char)} {ts : List Tok} (h : BraceText p parts)
      (ha : ∀ b ∈ parts, b = a) (hr : GlobText loose g ts) :
      GlobText loose (p ++ g) (.alt [a.map .lit] :: ts)
  /-- One alternative is `*`: everything.  Only the alternatives that sort before it are read. -/
  | star {p g : List Char} {parts : List (List Char)} {ts : List Tok} (h : BraceText p parts)
      (hs : ['*'] ∈ parts) (hd : ∃ a ∈ parts, a ≠ ['*'])
      (hb : ∀ a ∈ parts, (∃ c, a.head? = some c ∧ c.toNat < 42) → ∃ ss, SubText a ss)
      (hr : GlobText loose g ts) :
      GlobText loose (p ++ g) (.alt [[.star]] :: ts)
  /-- Different alternatives. -/
  | alts {p g : List Char} {parts : List (List Char)} {alts : List (List Sub)} {ts : List Tok}
      (h : BraceText p parts) (hs : ['*'] ∉ parts) (hd : ∃ a ∈ parts, ∃ b ∈ parts, a ≠ b)
      (ha : SubTexts loose parts alts) (hr : GlobText loose g ts) :
      GlobText loose (p ++ g) (.alt alts :: ts)

end GoMatcher
