import Verif.Spec.GlobBytes
import Verif.Model.Glob

/-! # Specification: what an error of the glob parser says

`Fault e w`: the text `w`, which is the rest of a glob or of an alternative, begins with the fault
that `e` reports.  The error carries the faulty text. -/

namespace GoMatcher

/-- The special bytes of globs. -/
def Special (b : UInt8) : Prop := b ∈ (b! "[]{}?*")

/-- The text begins with a fault, and the error names it. -/
inductive Fault : GErr → Str → Prop where
  /-- a class that is not closed: the rest of the text -/
  | openClass {t : Str} : 93 ∉ t → Fault (.mismatch (b! "rune") (91 :: t)) (91 :: t)
  /-- a class with a reversed range or a range across UTF-8 widths: the class -/
  | badClass {body q : Str} : 93 ∉ body → ¬ ClassBytes body →
    Fault (.mismatch (b! "rune") (91 :: body ++ [93])) (91 :: body ++ 93 :: q)
  /-- a list that is not closed: the rest of the text -/
  | openList {t : Str} : 125 ∉ t → Fault (.mismatch (b! "list") (123 :: t)) (123 :: t)
  /-- a closing bracket or brace that was not opened: the rest of the text -/
  | close {c : UInt8} {t : Str} : c = 93 ∨ c = 125 → Fault (.unclosed (c :: t)) (c :: t)
  /-- a list with at least two different alternatives: of the faulty ones that is reported which
  is the first in the order of bytes, if not `*` comes before it; and of that one the first
  fault -/
  | alternative {e : GErr} {parts : List Str} {v p w q : Str} :
    (∀ a ∈ parts, 44 ∉ a ∧ 125 ∉ a) → v ∈ parts → (∃ a ∈ parts, a ≠ v) →
    (∀ a ∈ parts, ¬ Row SubPiece a → a = v ∨ v < a) → ([42] ∈ parts → v < [42]) →
    v = p ++ w → Row SubPiece p → Fault e w →
    Fault e (123 :: List.intercalate [44] parts ++ 125 :: q)

/-- The error of a glob.  If a bracket or brace is the only special byte, the error carries the
text from there to the end.  Otherwise it is that of the first fault of the text up to the last
special byte. -/
def Reports (e : GErr) (s : Str) : Prop :=
  (∃ p c t, s = p ++ c :: t ∧ c ∈ (b! "[]{}") ∧ (∀ b ∈ p ++ t, ¬ Special b) ∧
    e = .unclosed (c :: t)) ∨
  ∃ p w q, s = p ++ w ++ q ∧ Row GlobPiece p ∧ Fault e w ∧
    (∃ z, w.getLast? = some z ∧ Special z) ∧ (∀ b ∈ q, ¬ Special b) ∧
    ((∃ b ∈ p, Special b) ∨ 2 ≤ w.length)

end GoMatcher
