import Verif.Utf8
import Verif.Spec.ClassText

/-!
# Specification: the byte strings that are well-formed globs

A glob is a row of pieces.  Unlike `Spec/GlobText` this covers byte strings that are not UTF-8,
and it says only which strings are well formed, not what they match.
-/

namespace GoMatcher

/-- The bytes between `[` and `]`, as Go's `range` decodes them, list ranges none of which is
reversed or goes across UTF-8 widths. -/
def ClassBytes (body : Str) : Prop :=
  ∃ cs : List Char, ∃ es : List (Char × Char),
    (rangeStr body).map Prod.snd = cs.map (fun c => c.toNat) ∧ Reads cs es ∧
    ∀ a b, (a, b) ∈ es → a.toNat ≤ b.toNat ∧ (utf8 [a]).length = (utf8 [b]).length

/-- A piece without braces: one byte that is no bracket or brace (`*` and `?` are such bytes), or
a class. -/
def SubPiece (p : Str) : Prop :=
  (∃ b, p = [b] ∧ b ≠ 91 ∧ b ≠ 93 ∧ b ≠ 123 ∧ b ≠ 125) ∨
  ∃ body, p = 91 :: body ++ [93] ∧ 93 ∉ body ∧ ClassBytes body

/-- A row of pieces. -/
def Row (piece : Str → Prop) (s : Str) : Prop :=
  ∃ ps : List Str, s = ps.flatten ∧ ∀ p ∈ ps, piece p

/-- A piece with braces.  The alternatives are all the same (and then not read), or one of them
is `*` and those that begin with a byte below `*` are well formed, or all are well formed. -/
def BracePiece (p : Str) : Prop :=
  ∃ parts : List Str, parts ≠ [] ∧ p = 123 :: List.intercalate [44] parts ++ [125] ∧
    (∀ a ∈ parts, 44 ∉ a ∧ 125 ∉ a) ∧
    ((∃ a, ∀ b ∈ parts, b = a) ∨
     ([42] ∈ parts ∧ ∀ b t, b :: t ∈ parts → b < 42 → Row SubPiece (b :: t)) ∨
     ∀ a ∈ parts, Row SubPiece a)

/-- A piece of a glob. -/
def GlobPiece (p : Str) : Prop := SubPiece p ∨ BracePiece p

end GoMatcher
