import Verif.Spec.ClassText
import Verif.Spec.Class
import Verif.Utf8

/-!
# Specification: what `Expand` makes of a byte string

A byte string is cut into pieces: bytes without a meaning, `{…}` and `[…]` without any of the
bytes `[ ] { } * ?` inside, up to the first place where no such piece begins.  Every piece has a
list of replacements.
-/

namespace GoMatcher

/-- None of the bytes `[ ] { } * ?`. -/
def Unmarked (s : Str) : Prop :=
  ∀ b ∈ s, b ≠ 91 ∧ b ≠ 93 ∧ b ≠ 123 ∧ b ≠ 125 ∧ b ≠ 42 ∧ b ≠ 63

/-- A piece of the text: bytes as they are, `{body}`, `[body]`. -/
inductive XPiece where
  | lit (w : Str)
  | braces (body : Str)
  | cls (body : Str)
  deriving DecidableEq, Repr

/-- The text of a piece. -/
def XPiece.text : XPiece → Str
  | .lit w => w
  | .braces body => 123 :: (body ++ [125])
  | .cls body => 91 :: (body ++ [93])

/-- A piece as found in a text. -/
def XPiece.Ok : XPiece → Prop
  | .lit w => w ≠ [] ∧ Unmarked w
  | .braces body => Unmarked body
  | .cls body => Unmarked body

/-- Nothing that could be replaced begins here: one of `* ? } ]`, or an opening bracket that is
not followed, as the next of the bytes `[ ] { } * ?`, by its closing bracket. -/
def Stuck (rest : Str) : Prop :=
  ∃ c t, rest = c :: t ∧
    (c = 42 ∨ c = 63 ∨ c = 125 ∨ c = 93 ∨
     (c = 123 ∧ ∀ x y, Unmarked x → t ≠ x ++ 125 :: y) ∨
     (c = 91 ∧ ∀ x y, Unmarked x → t ≠ x ++ 93 :: y))

/-- The text of pieces. -/
def piecesText (ps : List XPiece) : Str := ps.flatMap XPiece.text

/-- `s` consists of the pieces and of a rest that is kept as it is. -/
structure ExpandText (s : Str) (ps : List XPiece) (rest : Str) : Prop where
  text : s = piecesText ps ++ rest
  pieces : ∀ p ∈ ps, p.Ok
  rest : rest = [] ∨ Stuck rest

/-- The words of a text between commas. -/
structure CommaWords (s : Str) (L : List Str) : Prop where
  text : List.intercalate [44] L = s
  words : ∀ w ∈ L, 44 ∉ w
  some : L ≠ []

/-- `ClassOf body es`: the text between `[` and `]`, decoded, lists the ranges `es`. -/
def ClassOf (body : Str) (es : List (Char × Char)) : Prop :=
  ∃ cs : List Char, (rangeStr body).map Prod.snd = cs.map (fun c => c.toNat) ∧ Reads cs es

/-- A range with the ends in order and of equal length in UTF-8. -/
def FineRange (e : Char × Char) : Prop :=
  e.1.toNat ≤ e.2.toNat ∧ ClassElt.width e.1.toNat = ClassElt.width e.2.toNat

/-- A code point in one of the ranges. -/
def Listed (es : List (Char × Char)) (n : Nat) : Prop := ∃ e ∈ es, e.1.toNat ≤ n ∧ n ≤ e.2.toNat

/-- A code point of the class as the code keeps it: U+0000 is lost unless U+0001 is listed, too. -/
def Counted (es : List (Char × Char)) (n : Nat) : Prop := Listed es n ∧ (n = 0 → Listed es 1)

/-- A code point that is written out: U+FFFD is lost, and with it everything listed without a gap
behind it. -/
def Emitted (es : List (Char × Char)) (n : Nat) : Prop :=
  Counted es n ∧ ¬ (0xFFFD ≤ n ∧ ∀ d, 0xFFFD ≤ d → d ≤ n → Listed es d)

/-- A class that the code does not accept: a range has its ends in the wrong order or of
different length in UTF-8. -/
def RefusedClass (body : Str) : Prop :=
  2 ≤ body.length ∧ ∃ es, ClassOf body es ∧ ¬ ∀ e ∈ es, FineRange e

/-- What a piece stands for: its replacements in order, the text that is left when it is not
replaced, and the number of replacements that the code counts. -/
structure Repl where
  texts : List Str
  kept : Str
  count : Nat
  deriving DecidableEq, Repr

/-- What a piece stands for. -/
inductive Means : XPiece → Repl → Prop
  | lit (w : Str) : Means (.lit w) ⟨[w], w, 1⟩
  | words (body : Str) (L : List Str) : 44 ∈ body → CommaWords body L →
      Means (.braces body) ⟨L, 123 :: (body ++ [125]), L.length⟩
  | single (body : Str) : 44 ∉ body → Means (.braces body) ⟨[body], body, 1⟩
  | short (body : Str) : body.length ≤ 1 → Means (.cls body) ⟨[body], body, 1⟩
  | refused (body : Str) : RefusedClass body → Means (.cls body) ⟨[body], body, 1⟩
  | void (body : Str) (es : List (Char × Char)) : 2 ≤ body.length → ClassOf body es →
      (∀ e ∈ es, FineRange e) → (∀ n, ¬ Counted es n) → Means (.cls body) ⟨[[]], [], 1⟩
  | members (body : Str) (es : List (Char × Char)) (ns all : List Nat) : 2 ≤ body.length →
      ClassOf body es → (∀ e ∈ es, FineRange e) → all ≠ [] →
      all.Pairwise (· < ·) → (∀ n, n ∈ all ↔ Counted es n) →
      ns.Pairwise (· < ·) → (∀ n, n ∈ ns ↔ Emitted es n) →
      Means (.cls body) ⟨ns.map encodeRune, 91 :: (body ++ [93]), all.length⟩

/-- What the pieces stand for. -/
inductive AllMean : List XPiece → List Repl → Prop
  | nil : AllMean [] []
  | cons {p ps r rs} : Means p r → AllMean ps rs → AllMean (p :: ps) (r :: rs)

/-- The product of the counts of the pieces before the first class that is not accepted. -/
inductive Capacity : List XPiece → List Repl → Nat → Prop
  | nil : Capacity [] [] 1
  | stop {body ps rs} : RefusedClass body → Capacity (.cls body :: ps) rs 1
  | cons {p ps r rs n} : (∀ body, p = .cls body → ¬ RefusedClass body) →
      Capacity ps rs n → Capacity (p :: ps) (r :: rs) (r.count * n)

/-- All ways to choose one replacement per piece, in lexicographic order of the choices. -/
def combine : List Repl → List Str
  | [] => [[]]
  | r :: rs => r.texts.flatMap fun a => (combine rs).map fun b => a ++ b

/-- The text when nothing is replaced. -/
def keptText (rs : List Repl) : Str := rs.flatMap Repl.kept

/-- The dots in the text that is not a choice. -/
def fixedDots : List Repl → Nat
  | [] => 0
  | r :: rs => (if r.texts = [r.kept] then r.kept.count 46 else 0) + fixedDots rs

/-- The count of the code after several pieces: a product of 64-bit integers, which starts again
at 1 when it is not positive. -/
def runningCount : Int → List Repl → Int
  | c, [] => c
  | c, r :: rs => runningCount (Int.bmod ((if c ≤ 0 then 1 else c) * r.count) (2 ^ 64)) rs

/-- The limits allow these pieces to be replaced. -/
def Allowed (max depth : Int) (rs : List Repl) : Prop :=
  max ≠ 0 ∧ (max > 0 → ∀ k, k ≤ rs.length → runningCount 0 (rs.take k) ≤ max) ∧
  (depth > 0 → (fixedDots rs : Int) < depth)

/-- The first `j` pieces are replaced: the limits allow these, but not one more. -/
structure CutAt (max depth : Int) (rs : List Repl) (j : Nat) : Prop where
  le : j ≤ rs.length
  allowed : j = 0 ∨ Allowed max depth (rs.take j)
  last : j = rs.length ∨ ¬ Allowed max depth (rs.take (j + 1))

/-- All pieces are brackets that stand for nothing. -/
def OnlyVoid (rs : List Repl) (rest : Str) : Prop :=
  rest = [] ∧ rs ≠ [] ∧ ∀ r ∈ rs, r.texts = [[]]

end GoMatcher
