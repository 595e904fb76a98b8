import Verif.Spec.GlobBytes
import Verif.Model.TagTerm

/-! # What a `seriesByTag` query is

Described without the parser: white space, conditions and the list of quoted conditions. -/

namespace GoMatcher

/-- The Unicode characters with the property White_Space. -/
def spaceChars : List Char :=
  [9, 10, 11, 12, 13, 32, 0x85, 0xA0, 0x1680, 0x2000, 0x2001, 0x2002, 0x2003, 0x2004, 0x2005, 0x2006,
   0x2007, 0x2008, 0x2009, 0x200A, 0x2028, 0x2029, 0x202F, 0x205F, 0x3000].map Char.ofNat

/-- `t` is `s` without the white space on both sides. -/
def Trims (s t : Str) : Prop :=
  (∃ a b : List Char, (∀ c ∈ a, c ∈ spaceChars) ∧ (∀ c ∈ b, c ∈ spaceChars) ∧
    s = utf8 a ++ t ++ utf8 b) ∧
  ∀ c ∈ spaceChars, ¬ utf8 [c] <+: t ∧ ¬ utf8 [c] <:+ t

/-- How an operator is written. -/
def opSign : TagOp → Str
  | .eq => [61]
  | .mt => [61, 126]
  | .ne => [33, 61]
  | .nm => [33, 61, 126]

/-- The text of the key `k`: `name` stands for `__name__`. -/
def KeyText (s k : Str) : Prop :=
  ∃ t, Trims s t ∧ (t = [110, 97, 109, 101] → k = b!"__name__") ∧ (t ≠ [110, 97, 109, 101] → k = t)

/-- `c` is a condition on the tag `k`: a text without `=`, `~` and `!`, the operator, and the
value `v`.  What follows `=` or `!=` does not begin with `~`. -/
def CondText (c k : Str) (op : TagOp) (v : Str) : Prop :=
  ∃ k0 v0, c = k0 ++ opSign op ++ v0 ∧ k0 ≠ [] ∧ (∀ x ∈ k0, x ≠ 61 ∧ x ≠ 126 ∧ x ≠ 33) ∧
    (op = .eq ∨ op = .ne → v0.head? ≠ some 126) ∧ KeyText k0 k ∧ Trims v0 v

/-- A list of texts in quotes, with blanks and commas between them.  Empty texts do not
count. -/
inductive QuotedList : Str → List Str → Prop where
  | nil : QuotedList [] []
  | sep {c : UInt8} {s : Str} {cs : List Str} : c = 32 ∨ c = 44 → QuotedList s cs →
      QuotedList (c :: s) cs
  | empty {q : UInt8} {s : Str} {cs : List Str} : q = 39 ∨ q = 34 → QuotedList s cs →
      QuotedList (q :: q :: s) cs
  | text {q : UInt8} {w s : Str} {cs : List Str} : q = 39 ∨ q = 34 → w ≠ [] → q ∉ w →
      QuotedList s cs → QuotedList (q :: (w ++ q :: s)) (w :: cs)

/-- `q` is a query with the condition texts `cs`, up to outer blanks. -/
def QueryText (q : Str) (cs : List Str) : Prop :=
  ∃ m n s, q = List.replicate m 32 ++ b!"seriesByTag(" ++ s ++ b!")" ++ List.replicate n 32 ∧
    QuotedList s cs

end GoMatcher
