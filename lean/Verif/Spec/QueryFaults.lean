import Verif.Spec.Faults
import Verif.Spec.Query
import Verif.Model.GGlob

/-! # Specification: the errors of dotted globs and of queries -/

namespace GoMatcher

/-- The error of a dotted glob `path`, of which `s` is the rest: an empty node, or the error of
the first node that is no glob. -/
inductive NodeFault (path : Str) : GGErr → Str → Prop where
  | empty {t : Str} : NodeFault path (.nodeEmpty path) (46 :: t)
  | last {e : GErr} {p : Str} : p ≠ [] → 46 ∉ p → Reports e p → NodeFault path (.part e) p
  | part {e : GErr} {p t : Str} : p ≠ [] → 46 ∉ p → Reports e p →
    NodeFault path (.part e) (p ++ 46 :: t)
  | next {e : GGErr} {p t : Str} : p ≠ [] → 46 ∉ p → Row GlobPiece p → NodeFault path e t →
    NodeFault path e (p ++ 46 :: t)

/-- The error of a dotted glob; one dot at the end is dropped first. -/
def NodeReports (e : GGErr) (s : Str) : Prop :=
  (s.getLast? ≠ some 46 ∧ NodeFault s e s) ∨ ∃ t, s = t ++ [46] ∧ NodeFault t e t

/-- The error of a list of quoted texts in the query `q`, where `n` more are allowed. -/
inductive ListFault (q : Str) : Nat → TagErr → Str → Prop where
  /-- something that is not in quotes: the rest of the text -/
  | stray {n : Nat} {c : UInt8} {t : Str} : c ∉ (b! "'\" ,") →
    ListFault q n (.notTerminated (c :: t)) (c :: t)
  /-- a quote that is not closed: the text behind it -/
  | quote {n : Nat} {c : UInt8} {t : Str} : c ∈ (b! "'\"") → c ∉ t →
    ListFault q n (.notTerminated t) (c :: t)
  /-- one text too many: the query -/
  | over {c : UInt8} {w s : Str} : c ∈ (b! "'\"") → c ∉ w → w ≠ [] →
    ListFault q 0 (.exprOverflow q) (c :: (w ++ c :: s))
  | sep {n : Nat} {e : TagErr} {c : UInt8} {s : Str} : c ∈ (b! " ,") → ListFault q n e s →
    ListFault q n e (c :: s)
  | skip {n : Nat} {e : TagErr} {c : UInt8} {s : Str} : c ∈ (b! "'\"") → ListFault q n e s →
    ListFault q n e (c :: c :: s)
  | text {n : Nat} {e : TagErr} {c : UInt8} {w s : Str} : c ∈ (b! "'\"") → c ∉ w → w ≠ [] →
    ListFault q n e s → ListFault q (n + 1) e (c :: (w ++ c :: s))

/-- A byte of the operators. -/
def OpByte (x : UInt8) : Prop := x ∈ (b! "=~!")

/-- The error of a condition. -/
inductive CondFault (lib : GoLib) : TagErr → Str → Prop where
  /-- no operator: the condition -/
  | noOp {c : Str} : (∀ x ∈ c, ¬ OpByte x) → CondFault lib (.exprInvalid c) c
  /-- no key: the condition -/
  | noKey {x : UInt8} {t : Str} : OpByte x → CondFault lib (.exprInvalid (x :: t)) (x :: t)
  /-- no operator is written like this: the text from there -/
  | badOp {k r : Str} : k ≠ [] → (∀ x ∈ k, ¬ OpByte x) →
    (r.head? = some 126 ∨ ∃ t, r = 33 :: t ∧ t.head? ≠ some 61) →
    CondFault lib (.exprInvalid r) (k ++ r)
  /-- no regular expression: the value -/
  | regexp {c k v : Str} {op : TagOp} : CondText c k op v → op = .mt ∨ op = .nm →
    lib.reCompiles v = false → CondFault lib (.exprInvalid v) c
  /-- no glob: its error -/
  | glob {c k v : Str} {op : TagOp} {e : GErr} : CondText c k op v → op = .eq ∨ op = .ne →
    Reports e v → CondFault lib (.glob e) c

/-- `q` is `seriesByTag(…)` around `s`, up to outer blanks. -/
def CallText (q s : Str) : Prop :=
  ∃ m n, q = List.replicate m 32 ++ b!"seriesByTag(" ++ s ++ b!")" ++ List.replicate n 32

/-- The error of a query: it is no call, or the list of its conditions is faulty, or the first
faulty condition is. -/
def QueryReports (lib : GoLib) (e : TagErr) (q : Str) : Prop :=
  (e = .queryInvalid q ∧ ¬ ∃ s, CallText q s) ∨
  (∃ s, CallText q s ∧ ListFault q 128 e s) ∨
  ∃ l c r, QueryText q (l ++ c :: r) ∧ (l ++ c :: r).length ≤ 128 ∧
    (∀ x ∈ l, ∀ e', ¬ CondFault lib e' x) ∧ CondFault lib e c

end GoMatcher
