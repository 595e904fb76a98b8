/-!
# Basic vocabulary of the model

Go strings, results of Go functions (value, panic, out of step budget) and the
functions of the Go standard library package `strings` that the code uses.
-/

namespace GoMatcher

/-- A Go `string` or `[]byte`: a sequence of bytes, not necessarily valid UTF-8. -/
abbrev Str := List UInt8

/-- Outcome of a Go function: a value, a panic, or "the step budget of the model
ran out" (the only way a Lean function can represent a Go loop that may not end). -/
inductive R (α : Type) where
  | ok (a : α)
  | panic
  | timeout
  deriving DecidableEq, Repr

namespace R

protected def bind {α β : Type} (x : R α) (f : α → R β) : R β :=
  match x with
  | ok a => f a
  | panic => panic
  | timeout => timeout

instance : Monad R where
  pure := ok
  bind := R.bind

@[simp] theorem pure_eq {α : Type} (a : α) : (pure a : R α) = ok a := rfl
@[simp] theorem bind_ok {α β : Type} (a : α) (f : α → R β) : (ok a >>= f) = f a := rfl
@[simp] theorem bind_panic {α β : Type} (f : α → R β) : ((panic : R α) >>= f) = panic := rfl
@[simp] theorem bind_timeout {α β : Type} (f : α → R β) : ((timeout : R α) >>= f) = timeout := rfl

theorem bind_eq_ok {α β : Type} {x : R α} {f : α → R β} {b : β} :
    (x >>= f) = ok b ↔ ∃ a, x = ok a ∧ f a = ok b := by
  cases x with
  | ok a => simp
  | panic => simp
  | timeout => simp

end R

/-- `b! "text"` is the byte list of a Go string literal (its UTF-8 encoding). -/
syntax (name := bytesLit) "b!" str : term

macro_rules
  | `(b! $s:str) => do
    let bytes := s.getString.toUTF8.toList
    let elems : Array (Lean.TSyntax `term) :=
      (bytes.map fun b => Lean.Syntax.mkNumLit (toString b.toNat)).toArray
    `(([$elems,*] : List UInt8))

/-- Go slice expression `s[n:]`; panics when `n > len(s)`. -/
def sliceFrom (s : Str) (n : Nat) : R Str :=
  if n ≤ s.length then .ok (s.drop n) else .panic

/-- Go slice expression `s[:n]`; panics when `n > len(s)`. -/
def sliceTo (s : Str) (n : Nat) : R Str :=
  if n ≤ s.length then .ok (s.take n) else .panic

/-- `strings.Index(s, w)`: first position of `w` in `s`, `none` for Go's `-1`. -/
def strIndex (s w : Str) : Option Nat :=
  if w.isPrefixOf s then some 0
  else match s with
    | [] => none
    | _ :: t => (strIndex t w).map (· + 1)

/-- `strings.IndexByte(s, c)`. -/
def indexByte (s : Str) (c : UInt8) : Option Nat :=
  match s with
  | [] => none
  | b :: t => if b = c then some 0 else (indexByte t c).map (· + 1)

/-- `strings.LastIndexByte`-style search by predicate: position of the last byte
satisfying `p`. -/
def lastIndexP (p : UInt8 → Bool) (s : Str) : Option Nat :=
  match s with
  | [] => none
  | b :: t => match lastIndexP p t with
    | some i => some (i + 1)
    | none => if p b then some 0 else none

/-- Position of the first byte satisfying `p`. -/
def indexP (p : UInt8 → Bool) (s : Str) : Option Nat :=
  match s with
  | [] => none
  | b :: t => if p b then some 0 else (indexP p t).map (· + 1)

/-- `strings.Split(s, sep)` for a one-byte separator: always at least one part. -/
def splitByte (s : Str) (sep : UInt8) : List Str :=
  match s with
  | [] => [[]]
  | b :: t =>
    if b = sep then [] :: splitByte t sep
    else match splitByte t sep with
      | [] => [[b]]
      | p :: ps => (b :: p) :: ps

/-- Lexicographic `<=` on Go strings (byte order), as used by `sort.Strings`. -/
def strLe : Str → Str → Bool
  | [], _ => true
  | _ :: _, [] => false
  | a :: s, b :: t => if a < b then true else if a = b then strLe s t else false

/-- Strict order `<` on Go strings. -/
def strLt (a b : Str) : Bool := !strLe b a

/-- Insertion into a list ordered by `le`. -/
def insertSorted {α : Type} (le : α → α → Bool) (x : α) : List α → List α
  | [] => [x]
  | y :: ys => if le x y then x :: y :: ys else y :: insertSorted le x ys

/-- Model of `sort.Strings`/`sort.Slice`: a sort by `le`.  The orders the code
sorts by are total and antisymmetric on what is compared, so the result of any
sorting algorithm is the same list. -/
def sortBy {α : Type} (le : α → α → Bool) : List α → List α
  | [] => []
  | x :: xs => insertSorted le x (sortBy le xs)

/-- `strings.HasPrefix`. -/
abbrev hasPrefix (s p : Str) : Bool := p.isPrefixOf s

/-- `strings.HasSuffix`. -/
abbrev hasSuffix (s p : Str) : Bool := p.isSuffixOf s

end GoMatcher
