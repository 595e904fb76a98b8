import Verif.Model.Glob

/-! # Helpers of word lists (`pkg/items/stringlist.go`)

The matchers use these inline; here they are functions of their own. -/

namespace GoMatcher

namespace StringList

/-- `StringList.Map` (stringlist.go:139-148): the keys, in the order of insertion. -/
def keys (l : StringList) : List Str := (if l.minSize = 0 then [[]] else []) ++ l.vals

/-- `StringList.FindFirst` (stringlist.go:176-182): index (`none` for -1) and `supported`.
`Group.FindFirst` (group.go:71-73) always returns `0, false`. -/
def findFirst (l : StringList) (s : Str) : Option Nat × Bool :=
  if l.asciiStarted then (l.firstASCII.index s, true) else (some 0, false)

/-- `StringList.MatchFirst` (stringlist.go:185-197): `ok` and `supported`. -/
def matchFirst (l : StringList) (s : Str) : Bool × Bool :=
  match s with
  | [] => (false, true)
  | b :: _ => if l.asciiStarted then (l.firstASCII.contains b, true) else (true, false)

/-- `StringList.FindN` (stringlist.go:199-205): index and length, `none` for -1; an index outside
`Vals` panics. -/
def findN (l : StringList) (s : Str) (n : Nat) : R (Option (Nat × Nat)) :=
  match l.vals[n]? with
  | none => .panic
  | some v => .ok ((strIndex s v).map fun i => (i, v.length))

/-- `StringList.MatchN` (stringlist.go:207-216): `none` for -1. -/
def matchN (l : StringList) (s : Str) (n : Nat) : R (Option Nat) :=
  match l.vals[n]? with
  | none => .panic
  | some v => .ok (if hasPrefix s v then some v.length else none)

end StringList

/-- The inner loop of `interceptionLeft` (stringlist.go:22-30) at position `i` with character `c`:
whether all strings go on with `c`. -/
def sharesRune (i c : Nat) : List Str → R Bool
  | [] => .ok true
  | w :: ws =>
    if i = w.length then .ok false
    else do
      let r ← sliceFrom w i
      if c ≠ (decodeRune r).1 then .ok false else sharesRune i c ws

/-- The outer loop (stringlist.go:21-32) over the remaining positions of `a[0]`. -/
def interceptLoop (a0 : Str) (ws : List Str) : List (Nat × Nat) → R Str
  | [] => .ok a0
  | (i, c) :: ps => do
    if ← sharesRune i c ws then interceptLoop a0 ws ps else .ok (a0.take i)

/-- `interceptionLeft` (stringlist.go:14-34). -/
def interceptionLeft : List Str → R Str
  | [] => .ok []
  | [a] => .ok a
  | a0 :: ws => interceptLoop a0 ws (rangeStr a0)

end GoMatcher
