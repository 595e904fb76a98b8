import Verif.Utf8

/-! # Wildcard scanning, list expansion and glob intersection
(`pkg/items/utils.go`, `pkg/items/stringlist.go:36-87`) -/

namespace GoMatcher

/-- The characters of `"[]{}*?"` (utils.go:26, 30, 34). -/
def isWild (c : UInt8) : Bool :=
  c = 91 || c = 93 || c = 123 || c = 125 || c = 42 || c = 63

/-- `AddMaxLen` (utils.go:8-13). -/
def addMaxLen (a b : Int) : Int := if a > -1 ∧ b > -1 then a + b else -1

/-- `HasWildcard` (utils.go:25-27).  `strings.ContainsAny` with an ASCII set looks at
single bytes. -/
def hasWildcard (s : Str) : Bool := s.any isWild

/-- `IndexWildcard` (utils.go:29-31). -/
def indexWildcard (s : Str) : Option Nat := indexP isWild s

/-- `IndexLastWildcard` (utils.go:33-35). -/
def indexLastWildcard (s : Str) : Option Nat := lastIndexP isWild s

/-- `WildcardCount` (utils.go:15-23, the same in gglob/utils.go:64-72), the number of runes that open a
wildcard.  The code of `gglob/utils.go:74-84` repeats the three functions above word by word. -/
def wildcardCount (s : Str) : Nat :=
  (rangeStr s).foldl (fun n p => if p.2 = 91 ∨ p.2 = 123 ∨ p.2 = 42 ∨ p.2 = 63 then n + 1 else n) 0

/-- Rune test of `IntersectGlobs` (utils.go:51-54, 64-67). -/
def stopRune (c : Nat) : Bool :=
  c = runeError || c = 91 || c = 93 || c = 123 || c = 125 || c = 42 || c = 63

/-- Inner loop of `IntersectGlobs` (utils.go:55-68): `true` when it returns.  As in the
code the rune compared is taken from `globs[0]`, not from `globs[i]`. -/
def intersectInner (g0 : Str) (pos c0 : Nat) : List Str → Bool
  | [] => false
  | g :: gs =>
    if (pos : Int) > (g.length : Int) - 1 then true
    else
      let c := (decodeRune (g0.drop pos)).1
      if c0 ≠ c then true
      else if stopRune c then true
      else intersectInner g0 pos c0 gs

/-- Outer loop of `IntersectGlobs` (utils.go:49-70); the fuel is the number of rounds. -/
def intersectLoop (g0 : Str) (rest : List Str) : Nat → Nat → R Str
  | 0, _ => .timeout
  | fuel + 1, pos => do
    let t ← sliceFrom g0 pos
    let (c0, n) := decodeRune t
    if stopRune c0 then sliceTo g0 pos
    else if intersectInner g0 pos c0 rest then sliceTo g0 pos
    else intersectLoop g0 rest fuel (pos + n)

/-- `IntersectGlobs` (utils.go:37-71).  The second test of `len(globs) == 0` is
unreachable. -/
def intersectGlobs (globs : List Str) : R Str :=
  match globs with
  | [] => .ok []
  | g0 :: rest => intersectLoop g0 rest (g0.length + 1) 0

/-- First loop of `removeDuplicated` (stringlist.go:38-44): skip equal elements at the
start. -/
def dupStart (a : List Str) : Nat :=
  match a with
  | x :: y :: t => if x ≠ y then 0 else dupStart (y :: t) + 1
  | _ => 0

/-- Second loop of `removeDuplicated` (stringlist.go:45-50): `j` moves down while equal
to its predecessor, not below `i`. -/
def dupEnd (a : List Str) (i : Nat) : Nat → Nat
  | 0 => 0
  | j + 1 => if j + 1 > i ∧ a[j]? = a[j + 1]? then dupEnd a i j else j + 1

/-- Third loop of `removeDuplicated` (stringlist.go:57-65): in-place compaction. -/
def dedupLoop (n : Nat) : Nat → Nat → List Str → Nat → List Str × Nat
  | 0, _, a, j => (a, j)
  | fuel + 1, i, a, j =>
    if i < n then
      if i + 1 < n ∧ a[i]? = a[i + 1]? then dedupLoop n fuel (i + 1) a j
      else dedupLoop n fuel (i + 1) (a.set j (a.getD i [])) (j + 1)
    else (a, j)

/-- `removeDuplicated` (stringlist.go:36-68). It is only called with at least one
element. -/
def removeDuplicated (a : List Str) : List Str :=
  let i := dupStart a
  let j := dupEnd a i (a.length - 1)
  let a := (a.drop i).take (j + 1 - i)
  let (a, j) := dedupLoop a.length a.length 0 a 0
  a.take j

/-- `ListExpand` (stringlist.go:70-87): `none` is `ok = false`. -/
def listExpand (s : Str) : Option (List Str) :=
  if s.length > 1 ∧ s.head? = some 123 ∧ s.getLast? = some 125 then
    let body := (s.drop 1).take (s.length - 2)
    if body = [] then some []
    else some (removeDuplicated (sortBy strLe (splitByte body 44)))
  else none

end GoMatcher
