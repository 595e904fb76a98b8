import Verif.Model.Glob

/-! # Random samples of a glob (`WriteRandom`)

`math/rand` is modelled by an oracle `ω`: its `i`-th answer before reduction is `ω i`.
Every function takes the number of answers used so far and returns the new number. -/

namespace GoMatcher

/-- `rand.Intn(n)` for a length `n` (math/rand: panics when `n <= 0`, otherwise some number
below `n`). -/
def randIntn (ω : Nat → Nat) (i n : Nat) : R (Nat × Nat) :=
  if n = 0 then .panic else .ok (ω i % n, i + 1)

/-- `RunesRanges.WriteRandom` (items/runesranges.go:30-40): all ASCII members `1 .. 127`,
then the first rune of a random range. -/
def RunesRanges.writeRandom (ω : Nat → Nat) (rs : RunesRanges) (i : Nat) : R (Str × Nat) := do
  let ascii := if rs.ascii.isEmpty then []
    else ((List.range' 1 127).map UInt8.ofNat).filter rs.ascii.contains
  let (k, i) ← randIntn ω i rs.ranges.length
  match rs.ranges[k]? with
  | some r => .ok (ascii ++ encodeRune r.first, i)
  | none => .panic

/-- `StringList.WriteRandom` (stringlist.go:109-111). -/
def StringList.writeRandom (ω : Nat → Nat) (l : StringList) (i : Nat) : R (Str × Nat) := do
  let (k, i) ← randIntn ω i l.vals.length
  match l.vals[k]? with
  | some v => .ok (v, i)
  | none => .panic

mutual
/-- `WriteRandom` of the items (string.go:22-24, byte.go:17-19, rune.go:18-20, any.go:19-21,
star.go:19-22, items/runesranges.go:30-40, stringlist.go:109-111, group.go:30-32,
chain.go:33-37): the bytes written. -/
def Item.writeRandom (ω : Nat → Nat) : Item → Nat → R (Str × Nat)
  | .str s, i => .ok (s, i)
  | .byte b, i => .ok ([b], i)
  | .rune r, i => .ok (encodeRune r, i)
  | .any n, i => .ok (List.replicate n 120, i)
  | .star n, i => .ok (List.replicate n 120 ++ List.replicate 9 88, i)
  | .ranges rs, i => rs.writeRandom ω i
  | .list l, i => l.writeRandom ω i
  | .group vals _ _, i => do
    let (k, i) ← randIntn ω i vals.length
    Item.writeNth ω vals k i
  | .chain items _ _, i => Item.writeRandoms ω items i
/-- `item.Vals[k].WriteRandom(buf)` (group.go:31). -/
def Item.writeNth (ω : Nat → Nat) : List Item → Nat → Nat → R (Str × Nat)
  | [], _, _ => .panic
  | x :: _, 0, i => Item.writeRandom ω x i
  | _ :: xs, k + 1, i => Item.writeNth ω xs k i
/-- The loop over items (chain.go:34-36, glob.go:28-30). -/
def Item.writeRandoms (ω : Nat → Nat) : List Item → Nat → R (Str × Nat)
  | [], i => .ok ([], i)
  | x :: xs, i => do
    let (a, i) ← Item.writeRandom ω x i
    let (b, i) ← Item.writeRandoms ω xs i
    .ok (a ++ b, i)
end

/-- `Glob.WriteRandom` (glob.go:24-33).  As in the code the literal ends `Prefix` and
`Suffix` are not written. -/
def Glob.writeRandom (ω : Nat → Nat) (g : Glob) (i : Nat) : R (Str × Nat) :=
  if g.items.length = 0 then .ok (g.node, i) else Item.writeRandoms ω g.items i

end GoMatcher
