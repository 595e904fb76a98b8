import Verif.Utf8

/-! # Model of `pkg/utils/asciiset.go` -/

namespace GoMatcher

/-- `type ASCIISet [8]uint32` (pkg/utils/asciiset.go:16). -/
structure ASCIISet where
  w0 : BitVec 32 := 0#32
  w1 : BitVec 32 := 0#32
  w2 : BitVec 32 := 0#32
  w3 : BitVec 32 := 0#32
  w4 : BitVec 32 := 0#32
  w5 : BitVec 32 := 0#32
  w6 : BitVec 32 := 0#32
  w7 : BitVec 32 := 0#32
  deriving DecidableEq, Repr

namespace ASCIISet

/-- Array read `as[i]` for `i < 8`. -/
def get (s : ASCIISet) (i : Nat) : BitVec 32 :=
  match i with
  | 0 => s.w0 | 1 => s.w1 | 2 => s.w2 | 3 => s.w3
  | 4 => s.w4 | 5 => s.w5 | 6 => s.w6 | _ => s.w7

/-- Array write `as[i] = w` for `i < 8`. -/
def set (s : ASCIISet) (i : Nat) (w : BitVec 32) : ASCIISet :=
  match i with
  | 0 => { s with w0 := w } | 1 => { s with w1 := w }
  | 2 => { s with w2 := w } | 3 => { s with w3 := w }
  | 4 => { s with w4 := w } | 5 => { s with w5 := w }
  | 6 => { s with w6 := w } | _ => { s with w7 := w }

/-- The empty set (Go zero value). -/
def empty : ASCIISet := {}

/-- `as[c/32] |= 1 << (c % 32)` (asciiset.go:102, 121). -/
def setBit (s : ASCIISet) (c : UInt8) : ASCIISet :=
  s.set (c.toNat / 32) (s.get (c.toNat / 32) ||| (1#32 <<< (c.toNat % 32)))

/-- `ASCIISet.Add` (asciiset.go:117-123): new set and the returned flag. -/
def add (s : ASCIISet) (c : UInt8) : ASCIISet × Bool :=
  if c.toNat ≥ 128 then (s, false) else (s.setBit c, true)

/-- `ASCIISet.Contains` (asciiset.go:126-131). -/
def contains (s : ASCIISet) (c : UInt8) : Bool :=
  if c.toNat ≥ 128 then false
  else (s.get (c.toNat / 32) &&& (1#32 <<< (c.toNat % 32))) != 0

/-- `ASCIISet.IsEmpty` (asciiset.go:41-44). -/
def isEmpty (s : ASCIISet) : Bool :=
  s.w0 == 0 && s.w1 == 0 && s.w2 == 0 && s.w3 == 0 &&
  s.w4 == 0 && s.w5 == 0 && s.w6 == 0 && s.w7 == 0

/-- `ASCIISet.Clear` (asciiset.go:61-70). -/
def clear (_s : ASCIISet) : ASCIISet := {}

/-- The loop counter values `1 .. 127` of asciiset.go:21, 49. -/
def codes : List UInt8 := (List.range' 1 127).map UInt8.ofNat

/-- Loop of `ASCIISet.Count` (asciiset.go:49-56); state is `(n, first)`. -/
def countLoop (s : ASCIISet) : List UInt8 → Nat × UInt8 → Nat × UInt8
  | [], st => st
  | i :: is, (n, first) =>
    if s.contains i then countLoop s is (n + 1, if first = 0 then i else first)
    else countLoop s is (n, first)

/-- `ASCIISet.Count` (asciiset.go:46-59). -/
def count (s : ASCIISet) : Nat × UInt8 :=
  if s.isEmpty then (0, 0) else countLoop s codes (0, 0)

/-- Loop of `ASCIISet.WriteString` (asciiset.go:21-37); `start = 0` means "no
open run"; returns the written bytes. -/
def writeLoop (s : ASCIISet) : List UInt8 → UInt8 → Str
  | [], start => if start ≠ 0 then [start] else []
  | i :: is, start =>
    if s.contains i then writeLoop s is (if start = 0 then i else start)
    else if start ≠ 0 then
      (start :: if i > start + 1 then [0x2D, i - 1] else []) ++ writeLoop s is 0
    else writeLoop s is start

/-- `ASCIISet.WriteString` (asciiset.go:18-39): the bytes appended to the buffer. -/
def writeString (s : ASCIISet) : Str :=
  if s.isEmpty then [] else writeLoop s codes 0

/-- `ASCIISet.WriteStringAll` (asciiset.go:79-86): loop over `1 .. 126`. -/
def writeStringAll (s : ASCIISet) : Str :=
  ((List.range' 1 126).map UInt8.ofNat).filter s.contains

/-- Loop of `MakeASCIISet` (asciiset.go:96-105). -/
def makeLoop (s : ASCIISet) : Str → ASCIISet × Bool
  | [] => (s, true)
  | c :: cs => if c.toNat ≥ 128 then (s, false) else makeLoop (s.setBit c) cs

/-- `MakeASCIISet` (asciiset.go:96-105). -/
def make (chars : Str) : ASCIISet × Bool := makeLoop {} chars

/-- `MakeASCIISetMust` (asciiset.go:108-114). -/
def makeMust (chars : Str) : R ASCIISet :=
  let r := make chars
  if r.2 then .ok r.1 else .panic

/-- `ASCIISet.Index` and `ASCIISet.IndexByte` (asciiset.go:134-151);
`none` stands for `-1`. -/
def index (s : ASCIISet) (t : Str) : Option Nat := indexP s.contains t

/-- Backward loop of `ASCIISet.LastIndex`/`LastIndexByte` (asciiset.go:154-171):
`i` is one more than the Go loop variable. -/
def lastIndexLoop (s : ASCIISet) (t : Str) : Nat → Option Nat
  | 0 => none
  | i + 1 => if s.contains (t.getD i 0) then some i else lastIndexLoop s t i

/-- `ASCIISet.LastIndex` (asciiset.go:164-171). -/
def lastIndex (s : ASCIISet) (t : Str) : Option Nat := lastIndexLoop s t t.length

end ASCIISet
end GoMatcher
