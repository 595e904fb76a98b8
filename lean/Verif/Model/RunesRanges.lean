import Verif.Model.AsciiSet

/-! # Model of `pkg/utils/runesranges.go` and `pkg/utils/string.go` -/

namespace GoMatcher

/-- `RuneRange` (runesranges.go:11-14). -/
structure RuneRange where
  first : Nat
  last : Nat
  deriving DecidableEq, Repr

/-- The order of `sort.Slice` in `RunesRangeMerge` (runesranges.go:17-22). -/
def RuneRange.le (a b : RuneRange) : Bool :=
  if a.first = b.first then a.last ≤ b.last else a.first < b.first

/-- `ranges[i]`; the indexes of the loops below are in range. -/
def rangeAt (a : List RuneRange) (i : Nat) : RuneRange := a.getD i ⟨0, 0⟩

/-- Inner loop of `RunesRangeMerge` (runesranges.go:31-43): the new `i` and the slice.  The first
argument is the number of rounds that are left, `n - next`. -/
def mergeInner (pos : Nat) : Nat → Nat → Nat → List RuneRange → Nat × List RuneRange
  | 0, _, i, a => (i, a)
  | k + 1, next, i, a =>
    if (rangeAt a pos).first = (rangeAt a next).first ∨
        (rangeAt a pos).last + 1 ≥ (rangeAt a next).first then
      let a := if (rangeAt a pos).last < (rangeAt a next).last then
        a.set pos { rangeAt a pos with last := (rangeAt a next).last } else a
      mergeInner pos k (next + 1) (i + 1) (a.set (i + 1) { rangeAt a (i + 1) with last := 0 })
    else (i, a)

/-- Outer loop of `RunesRangeMerge` (runesranges.go:27-54), one round of fuel per element.  The
test `pos < n-1` is the condition of the inner loop. -/
def mergeOuter (n : Nat) : Nat → Nat → Nat → List RuneRange → List RuneRange
  | 0, _, j, a => a.take j
  | fuel + 1, i, j, a =>
    if i < n then
      let pos := i
      let r := mergeInner pos (n - (i + 1)) (i + 1) i a
      let a := r.2
      let a := if pos ≠ j then
        let a := a.set j (rangeAt a pos)
        a.set pos { rangeAt a pos with last := 0 } else a
      mergeOuter n fuel (r.1 + 1) (if (rangeAt a j).last ≠ 0 then j + 1 else j) a
    else a.take j

/-- `RunesRangeMerge` (runesranges.go:16-55).  The slice is compacted in place. -/
def runesRangeMerge (ranges : List RuneRange) : List RuneRange :=
  mergeOuter ranges.length ranges.length 0 0 (sortBy RuneRange.le ranges)

/-- `RunesRanges` (runesranges.go:136-142). -/
structure RunesRanges where
  ascii : ASCIISet := {}
  ranges : List RuneRange := []
  needMerge : Bool := false
  minSize : Int := 0
  maxSize : Int := 0
  deriving DecidableEq, Repr

namespace RunesRanges

/-- `setSizes` (runesranges.go:177-184). -/
def setSizes (rs : RunesRanges) (n : Int) : RunesRanges :=
  let rs := if rs.maxSize < n then { rs with maxSize := n } else rs
  if rs.minSize > n ∨ rs.minSize = 0 then { rs with minSize := n } else rs

/-- `rs.ASCII.Add(byte(start)); rs.setSizes(1)` or
`append(rs.UnicodeRanges, {start,start}); rs.setSizes(RuneLen(start))`
(runesranges.go:104-110, 117-123). -/
def addOne (rs : RunesRanges) (start : Nat) : RunesRanges :=
  if start ≤ 127 then
    ({ rs with ascii := (rs.ascii.add (UInt8.ofNat start)).1 }).setSizes 1
  else
    ({ rs with ranges := rs.ranges ++ [RuneRange.mk start start] }).setSizes (runeLen start)

/-- `for i := byte(start); i <= byte(c); i++ { rs.ASCII.Add(i) }`
(runesranges.go:80-82), `start <= c <= 127`. -/
def addAsciiRange (s : ASCIISet) (start c : Nat) : ASCIISet :=
  (List.range' start (c + 1 - start)).foldl (fun s i => (s.add (UInt8.ofNat i)).1) s

/-- The loop `for i, c := range s` of `RunesRangeExpand` (runesranges.go:67-114)
with its state `rs`, `start`, `isRange`; followed by the tail
(runesranges.go:115-127).  `none` is `ok = false`.  The test `s[i] == '-'` on the
byte is the test `c == '-'` on the rune, since `'-'` is ASCII. -/
def expandLoop (rs : RunesRanges) (start : Nat) (isRange : Bool) :
    List Nat → Option RunesRanges
  | [] =>
    let rs := if start ≠ runeError then rs.addOne start else rs
    some { rs with ranges := runesRangeMerge rs.ranges }
  | c :: cs =>
    if c = 0x2D then expandLoop rs start true cs
    else if isRange then
      if start = runeError then expandLoop rs c false cs
      else if start ≤ 127 then
        if c > 127 then none
        else if start ≤ c then
          expandLoop (({ rs with ascii := addAsciiRange rs.ascii start c }).setSizes 1)
            runeError false cs
        else none
      else if start ≤ c then
        if runeLen start ≠ runeLen c then none
        else
          let rs := rs.setSizes (runeLen start)
          expandLoop { rs with ranges := rs.ranges ++ [RuneRange.mk start c] } runeError false cs
      else none
    else
      let rs := if start ≠ runeError then rs.addOne start else rs
      expandLoop rs c false cs

/-- `RunesRangeExpand` (runesranges.go:58-133); `none` is `ok = false`. -/
def expand (s : Str) : Option RunesRanges :=
  match s with
  | 0x5B :: t =>
    if t.getLast? = some 0x5D then
      let body := t.dropLast
      if body = [] then some {}
      else expandLoop {} runeError false ((rangeStr body).map Prod.snd)
    else none
  | _ => none

/-- `RunesRanges.Add` (runesranges.go:187-196). -/
def add (rs : RunesRanges) (r : Nat) : RunesRanges :=
  if r ≤ 127 then
    ({ rs with ascii := (rs.ascii.add (UInt8.ofNat r)).1 }).setSizes 1
  else
    let rs := rs.setSizes (runeLen r)
    { rs with ranges := rs.ranges ++ [RuneRange.mk r r], needMerge := true }

/-- `RunesRanges.Adds` (runesranges.go:199-203). -/
def adds (rs : RunesRanges) (s : Str) : RunesRanges :=
  ((rangeStr s).map Prod.snd).foldl add rs

/-- `RunesRanges.Merge` (runesranges.go:206-211). -/
def merge (rs : RunesRanges) : RunesRanges :=
  if rs.needMerge then { rs with ranges := runesRangeMerge rs.ranges, needMerge := false }
  else rs

/-- The binary search loop of `ContainsUnicode` (runesranges.go:234-245).  `lo` and
`hi` are the Go variables `low`, `high`; the indexes stay within the slice, so
`getD` never uses its default; `fuel` bounds the number of iterations. -/
def bsearch (l : List RuneRange) (c : Nat) : Nat → Nat → Nat → Bool
  | 0, _, _ => false
  | fuel + 1, lo, hi =>
    if lo ≤ hi then
      let mid := (lo + hi) / 2
      let r := l.getD mid ⟨0, 0⟩
      if c ≥ r.first then
        if c ≤ r.last then true else bsearch l c fuel (mid + 1) hi
      else bsearch l c fuel lo (mid - 1)
    else false

/-- `ContainsUnicode` (runesranges.go:213-248). -/
def containsUnicode (rs : RunesRanges) (c : Nat) : Bool :=
  match rs.ranges with
  | [] => false
  | [r] => c ≥ r.first && c ≤ r.last
  | l@(r0 :: _ :: _) =>
    let high := l.length - 1
    let rh := l.getD high ⟨0, 0⟩
    if c < r0.first || c > rh.last then false
    else if c ≤ r0.last then true
    else if c ≥ rh.first then true
    else bsearch l c l.length 1 (high - 1)

/-- `Contains` (runesranges.go:250-255). -/
def contains (rs : RunesRanges) (c : Nat) : Bool :=
  if c ≤ 127 then rs.ascii.contains (UInt8.ofNat c) else rs.containsUnicode c

/-- Second loop of `Index` (runesranges.go:299-316) at offset `i`, where `s` is
`s[i:]`; result is position, rune, width; `none` for `(-1, RuneError, 0)`.
`fuel` bounds the number of iterations. -/
def indexLoop (rs : RunesRanges) : Nat → Nat → Str → Option (Nat × Nat × Nat)
  | 0, _, _ => none
  | _ + 1, _, [] => none
  | fuel + 1, i, b :: t =>
    if b.toNat < 128 then
      if rs.ascii.contains b then some (i, b.toNat, 1) else indexLoop rs fuel (i + 1) t
    else
      let d := decodeRune (b :: t)
      if d.1 = runeError then none
      else if rs.containsUnicode d.1 then some (i, d.1, d.2)
      else indexLoop rs fuel (i + d.2) ((b :: t).drop d.2)

/-- First loop of `Index`/`IndexByte` for pure ASCII classes
(runesranges.go:260-264, 292-296). -/
def indexAscii (rs : RunesRanges) : Nat → Str → Option (Nat × Nat × Nat)
  | _, [] => none
  | i, b :: t => if rs.ascii.contains b then some (i, b.toNat, 1) else indexAscii rs (i + 1) t

/-- `Index` (runesranges.go:290-319). -/
def index (rs : RunesRanges) (s : Str) : Option (Nat × Nat × Nat) :=
  if rs.ranges = [] then rs.indexAscii 0 s else rs.indexLoop s.length 0 s

/-- Second loop of `IndexByte` (runesranges.go:268-284).  In the ASCII branch the Go
code does not advance `i`; the model keeps that, so it needs a step budget. -/
def indexByteLoop (rs : RunesRanges) : Nat → Nat → Str → R (Option (Nat × Nat × Nat))
  | 0, _, _ => .timeout
  | _ + 1, _, [] => .ok none
  | fuel + 1, i, b :: t =>
    if b.toNat < 128 then
      if rs.ascii.contains b then .ok (some (i, b.toNat, 1))
      else indexByteLoop rs fuel i (b :: t)
    else
      let d := decodeRune (b :: t)
      if d.1 = runeError then .ok none
      else if rs.containsUnicode d.1 then .ok (some (i, d.1, d.2))
      else indexByteLoop rs fuel (i + d.2) ((b :: t).drop d.2)

/-- `IndexByte` (runesranges.go:258-287) with a step budget. -/
def indexByte (rs : RunesRanges) (fuel : Nat) (s : Str) : R (Option (Nat × Nat × Nat)) :=
  if rs.ranges = [] then .ok (rs.indexAscii 0 s) else rs.indexByteLoop fuel 0 s

/-- `StartsWith` (runesranges.go:322-343); `none` for `(RuneError, -1)`. -/
def startsWith (rs : RunesRanges) (s : Str) : Option (Nat × Nat) :=
  match s with
  | [] => none
  | b :: t =>
    if b.toNat < 128 then
      if rs.ascii.contains b then some (b.toNat, 1) else none
    else
      let d := decodeRune (b :: t)
      if d.1 ≠ runeError ∧ rs.containsUnicode d.1 then some d else none

/-- `EndsWith` (runesranges.go:346-372); `none` for `(RuneError, -1)`. -/
def endsWith (rs : RunesRanges) (s : Str) : Option (Nat × Nat) :=
  if s = [] then none
  else
    let d := decodeLastRune s
    if d.1 = runeError then none
    else if d.1 < 128 then
      if rs.ascii.contains (UInt8.ofNat d.1) then some (d.1, 1) else none
    else if rs.containsUnicode d.1 then some (d.1, s.length - d.2)
    else none

/-- `RunesRanges.WriteString` (runesranges.go:157-168): the bytes written. -/
def writeString (rs : RunesRanges) : Str :=
  [0x5B] ++ rs.ascii.writeString ++
    rs.ranges.flatMap (fun r =>
      encodeRune r.first ++ (if r.first ≠ r.last then 0x2D :: encodeRune r.last else [])) ++
    [0x5D]

/-- `RunesRanges.Equal` (runesranges.go:144-155). -/
def equal (rs a : RunesRanges) : Bool :=
  a.ascii == rs.ascii && rs.minSize == a.minSize && rs.maxSize == a.maxSize &&
    rs.ranges == a.ranges

end RunesRanges

/-- `StringSkipRunes` (pkg/utils/string.go:32-43); `none` for `-1`. -/
def skipRunes : Str → Nat → Option Nat
  | _, 0 => some 0
  | s, k + 1 =>
    let n := (decodeRune s).2
    if n = 0 then none else (skipRunes (s.drop n) k).map (n + ·)

/-- Loop of `StringSkipRunesLast` (string.go:48-56); result is the accumulated
width `end`. -/
def skipRunesLastLoop : Str → Nat → Option Nat
  | _, 0 => some 0
  | s, k + 1 =>
    let n := (decodeLastRune s).2
    if n = 0 then none else (skipRunesLastLoop (s.take (s.length - n)) k).map (n + ·)

/-- `StringSkipRunesLast` (string.go:45-59); `none` for `-1`. -/
def skipRunesLast (s : Str) (k : Nat) : Option Nat :=
  (skipRunesLastLoop s k).map (s.length - ·)

end GoMatcher
