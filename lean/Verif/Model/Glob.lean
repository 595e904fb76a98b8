import Verif.Model.Items

/-! # Glob parser and matcher (`pkg/items/wildcard.go`, `pkg/items/stringlist.go`,
`pkg/items/group.go`, `pkg/items/chain.go`, `glob/glob.go`) -/

namespace GoMatcher

/-- The errors of the glob parser: `io.EOF`, `ErrNodeMissmatch` (pkg/items/errors.go:3-6),
`ErrNodeUnclosed` (pkg/items/errors.go:36-38). -/
inductive GErr where
  | eof | mismatch (typ node : Str) | unclosed (segment : Str)
  deriving DecidableEq, Repr

/-- `Error` of these errors (pkg/items/errors.go:8-10, 40-42, and `io.EOF`). -/
def GErr.text : GErr → Str
  | .eof => b!"EOF"
  | .mismatch typ node => b!"node type '" ++ typ ++ b!"' mismatch: " ++ node
  | .unclosed segment => b!"glob contain unclosed node segment: " ++ segment

namespace Item

mutual
/-- `WriteString` of the items (string.go:26-30, byte.go:21-25, rune.go:22-26,
any.go:23-31, star.go:24-33, items/runesranges.go:42-46, stringlist.go:113-124,
group.go:34-45, chain.go:39-45): the bytes written. -/
def writeString : Item → Str
  | .str s => s
  | .byte b => [b]
  | .rune r => encodeRune r
  | .any n => List.replicate n 63
  | .star n => 42 :: List.replicate n 63
  | .ranges rs => rs.writeString
  | .list l => [123] ++ writeVals (l.minSize = 0) l.vals ++ [125]
  | .group vals _ _ => [123] ++ writeAlts false vals ++ [125]
  | .chain items _ _ => writeItems items
/-- The loop of chain.go:41-43 and glob.go:274-276. -/
def writeItems : List Item → Str
  | [] => []
  | x :: xs => writeString x ++ writeItems xs
/-- The loop of group.go:37-42; the flag says that a comma is needed. -/
def writeAlts : Bool → List Item → Str
  | _, [] => []
  | c, x :: xs => (if c then [44] else []) ++ writeString x ++ writeAlts true xs
/-- The loop of stringlist.go:116-121; the flag says that a comma is needed. -/
def writeVals : Bool → List Str → Str
  | _, [] => []
  | c, x :: xs => (if c then [44] else []) ++ x ++ writeVals true xs
end

mutual
/-- `Equal` of the items (string.go:15-20, byte.go:10-15, rune.go:11-16, any.go:12-17,
star.go:12-17, items/runesranges.go:23-28, stringlist.go:99-107, group.go:15-28,
chain.go:16-21). -/
def equal : Item → Item → Bool
  | .str a, .str b => a == b
  | .byte a, .byte b => a == b
  | .rune a, .rune b => a == b
  | .any a, .any b => a == b
  | .star a, .star b => a == b
  | .ranges a, .ranges b => a.equal b
  | .list a, .list b => a.minSize == b.minSize && a.maxSize == b.maxSize && a.vals == b.vals
  | .group a _ _, .group b _ _ => equalItems a b
  | .chain a _ _, .chain b _ _ => equalItems a b
  | _, _ => false
/-- `ItemsEqual` (items.go:71-81) and the loop of group.go:17-24. -/
def equalItems : List Item → List Item → Bool
  | [], [] => true
  | x :: xs, y :: ys => equal x y && equalItems xs ys
  | _, _ => false
end

end Item

/-- `string(b)` for a byte: the UTF-8 encoding of the code point `b`. -/
def stringOfByte (b : UInt8) : Str := encodeRune b.toNat

/-- The merge of an item into the last item (items.go:494-557, glob.go:146-231 with
`last != -1`; both copies are the same): `some` is the new last item, `none` means
that the item is appended.
The strings are built by the methods `Add`, `AddByte`, `AddRune` (string.go:37-59), `Append`,
`AppendByte`, `AppendRune` (byte.go:32-42, rune.go:33-43) and `NewString` (string.go:11-13). -/
def mergeItem (last item : Item) : Option Item :=
  match item, last with
  | .str v, .str vv => some (.str (vv ++ v))
  | .str v, .rune vv => some (.str (encodeRune vv ++ v))
  | .str v, .byte vv => some (.str (stringOfByte vv ++ v))
  | .rune c, .str vv => some (.str (vv ++ encodeRune c))
  | .rune c, .rune vv => some (.str (encodeRune vv ++ encodeRune c))
  | .rune c, .byte vv => some (.str (stringOfByte vv ++ encodeRune c))
  | .byte c, .str vv => some (.str (vv ++ stringOfByte c))
  | .byte c, .rune vv => some (.str (encodeRune vv ++ stringOfByte c))
  | .byte c, .byte vv => some (.str (stringOfByte vv ++ stringOfByte c))
  | .any n, .any m => some (.any (m + n))
  | .any n, .star m => some (.star (m + n))
  | .star n, .any m => some (.star (n + m))
  | .star n, .star m => some (.star (m + n))
  | _, _ => none

/-- `AppendItem` (items.go:489-559). -/
def appendItem (items : List Item) (item : Item) : List Item :=
  match items.getLast? with
  | none => [item]
  | some last =>
    match mergeItem last item with
    | some m => items.dropLast ++ [m]
    | none => items ++ [item]

/-- State of a `Chain` under construction (chain.go:6-10); `NewChain` (chain.go:12-14) is the empty
one. -/
structure ChainSt where
  items : List Item := []
  minSize : Int := 0
  maxSize : Int := 0

/-- `Chain.Append` (chain.go:23-31). -/
def ChainSt.append (c : ChainSt) (item : Item) : ChainSt :=
  { minSize := c.minSize + item.minLen
    maxSize := if item.maxLen = -1 then -1 else c.maxSize + item.maxLen
    items := appendItem c.items item }

/-- The item of a literal segment (wildcard.go:79-86, stringlist.go:230-237): a byte or
rune when it is one decoded rune, otherwise a string. -/
def literalItem (v : Str) : Item :=
  let d := decodeRune v
  if d.2 = v.length then
    (if d.1 ≤ 127 then .byte (UInt8.ofNat d.1) else .rune d.1)
  else .str v

/-- Variables of the loop of `NewItemList` (stringlist.go:239-246). -/
structure ListScan where
  minLen : Int := 9223372036854775807
  maxLen : Int := 0
  asciiStarted : Bool := true
  firstASCII : ASCIISet := {}
  hasStar : Bool := false

/-- The loop of `NewItemList` (stringlist.go:247-264). -/
def listScan (st : ListScan) : List Str → ListScan
  | [] => st
  | v :: vs =>
    let l : Int := v.length
    let st := if st.maxLen < l then { st with maxLen := l } else st
    let st := if st.minLen > l then { st with minLen := l } else st
    match v with
    | [] => listScan st vs
    | b :: _ =>
      let a := st.firstASCII.add b
      let st := { st with
        firstASCII := a.1, asciiStarted := if a.2 then st.asciiStarted else false }
      if hasWildcard v then { st with hasStar := true } else listScan st vs

/-- `NewItemList` without the call of `NewGroup` (stringlist.go:219-284): `Sum.inr` means
that `NewGroup(vals)` is called. -/
def listItem (vals : List Str) : R (Option Item) ⊕ Unit :=
  match vals with
  | [] => .inl (.ok none)
  | [v] => if v = [] then .inl (.ok none) else .inl (.ok (some (literalItem v)))
  | v0 :: vs =>
    let st := listScan {} vals
    if st.hasStar then .inr ()
    else if st.minLen = 0 ∧ v0 ≠ [] then .inl .panic
    else
      let vals := if st.minLen = 0 then vs else vals
      .inl (.ok (some (.list
        (if st.asciiStarted then
          { vals := vals, minSize := st.minLen, maxSize := st.maxLen
            asciiStarted := true, firstASCII := st.firstASCII }
        else { vals := vals, minSize := st.minLen, maxSize := st.maxLen }))))

/-- Sizes of a group (group.go:120-130). -/
def groupSizes : List Item → Int × Int → Int × Int
  | [], mm => mm
  | x :: xs, (mn, mx) =>
    groupSizes xs (if mn > x.minLen then x.minLen else mn,
      if mx ≠ -1 ∧ (x.maxLen = -1 ∨ mx < x.maxLen) then x.maxLen else mx)

/-- End of `NewGroup` (group.go:117-131). -/
def groupOf (items : List Item) : Option Item :=
  match items with
  | [] => none
  | x :: xs =>
    let mm := groupSizes xs (x.minLen, x.maxLen)
    some (.group items mm.1 mm.2)

/-- `idx := strings.Index(s, close)`, then `next = s[idx+1:]`, `s = s[:idx+1]`
(wildcard.go:19-23, 46-50): the segment and the rest. -/
def cutAfter (s : Str) (close : UInt8) : R (Str × Str) :=
  match strIndex s [close] with
  | none => .ok (s, [])
  | some idx => do
    let next ← sliceFrom s (idx + 1)
    let s ← sliceTo s (idx + 1)
    .ok (s, next)

/-- The class item built from a parsed class (wildcard.go:28-44). -/
def classItem (runes : RunesRanges) : Option Item :=
  let nc := runes.ascii.count
  if nc.1 = 0 ∧ runes.ranges.length = 0 then none
  else if runes.ranges.length = 0 ∧ nc.1 = 1 then some (.byte nc.2)
  else match runes.ranges with
    | [r] => if nc.1 = 0 ∧ r.first = r.last then some (.rune r.first) else some (.ranges runes)
    | _ => some (.ranges runes)

/-- Loop of wildcard.go:59-64: the rest from the first rune that is no star. -/
def skipStars (s : Str) : R Str :=
  match (rangeStr s).find? (fun p => p.2 ≠ 42) with
  | some (i, _) => sliceFrom s i
  | none => .ok []

mutual
/-- `NextWildcardItem` (wildcard.go:12-88): item (`none` for nil) and the rest. -/
def nextItem : Nat → Str → R (Except GErr (Option Item × Str))
  | 0, _ => .timeout
  | _ + 1, [] => .ok (.error .eof)
  | fuel + 1, b :: t => do
    let s := b :: t
    if b = 91 then
      let (seg, next) ← cutAfter s 93
      match RunesRanges.expand seg with
      | none => .ok (.error (.mismatch (b! "rune") seg))
      | some runes => .ok (.ok (classItem runes, next))
    else if b = 123 then
      let (seg, next) ← cutAfter s 125
      match listExpand seg with
      | none => .ok (.error (.mismatch (b! "list") seg))
      | some vals =>
        match listItem vals with
        | .inl r => do
          let item ← r
          .ok (.ok (item, next))
        | .inr _ => do
          let r ← newGroup fuel vals []
          match r with
          | .error e => .ok (.error e)
          | .ok item => .ok (.ok (item, next))
    else if b = 42 then
      let next ← skipStars s
      .ok (.ok (some (.star 0), next))
    else if b = 63 then
      .ok (.ok (some (.any 1), t))
    else if b = 93 || b = 125 then .ok (.error (.unclosed s))
    else match indexWildcard s with
      | none => .ok (.ok (some (.str s), []))
      | some n =>
        let v ← sliceTo s n
        let next ← sliceFrom s n
        .ok (.ok (some (literalItem v), next))

/-- `NewGroup` (group.go:85-132) with the list of items built so far; `none` is the nil
item. -/
def newGroup : Nat → List Str → List Item → R (Except GErr (Option Item))
  | 0, _, _ => .timeout
  | _ + 1, [], items => .ok (.ok (groupOf items))
  | fuel + 1, v :: vs, items =>
    if hasWildcard v then
      if v = [42] then .ok (.ok (some (.star 0)))
      else if v = [63] then newGroup fuel vs (items ++ [.any 1])
      else do
        let r ← chainLoop fuel v {}
        match r with
        | .error e => .ok (.error e)
        | .ok c =>
          newGroup fuel vs (items ++ [match c.items with
            | [x] => x
            | _ => .chain c.items c.minSize c.maxSize])
    else newGroup fuel vs (items ++ [.str v])

/-- The loop of group.go:97-106. -/
def chainLoop : Nat → Str → ChainSt → R (Except GErr ChainSt)
  | 0, _, _ => .timeout
  | _ + 1, [], c => .ok (.ok c)
  | fuel + 1, b :: t, c => do
    let r ← nextItem fuel (b :: t)
    match r with
    | .error e => .ok (.error e)
    | .ok (none, v) => chainLoop fuel v c
    | .ok (some item, v) => chainLoop fuel v (c.append item)
end

/-- `Glob` (glob.go:10-22).  `vals` is the key set of the map `Vals`.  `String` returns `node` and
`Raw` returns `glob` (glob.go:35-41). -/
structure Glob where
  glob : Str
  node : Str := []
  minLen : Int := 0
  maxLen : Int := 0
  pref : Str := []
  suff : Str := []
  vals : List Str := []
  items : List Item := []

/-- `Parse`, body of the loop after `NextWildcardItem` (glob.go:133-231); state is
`(MinLen, MaxLen, Prefix, inners)`. -/
structure ParseSt where
  minLen : Int
  maxLen : Int
  pref : Str
  inners : List Item := []

/-- One item of the parser loop (glob.go:133-231). -/
def ParseSt.step (st : ParseSt) (inner : Item) : ParseSt :=
  let st := { st with
    minLen := st.minLen + inner.minLen, maxLen := addMaxLen st.maxLen inner.maxLen }
  if st.inners.length = 0 then
    match inner with
    | .str v => { st with pref := st.pref ++ v }
    | .rune c => { st with pref := st.pref ++ encodeRune c }
    | .byte c => { st with pref := st.pref ++ stringOfByte c }
    | _ => { st with inners := [inner] }
  else { st with inners := appendItem st.inners inner }

/-- Parser loop (glob.go:124-232).  The fuel also bounds `NextWildcardItem`. -/
def parseLoop : Nat → Str → ParseSt → R (Except GErr ParseSt)
  | 0, _, _ => .timeout
  | _ + 1, [], st => .ok (.ok st)
  | fuel + 1, b :: t, st => do
    let r ← nextItem fuel (b :: t)
    match r with
    | .error e => .ok (.error e)
    | .ok (none, rest) => parseLoop fuel rest st
    | .ok (some inner, rest) => parseLoop fuel rest (st.step inner)

/-- Move of a trailing literal into the suffix (glob.go:233-250): items and suffix. -/
def takeSuffix (inners : List Item) (suff : Str) : List Item × Str :=
  if inners.length > 1 then
    match inners.getLast? with
    | some (.str s) => (inners.dropLast, s ++ suff)
    | some (.rune r) => (inners.dropLast, encodeRune r ++ suff)
    | some (.byte b) => (inners.dropLast, stringOfByte b ++ suff)
    | _ => (inners, suff)
  else (inners, suff)

/-- End of `Parse` (glob.go:256-285). -/
def finishGlob (g : Glob) : Glob :=
  let g :=
    if g.items.length = 0 then { g with node := g.pref ++ g.suff, pref := [], suff := [] }
    else { g with node := g.pref ++ Item.writeItems g.items ++ g.suff }
  match g.items with
  | [.list l] =>
    if l.vals.length > 2 then
      { g with vals := (if l.minSize = 0 then [[]] else []) ++ l.vals }
    else g
  | _ => g

/-- Fuel that is enough for every string of length `n` (see `Proofs/Parse`). -/
def parseFuel (n : Nat) : Nat := 4 * n + 8

/-- `glob.Parse` (glob.go:82-289). -/
def parseGlob (glob : Str) : R (Except GErr Glob) :=
  match indexWildcard glob with
  | none => .ok (.ok { glob := glob, node := glob, minLen := glob.length, maxLen := glob.length })
  | some pos => do
    let pref ← sliceTo glob pos
    let body ← sliceFrom glob pos
    match indexLastWildcard body, body with
    | some end_, b0 :: _ =>
      if end_ = 0 ∧ b0 ≠ 63 ∧ b0 ≠ 42 then .ok (.error (.unclosed body))
      else do
        let (body, suff) ←
          (if (end_ : Int) < (body.length : Int) - 1 then do
            let suff ← sliceFrom body (end_ + 1)
            let body ← sliceTo body (end_ + 1)
            .ok (body, suff)
          else .ok (body, []))
        let g : Glob := { glob := glob, pref := pref, suff := suff,
                          minLen := pref.length + suff.length,
                          maxLen := pref.length + suff.length }
        if body = [42] then
          .ok (.ok (finishGlob { g with items := [.star 0], maxLen := -1 }))
        else if body = [63] then
          .ok (.ok (finishGlob { g with
            items := [.any 1], minLen := g.minLen + 1, maxLen := addMaxLen g.maxLen 4 }))
        else do
          let r ← parseLoop (parseFuel body.length) body
            { minLen := g.minLen, maxLen := g.maxLen, pref := g.pref }
          match r with
          | .error e => .ok (.error e)
          | .ok st =>
            let is := takeSuffix st.inners g.suff
            .ok (.ok (finishGlob { g with
              minLen := st.minLen, maxLen := st.maxLen, pref := st.pref
              items := is.1, suff := is.2 }))
    | _, _ => .panic

/-- Fuel that is enough for `MatchItems` (see `Proofs/MatchTerm`). -/
def Item.size : Item → Nat
  | .group vals _ _ => 1 + sizeL vals
  | .chain items _ _ => 1 + sizeL items
  | _ => 1
where
  sizeL : List Item → Nat
  | [] => 1
  | x :: xs => Item.size x + sizeL xs

/-- `MatchItems` (items.go:155-158). -/
def matchAll (s : Str) (items : List Item) : R Bool := do
  let (m, _) ← matchItems (2 * (s.length + Item.size.sizeL items) + 4) s items []
  .ok m

/-- `Glob.Match` (glob.go:43-80). -/
def Glob.matches (g : Glob) (s : Str) : R Bool :=
  if g.node = [42] then .ok true
  else if (s.length : Int) < g.minLen then .ok false
  else if g.maxLen > 0 ∧ (s.length : Int) > g.maxLen then .ok false
  else if g.items.length = 0 then .ok (g.node = s)
  else if g.pref ≠ [] ∧ !hasPrefix s g.pref then .ok false
  else
    let s := s.drop g.pref.length
    if g.suff ≠ [] ∧ !hasSuffix s g.suff then .ok false
    else
      let s := s.take (s.length - g.suff.length)
      if g.vals.length > 0 then .ok (g.vals.contains s)
      else matchAll s g.items

/-- `glob.ParseMust` (glob.go:291-297). -/
def parseMust (glob : Str) : R Glob := do
  match ← parseGlob glob with
  | .error _ => .panic
  | .ok g => .ok g

end GoMatcher
