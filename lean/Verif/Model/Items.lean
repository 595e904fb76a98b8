import Verif.Model.Wildcard
import Verif.Model.RunesRanges

/-! # Pattern items and the single-glob matcher (`pkg/items`) -/

namespace GoMatcher

/-- `StringList` (stringlist.go:89-97).  `IsOptional` (stringlist.go:166-168, group.go:81-83) is the
test `minSize = 0` and `Len` (stringlist.go:171-173) is the length of `vals`; both are written out
where they are called. -/
structure StringList where
  asciiStarted : Bool := false
  firstASCII : ASCIISet := {}
  vals : List Str
  minSize : Int
  maxSize : Int
  deriving DecidableEq, Repr

/-- The implementations of the `Item` interface: `*String` (string.go:7-9), `Byte`
(byte.go:8), `Rune` (rune.go:9), `Any` (any.go:10), `Star` (star.go:10),
`*RunesRanges` (items/runesranges.go:11-13), `*StringList`, `*Group` (group.go:9-13),
`*Chain` (chain.go:6-10).  `Any` and `Star` counts are never negative. -/
inductive Item where
  | str (s : Str)
  | byte (b : UInt8)
  | rune (r : Nat)
  | any (n : Nat)
  | star (n : Nat)
  | ranges (rs : RunesRanges)
  | list (l : StringList)
  | group (vals : List Item) (minSize maxSize : Int)
  | chain (items : List Item) (minSize maxSize : Int)
  deriving Repr

instance : Inhabited Item := ⟨.any 0⟩

/-- `FindFlag` (items.go:9-22). -/
inductive FindFlag where
  | notSupported | done | forwarded | list | star | group | chain
  deriving DecidableEq, Repr

/-- `strings.IndexRune(s, r)`: bytes below 0x80 by byte, U+FFFD by ranging over the
string, invalid runes never, others by their encoding. -/
def indexRune (s : Str) (r : Nat) : Option Nat :=
  if r < 0x80 then indexByte s (UInt8.ofNat r)
  else if r = runeError then
    ((rangeStr s).find? (fun p => p.2 = runeError)).map Prod.fst
  else if !validRune r then none
  else strIndex s (encodeRune r)

namespace Item

/-- `MinLen` of the items (string.go:61, byte.go:44, rune.go:45, any.go:38, star.go:40,
items/runesranges.go:53, stringlist.go:131, group.go:52, chain.go:52). -/
def minLen : Item → Int
  | str s => s.length
  | byte _ => 1
  | rune r => runeLen r
  | any n => n
  | star n => n
  | ranges rs => rs.minSize
  | list l => l.minSize
  | group _ mn _ => mn
  | chain _ mn _ => mn

/-- `MaxLen` of the items (string.go:65, byte.go:48, rune.go:49, any.go:42, star.go:44,
items/runesranges.go:57, stringlist.go:135, group.go:56, chain.go:56). -/
def maxLen : Item → Int
  | str s => s.length
  | byte _ => 1
  | rune r => runeLen r
  | any n => n * 4
  | star _ => -1
  | ranges rs => rs.maxSize
  | list l => l.maxSize
  | group _ _ mx => mx
  | chain _ _ mx => mx

/-- `Match` of the items (string.go:76-84, byte.go:60-72, rune.go:61-72, any.go:55-58,
star.go:54-58, items/runesranges.go:66-69, stringlist.go:155-158, group.go:65-68,
chain.go:69-73): offset (`none` for -1) and flag. -/
def matchAt (it : Item) (s : Str) : Option Nat × FindFlag :=
  match it with
  | str w => (if hasPrefix s w then some w.length else none, .done)
  | byte b =>
    (match s with
      | [] => none
      | c :: _ => if b = c then some 1 else none, .done)
  | rune r =>
    let d := decodeRune s
    (if d.1 ≠ runeError then (if d.1 = r then some d.2 else none) else none, .done)
  | any n => (skipRunes s n, .done)
  | star n => (skipRunes s n, .star)
  | ranges rs => ((rs.startsWith s).map Prod.snd, .done)
  | list _ => (some 0, .list)
  | group _ _ _ => (some 0, .group)
  | chain _ _ _ => (some 0, .notSupported)

/-- `Find` of the items (string.go:69-74, byte.go:52-58, rune.go:53-59, any.go:46-53,
star.go:48-52, items/runesranges.go:61-64, stringlist.go:150-153, group.go:60-63,
chain.go:60-67): index (`none` for -1) with length, and flag.  An empty chain
panics on `c.Items[0]`. -/
def find (it : Item) (s : Str) : R (Option (Nat × Int) × FindFlag) :=
  match it with
  | str w => .ok ((strIndex s w).map (fun i => (i, (w.length : Int))), .done)
  | byte b => .ok ((indexByte s b).map (fun i => (i, 1)), .done)
  | rune r => .ok ((indexRune s r).map (fun i => (i, runeLen r)), .done)
  | any n => .ok ((skipRunes s n).map (fun l : Nat => (0, (l : Int))), .forwarded)
  | star n =>
    .ok (some (0, match skipRunes s n with
      | some l => (l : Int)
      | none => -1), .star)
  | ranges rs => .ok ((rs.index s).map (fun p => (p.1, (p.2.2 : Int))), .done)
  | list _ => .ok (some (0, 0), .list)
  | group _ _ _ => .ok (some (0, 0), .group)
  | chain [] _ _ => .panic
  | chain (x :: _) _ _ =>
    match find x s with
    | .ok (none, f) => .ok (none, f)
    | .ok (some p, _) => .ok (some p, .chain)
    | .panic => .panic
    | .timeout => .timeout

end Item

/-- `nextItemsTree` (items.go:135-138): the chain of pending item slices; `[]` is the
nil pointer. -/
abbrev NextItems := List (List Item)

/-- `nextItems == nil || nextItems.IsEmpty()` (items.go:140-142). -/
def NextItems.isEmpty (t : NextItems) : Bool := t.all (·.isEmpty)

/-- `nextItemsTree.Next` (items.go:144-152).  Only called on non-empty chains. -/
def NextItems.next : NextItems → List Item × NextItems
  | [] => ([], [])
  | l :: t =>
    if l.length > 0 then (l, t)
    else match t with
      | [] => ([], [])
      | l2 :: t2 => (l2, t2)

/-- `s[n:]` for an `int` length. -/
def sliceFromInt (s : Str) (n : Int) : R Str :=
  if 0 ≤ n ∧ n ≤ s.length then .ok (s.drop n.toNat) else .panic

/-- The matched flag of `matched, _ = f(..)`. -/
def fstR (x : R (Bool × Bool)) : R Bool :=
  match x with
  | .ok p => .ok p.1
  | .panic => .panic
  | .timeout => .timeout

/-- `if matched, _ = x; matched { return }` followed by `y`. -/
def orR (x y : R Bool) : R Bool :=
  match x with
  | .ok m => if m then .ok true else y
  | .panic => .panic
  | .timeout => .timeout

/-- `return` of `(matched, false)`. -/
def retR (x : R Bool) : R (Bool × Bool) :=
  match x with
  | .ok m => .ok (m, false)
  | .panic => .panic
  | .timeout => .timeout

/-- Type of `matchItems` and `matchStarItems`. -/
abbrev Matcher := Str → List Item → NextItems → R (Bool × Bool)

/-- What follows a list or group (items.go:199-213, 221-235, 245-259, 357-371, 392-406,
425-439): the end of the pattern, the pending items (matched by `F`) or the
remaining items (matched by `G`). -/
def contWith (F G : Matcher) (rest : List Item) (next : NextItems) (t : Str) : R Bool :=
  if rest.isEmpty then
    if next.isEmpty then .ok (decide (t = []))
    else fstR (F t next.next.1 next.next.2)
  else fstR (G t rest next)

/-- Try `k` after every value of the list that is a prefix of `s`
(items.go:216-236): stop at the first success. -/
def listLoop (s : Str) (k : Str → R Bool) : List Str → R Bool
  | [] => .ok false
  | v :: vs =>
    if hasPrefix s v then orR (k (s.drop v.length)) (listLoop s k vs)
    else listLoop s k vs

/-- Try `k` on every value (items.go:262-276, 442-456). -/
def groupLoop (k : Item → R Bool) : List Item → R Bool
  | [] => .ok false
  | v :: vs => orR (k v) (groupLoop k vs)

/-- `group.Vals[i]` as item slice: the items of a `*Chain`, or the single item
(items.go:267-275, 447-455). -/
def groupItems : Item → List Item
  | .chain items _ _ => items
  | it => [it]

/-- New value of `offset` in the list search (items.go:388-390). -/
def maxOff (off : Option Nat) (i : Nat) : Option Nat :=
  match off with
  | none => some i
  | some o => if o < i then some i else some o

/-- Loop "for i := 0; i < list.Len()" of the star search (items.go:383-407): result is
`(matched, offset)` where `offset` is the largest position found. -/
def starListInner (s : Str) (k : Str → R Bool) : List Str → Option Nat → R (Bool × Option Nat)
  | [], off => .ok (false, off)
  | v :: vs, off =>
    match strIndex s v with
    | none => starListInner s k vs off
    | some i =>
      match k (s.drop (i + v.length)) with
      | .ok m => if m then .ok (true, maxOff off i) else starListInner s k vs (maxOff off i)
      | .panic => .panic
      | .timeout => .timeout

/-- Loop of items.go:380-417. The fuel counts rounds. -/
def starListLoop (vals : List Str) (k : Str → R Bool) : Nat → Str → R Bool
  | 0, _ => .timeout
  | fuel + 1, s =>
    match starListInner s k vals none with
    | .ok (true, _) => .ok true
    | .ok (false, none) => .ok false
    | .ok (false, some o) =>
      let n := (decodeRune (s.drop o)).2
      if n < 1 then .ok false else starListLoop vals k fuel ((s.drop o).drop n)
    | .panic => .panic
    | .timeout => .timeout

/-- Loop of items.go:356-377: `k` at every suffix.  The case of items.go:359-362 (`matched
= true; break`) is also a success: the list search that follows then calls no
function that resets `matched`. -/
def starOptLoop (k : Str → R Bool) : Nat → Str → R Bool
  | 0, _ => .timeout
  | fuel + 1, s =>
    orR (k s)
      (let n := (decodeRune s).2
       if n < 1 then .ok false else starOptLoop k fuel (s.drop n))

/-- The switch of `matchItems` after a successful `Match` (items.go:190-297), where `s`
is already `s[offset:]`.  `M` and `S` are the recursive calls of `matchItems` and
`matchStarItems`. -/
def matchFlag (M S : Matcher) (it : Item) (flag : FindFlag) (s : Str) (rest : List Item)
    (next : NextItems) : R (Bool × Bool) :=
  match flag, it with
  | .done, _ => M s rest next
  | .list, .list l =>
    retR (orR (if l.minSize = 0 then contWith M M rest next s else .ok false)
      (listLoop s (contWith M M rest next) l.vals))
  | .group, .group vals mn _ =>
    retR (orR (if mn = 0 then contWith M M rest next s else .ok false)
      (groupLoop (fun v => fstR (M s (groupItems v) (rest :: next))) vals))
  | .star, _ =>
    if rest.isEmpty then
      if next.isEmpty then .ok (true, false)
      else S s next.next.1 next.next.2
    else S s rest next
  | _, _ => .panic

/-- One round of `matchItems` (items.go:173-297); `items` is `items[pos:]`, the next round
after `FindDone` is the call of `M`. -/
def matchStep (M S : Matcher) (s : Str) (items : List Item) (next : NextItems) :
    R (Bool × Bool) :=
  match items with
  | [] =>
    if next.isEmpty then .ok (decide (s = []), false)
    else retR (fstR (M s next.next.1 next.next.2))
  | it :: rest =>
    if (s.length : Int) < it.minLen then .ok (false, false)
    else match it.matchAt s with
      | (none, _) => .ok (false, false)
      | (some offset, flag) =>
        match sliceFrom s offset with
        | .ok s => matchFlag M S it flag s rest next
        | .panic => .panic
        | .timeout => .timeout

/-- `matchStarItems` up to its loop (items.go:308-322). -/
def starStep (S L : Matcher) (s : Str) (items : List Item) (next : NextItems) :
    R (Bool × Bool) :=
  match items with
  | [] =>
    if next.isEmpty then .ok (decide (s = []), true)
    else S s next.next.1 next.next.2
  | _ :: _ => L s items next

/-- Skip one rune and go on with `items` (items.go:481-484). -/
def againStep (L : Matcher) (s : Str) (items : List Item) (next : NextItems) :
    R (Bool × Bool) :=
  let n := (decodeRune s).2
  if n < 1 then .ok (false, false) else L (s.drop n) items next

/-- The switch of the loop of `matchStarItems` after a successful `Find`
(items.go:345-479) with the end of the loop body; `s` is already `s[offset:]`. -/
def loopFlag (M S L : Matcher) (it : Item) (flag : FindFlag) (length : Int) (s : Str)
    (rest : List Item) (next : NextItems) : R (Bool × Bool) :=
  match flag, it with
  | .done, _ =>
    match sliceFromInt s length with
    | .ok sub =>
      match M sub rest next with
      | .ok (m, ab) => if m || ab then .ok (m, ab) else againStep L s (it :: rest) next
      | .panic => .panic
      | .timeout => .timeout
    | .panic => .panic
    | .timeout => .timeout
  | .list, .list l =>
    retR (orR
      (if l.minSize = 0 then starOptLoop (contWith M S rest next) (s.length + 1) s
        else .ok false)
      (starListLoop l.vals (contWith M M rest next) (s.length + 1) s))
  | .group, .group vals mn _ =>
    retR (orR (if mn = 0 then contWith S S rest next s else .ok false)
      (groupLoop (fun v => fstR (S s (groupItems v) (rest :: next))) vals))
  | .star, _ =>
    if rest.isEmpty then
      if next.isEmpty then .ok (true, false)
      else
        match fstR (S s next.next.1 next.next.2) with
        | .ok m => if m then .ok (true, false) else againStep L s rest next
        | .panic => .panic
        | .timeout => .timeout
    else againStep L s rest next
  | _, _ => .panic

/-- One round of the loop of `matchStarItems` (items.go:323-485).  `abortGready` is
false whenever the loop is entered again, so it is no part of the state. -/
def loopStep (M S L : Matcher) (s : Str) (items : List Item) (next : NextItems) :
    R (Bool × Bool) :=
  match items with
  | [] =>
    if next.isEmpty then .ok (decide (s = []), false)
    else retR (fstR (M s next.next.1 next.next.2))
  | it :: rest =>
    if (s.length : Int) < it.minLen then .ok (false, true)
    else match it.find s with
      | .ok (none, _) => .ok (false, true)
      | .ok (some (offset, length), flag) =>
        match sliceFrom s offset with
        | .ok s => loopFlag M S L it flag length s rest next
        | .panic => .panic
        | .timeout => .timeout
      | .panic => .panic
      | .timeout => .timeout

mutual
/-- `matchItems` (items.go:167-299): `(matched, abortGready)`.  The fuel bounds the
recursion depth, counting loop rounds as recursion. -/
def matchItems : Nat → Str → List Item → NextItems → R (Bool × Bool)
  | 0, _, _, _ => .timeout
  | fuel + 1, s, items, next => matchStep (matchItems fuel) (matchStarItems fuel) s items next

/-- `matchStarItems` (items.go:308-487). -/
def matchStarItems : Nat → Str → List Item → NextItems → R (Bool × Bool)
  | 0, _, _, _ => .timeout
  | fuel + 1, s, items, next => starStep (matchStarItems fuel) (starLoop fuel) s items next

/-- The loop of `matchStarItems` (items.go:323-486). -/
def starLoop : Nat → Str → List Item → NextItems → R (Bool × Bool)
  | 0, _, _, _ => .timeout
  | fuel + 1, s, items, next =>
    loopStep (matchItems fuel) (matchStarItems fuel) (starLoop fuel) s items next
end

end GoMatcher
