import Verif.Model.RunesRanges
import Verif.Model.Wildcard

/-! # Model of the package `expand`

Two limits of the machine are part of the model, because the code runs into them: the product
of the counters wraps at 64 bits, and `make([]string, 0, count)` panics when the count is
negative or asks for more than 2^48 bytes (linux/amd64).  Memory is otherwise unlimited. -/

namespace GoMatcher

/-- `expTyp` (expression.go:11-18). -/
inductive ExpTyp where
  | str | wild | list | runes
  deriving DecidableEq, Repr

/-- `runes` (runes.go:10-14); `pos = none` is the Go value `-1`. -/
structure XRunes where
  start : Nat
  stop : Nat
  pos : Option Nat
  deriving DecidableEq, Repr

/-- `runes.count` (runes.go:118-120). -/
def XRunes.count (r : XRunes) : Int := (r.stop : Int) - r.start + 1

/-- `runes.reset` (runes.go:122-124). -/
def XRunes.reset (r : XRunes) : XRunes := { r with pos := some r.start }

/-- `runes.next` (runes.go:126-138): the rune and the changed iterator. -/
def XRunes.next (r : XRunes) : Nat × XRunes :=
  match r.pos with
  | none => (runeError, r)
  | some c => if c > r.stop then (runeError, { r with pos := none }) else (c, { r with pos := some (c + 1) })

/-- `Expression` (expression.go:40-46); `pos = none` is the Go value `-1`. -/
structure XExpr where
  typ : ExpTyp := .str
  body : Str := []
  list : List Str := []
  runes : List XRunes := []
  pos : Option Nat := some 0
  deriving DecidableEq, Repr

/-- The sum in `Expression.count` (expression.go:56-58). -/
def runesCount : List XRunes → Int
  | [] => 0
  | r :: rs => r.count + runesCount rs

/-- `Expression.count` (expression.go:48-63). -/
def XExpr.count (e : XExpr) : Int :=
  match e.typ with
  | .str | .wild => 1
  | .list => e.list.length
  | .runes => runesCount e.runes

/-- `Expression.minLen` (expression.go:65-80); an index out of range panics. -/
def XExpr.minLen (e : XExpr) : R Int :=
  match e.typ with
  | .str => .ok e.body.length
  | .wild => .ok (-1)
  | .list =>
    match e.list with
    | [] => .panic
    | s :: _ => .ok s.length
  | .runes =>
    match e.runes with
    | [] => .panic
    | r :: _ => .ok (runeLen r.start)

/-- `Expression.reset` (expression.go:82-87). -/
def XExpr.reset (e : XExpr) : XExpr := { e with pos := some 0, runes := e.runes.map XRunes.reset }

/-- The loop of `Expression.appendNext` for classes (expression.go:105-117): the rune, or `none`
for `io.EOF`.  `fuel` bounds the number of rounds. -/
def runesNext : Nat → XExpr → R (XExpr × Option Nat)
  | 0, _ => .timeout
  | fuel + 1, e =>
    match e.pos with
    | none => .panic
    | some p =>
      match e.runes[p]? with
      | none => .panic
      | some r =>
        let c := r.next.1
        let e := { e with runes := e.runes.set p r.next.2 }
        if c = runeError then
          if p + 1 < e.runes.length then
            match e.runes[p + 1]? with
            | none => .panic
            | some q => runesNext fuel { e with pos := some (p + 1), runes := e.runes.set (p + 1) q.reset }
          else .ok (e, none)
        else .ok (e, some c)

/-- `Expression.appendNext` (expression.go:89-122): the changed expression, and the extended
buffer or `none` for `io.EOF`. -/
def XExpr.appendNext (e : XExpr) (out : Str) : R (XExpr × Option Str) :=
  match e.pos with
  | none => .ok (e, none)
  | some p =>
    match e.typ with
    | .str | .wild => .ok ({ e with pos := none }, some (out ++ e.body))
    | .list =>
      match e.list[p]? with
      | none => .panic
      | some s =>
        .ok ({ e with pos := if p + 1 < e.list.length then some (p + 1) else none }, some (out ++ s))
    | .runes => do
      let r ← runesNext (e.runes.length + 1) e
      match r.2 with
      | none => .ok (r.1, none)
      | some c => .ok (r.1, some (out ++ encodeRune c))

/-- The value of an `int` after an operation with exact result `x`. -/
def int64 (x : Int) : Int := Int.bmod x (2 ^ 64)

/-- What `expand` returns, with the changed expressions. -/
abbrev XOut := List Str × Str × List XExpr

/-- The loop of `expand` (expand.go:145-163) for the expression `e`; `next` is the recursive call
for the expressions `es` behind it.  `fuel` bounds the number of rounds. -/
def expandLoop (next : List XExpr → List Str → Str → R XOut) (try_ : Bool) (cur : Nat) :
    Nat → XExpr → List XExpr → List Str → Str → R (List Str × Str × XExpr × List XExpr)
  | 0, _, _, _, _ => .timeout
  | fuel + 1, e, es, result, buf => do
    let a ← e.appendNext buf
    match a.2 with
    | none => .ok (result, buf, a.1.reset, es)
    | some buf => do
      let o ← next es result buf
      let buf ← sliceTo o.2.1 cur
      if try_ then .ok (o.1, buf, a.1, o.2.2)
      else expandLoop next try_ cur fuel a.1 o.2.2 o.1 buf

/-- Number of code points in the ranges. -/
def runesSize : List XRunes → Nat
  | [] => 0
  | r :: rs => (r.stop + 1 - r.start) + runesSize rs

/-- A bound for the rounds of the loop. -/
def XExpr.rounds (e : XExpr) : Nat := e.list.length + runesSize e.runes + 2

/-- `strings.Count(s, ".")`. -/
def dots (s : Str) : Nat := s.countP (· = 46)

/-- `count` after the multiplication in `expand` (expand.go:119-123). -/
def nextCount (e : XExpr) (count max : Int) : Int :=
  if max > 0 then int64 ((if count ≤ 0 then 1 else count) * e.count) else count

/-- `depth` after the subtraction in `expand` (expand.go:128-131). -/
def nextDepth (e : XExpr) (depth : Int) : Int :=
  if depth > 0 ∧ (e.typ = .str ∨ e.typ = .wild) then depth - dots e.body else depth

/-- `max` after the tests in `expand` (expand.go:119-136). -/
def nextMax (e : XExpr) (count max depth : Int) : Int :=
  let m := if max > 0 ∧ max < nextCount e count max then 0 else max
  if depth > 0 ∧ (e.typ = .str ∨ e.typ = .wild) ∧ nextDepth e depth ≤ 1 then 0 else m

/-- `expand` (expand.go:109-167); the first argument is the number of expressions. -/
def expandAll : Nat → List XExpr → List Str → Int → Int → Int → Bool → Str → R XOut
  | _, [], result, _, _, _, _, buf => .ok (result ++ [buf], buf, [])
  | 0, _ :: _, _, _, _, _, _, _ => .timeout
  | n + 1, e :: es, result, count, max, depth, try_, buf =>
    let c := nextCount e count max
    let m := nextMax e count max depth
    let d := nextDepth e depth
    if m = 0 then do
      let o ← expandAll n es result c m d try_ (buf ++ e.body)
      .ok (o.1, o.2.1, e :: o.2.2)
    else do
      let o ← expandLoop (fun es result buf => expandAll n es result c m d try_ buf) try_ buf.length
        e.rounds e es result buf
      .ok (o.1, o.2.1, o.2.2.1 :: o.2.2.2)

/-- The product for the capacity (expand.go:88-94). -/
def capCount (c : Int) : List XExpr → Int
  | [] => c
  | e :: es =>
    let c := int64 (c * e.count)
    if e.typ = .wild then c else capCount c es

/-- `make([]string, 0, n)`: whether the runtime accepts the capacity. -/
def capOk (n : Int) : Bool := 0 ≤ n ∧ n * 16 ≤ 2 ^ 48

/-- `Expressions.Expand` (expand.go:83-107): the result and the expressions afterwards. -/
def expressionsExpand (exps : List XExpr) (max depth : Int) (try_ : Bool) : R (List Str × List XExpr) :=
  match exps with
  | [e] =>
    if e.typ = .str then .ok ([e.body], exps)
    else if !capOk (capCount 1 exps) then .panic
    else do
      let o ← expandAll exps.length exps [] 0 max (if depth > 0 then depth + 1 else depth) try_ []
      .ok (o.1, o.2.2)
  | _ =>
    if !capOk (capCount 1 exps) then .panic
    else do
      let o ← expandAll exps.length exps [] 0 max (if depth > 0 then depth + 1 else depth) try_ []
      .ok (o.1, o.2.2)

/-- The loop of `getPair` (expand.go:39-72) at position `i`; `start` holds the position and the
byte of the opening bracket.  The Go loop decodes runes; all runes compared with are ASCII,
and ASCII bytes are never part of another rune, so looking at bytes is the same. -/
def pairLoop : Nat → Option (Nat × UInt8) → Str → Option Nat × Option Nat
  | _, start, [] => (start.map Prod.fst, none)
  | i, start, c :: t =>
    if c = 42 ∨ c = 63 then
      match start with
      | none => (some i, none)
      | some (p, _) => (some p, none)
    else if c = 123 ∨ c = 91 then
      match start with
      | none => pairLoop (i + 1) (some (i, c)) t
      | some (p, _) => (some p, none)
    else if c = 125 then
      match start with
      | none => (some i, none)
      | some (p, b) => if b = 91 then (some p, none) else (some p, some i)
    else if c = 93 then
      match start with
      | none => (some i, none)
      | some (p, b) => if b = 123 then (some p, none) else (some p, some i)
    else pairLoop (i + 1) start t

/-- `getPair` (expand.go:36-75); `none` is the Go value `-1`. -/
def getPair (s : Str) : Option Nat × Option Nat := pairLoop 0 none s

/-- The loop of `runesRangeExpand` (runes.go:71-104) over the runes; `none` is `ok = false`. -/
def xRunesLoop (rs : List RuneRange) (start : Nat) (isRange : Bool) :
    List Nat → Option (List RuneRange)
  | [] => some (if start ≠ runeError then rs ++ [RuneRange.mk start start] else rs)
  | c :: cs =>
    if c = 0x2D then xRunesLoop rs start true cs
    else if isRange then
      if start = runeError then xRunesLoop rs c false cs
      else if start ≤ c then
        if runeLen start ≠ runeLen c then none
        else xRunesLoop (rs ++ [RuneRange.mk start c]) runeError false cs
      else none
    else xRunesLoop (if start ≠ runeError then rs ++ [RuneRange.mk start start] else rs) c false cs

/-- `runesRangeExpand` (runes.go:66-116).  `runesRangeMerge` (runes.go:16-55) is, word for word, the
function of `pkg/utils` modelled by `runesRangeMerge`. -/
def xRunesExpand (s : Str) : Option (List XRunes) :=
  if s = [] then none
  else match xRunesLoop [] runeError false ((rangeStr s).map Prod.snd) with
    | none => none
    | some rs => some ((runesRangeMerge rs).map fun r => XRunes.mk r.first r.last (some r.first))

/-- `getExpression` (expression.go:125-159).  It is called with a text of at least two bytes. -/
def getExpression (orig : Str) : XExpr :=
  let s := (orig.drop 1).dropLast
  if s = [] then { body := s }
  else if orig.head? = some 123 then
    if s.contains 44 then { typ := .list, body := orig, list := splitByte s 44 }
    else { body := s }
  else if orig.head? = some 91 then
    if s.length = 1 then { body := s }
    else match xRunesExpand s with
      | none => { typ := .wild, body := s }
      | some rs =>
        if rs.length = 0 then { body := [] }
        else { typ := .runes, body := orig, runes := rs }
  else if (indexWildcard orig).isSome then { typ := .wild, body := orig }
  else { body := orig }

/-- `asciiSet.LastIndex(s) + 1` with the set `[]{}*?` (expand.go:14, 178, 191, 246). -/
def lastWildEnd (s : Str) : Nat :=
  match lastIndexP isWild s with
  | some i => i + 1
  | none => 0

/-- Adding an expression to the list (expand.go:226-234). -/
def pushExpr (exps : List XExpr) (e : XExpr) : List XExpr :=
  if e.typ = .str then
    match exps.getLast? with
    | some l =>
      if l.typ = .str then exps.dropLast ++ [{ l with body := l.body ++ e.body }]
      else if e.body ≠ [] then exps ++ [e] else exps
    | none => if e.body ≠ [] then exps ++ [e] else exps
  else exps ++ [e]

/-- The loop of `ParseExpr` (expand.go:210-241); the first argument bounds the rounds. -/
def xParseLoop : Nat → Str → List XExpr → R (List XExpr)
  | 0, _, _ => .timeout
  | n + 1, s, exps =>
    match getPair s with
    | (none, _) => .ok (exps ++ [{ body := s }])
    | (some start, none) =>
      .ok ((if start > 0 then exps ++ [{ body := s.take start }] else exps) ++
        [{ typ := .wild, body := s.drop start }])
    | (some start, some stop) =>
      let exps := if start > 0 then exps ++ [{ body := s.take start }] else exps
      let exps := pushExpr exps (getExpression ((s.take (stop + 1)).drop start))
      let s := s.drop (stop + 1)
      if s = [] then .ok exps else xParseLoop n s exps

/-- The end of `ParseExpr` (expand.go:243-251); the index `-1` panics. -/
def splitLast (exps : List XExpr) : R (List XExpr) :=
  match exps.getLast? with
  | none => .panic
  | some l =>
    if l.typ = .wild then
      let pos := lastWildEnd l.body
      if pos < l.body.length then
        .ok (exps.dropLast ++ [{ l with body := l.body.take pos }, { body := l.body.drop pos }])
      else .ok exps
    else .ok exps

/-- `ParseExpr` (expand.go:169-254). -/
def parseExpr (s : Str) : R (List XExpr) :=
  match getPair s with
  | (none, none) => .ok [{ body := s }]
  | (some 0, none) =>
    let pos := lastWildEnd s
    if pos < s.length then .ok [{ typ := .wild, body := s.take pos }, { body := s.drop pos }]
    else .ok [{ typ := .wild, body := s }]
  | (some (k + 1), none) =>
    let start := k + 1
    let pos := lastWildEnd s
    if pos < s.length then
      .ok [{ body := s.take start }, { typ := .wild, body := (s.take pos).drop start },
        { body := s.drop pos }]
    else .ok [{ body := s.take start }, { typ := .wild, body := s.drop start }]
  | (_, some _) => do
    let exps ← xParseLoop (s.length + 1) s []
    splitLast exps

/-- `Expand` (expand.go:20-24). -/
def expandGlob (s : Str) (max depth : Int) : R (List Str) := do
  let exps ← parseExpr s
  let o ← expressionsExpand exps max depth false
  .ok o.1

/-- `ExpandTry` (expand.go:29-33). -/
def expandTry (s : Str) (max depth : Int) : R (List Str) := do
  let exps ← parseExpr s
  let o ← expressionsExpand exps max depth true
  .ok o.1

end GoMatcher
