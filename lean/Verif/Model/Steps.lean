import Verif.Model.Glob

/-! # Steps of the single-glob matcher

Counts the rounds of `matchItems` (items.go:167-299), of `matchStarItems` and its loop (308-487), and
the values tried by the loops over lists and groups, along the run that `Verif.Model.Items`
describes.  Nothing of this is in the code: each definition follows the definition of `Items` named
beside it, uses its answers to see where the run goes on, and adds up.  Library calls
(`strings.Index`, `HasPrefix`, decoding) are part of the round that makes them. -/

namespace GoMatcher

/-- Steps of a `Matcher`. -/
abbrev Counter := Str → List Item → NextItems → Nat

/-- Steps of `orR x y` (items.go:190-297: return on success): the second part runs when the first one
answers no. -/
def stepsOr (x : R Bool) (a b : Nat) : Nat :=
  match x with
  | .ok false => a + b
  | _ => a

/-- Steps of `contWith` (items.go:199-213 and its copies). -/
def stepsCont (F G : Counter) (rest : List Item) (next : NextItems) (t : Str) : Nat :=
  if rest.isEmpty then
    if next.isEmpty then 0
    else F t next.next.1 next.next.2
  else G t rest next

/-- Steps of `listLoop` (items.go:216-236). -/
def stepsList (s : Str) (k : Str → R Bool) (c : Str → Nat) : List Str → Nat
  | [] => 0
  | v :: vs =>
    if hasPrefix s v then
      stepsOr (k (s.drop v.length)) (1 + c (s.drop v.length)) (stepsList s k c vs)
    else 1 + stepsList s k c vs

/-- Steps of `groupLoop` (items.go:262-276, 442-456). -/
def stepsGroup (k : Item → R Bool) (c : Item → Nat) : List Item → Nat
  | [] => 0
  | v :: vs => stepsOr (k v) (1 + c v) (stepsGroup k c vs)

/-- Steps of `starListInner` (items.go:383-407). -/
def stepsStarInner (s : Str) (k : Str → R Bool) (c : Str → Nat) : List Str → Nat
  | [] => 0
  | v :: vs =>
    match strIndex s v with
    | none => 1 + stepsStarInner s k c vs
    | some i =>
      stepsOr (k (s.drop (i + v.length))) (1 + c (s.drop (i + v.length)))
        (stepsStarInner s k c vs)

/-- Steps of `starListLoop` (items.go:380-417). -/
def stepsStarList (vals : List Str) (k : Str → R Bool) (c : Str → Nat) : Nat → Str → Nat
  | 0, _ => 0
  | fuel + 1, s =>
    1 + stepsStarInner s k c vals +
      match starListInner s k vals none with
      | .ok (false, some o) =>
        let n := (decodeRune (s.drop o)).2
        if n < 1 then 0 else stepsStarList vals k c fuel ((s.drop o).drop n)
      | _ => 0

/-- Steps of `starOptLoop` (items.go:356-377). -/
def stepsStarOpt (k : Str → R Bool) (c : Str → Nat) : Nat → Str → Nat
  | 0, _ => 0
  | fuel + 1, s =>
    stepsOr (k s) (1 + c s)
      (let n := (decodeRune s).2
       if n < 1 then 0 else stepsStarOpt k c fuel (s.drop n))

/-- Steps of `matchFlag` (items.go:190-297); `cM` and `cS` count the calls. -/
def stepsFlag (M : Matcher) (cM cS : Counter) (it : Item) (flag : FindFlag) (s : Str)
    (rest : List Item) (next : NextItems) : Nat :=
  match flag, it with
  | .done, _ => cM s rest next
  | .list, .list l =>
    stepsOr (if l.minSize = 0 then contWith M M rest next s else .ok false)
      (if l.minSize = 0 then stepsCont cM cM rest next s else 0)
      (stepsList s (contWith M M rest next) (stepsCont cM cM rest next) l.vals)
  | .group, .group vals mn _ =>
    stepsOr (if mn = 0 then contWith M M rest next s else .ok false)
      (if mn = 0 then stepsCont cM cM rest next s else 0)
      (stepsGroup (fun v => fstR (M s (groupItems v) (rest :: next)))
        (fun v => cM s (groupItems v) (rest :: next)) vals)
  | .star, _ =>
    if rest.isEmpty then
      if next.isEmpty then 0
      else cS s next.next.1 next.next.2
    else cS s rest next
  | _, _ => 0

/-- Steps of `matchStep` (items.go:173-297). -/
def stepsMatch (M : Matcher) (cM cS : Counter) (s : Str) (items : List Item) (next : NextItems) :
    Nat :=
  match items with
  | [] =>
    if next.isEmpty then 1
    else 1 + cM s next.next.1 next.next.2
  | it :: rest =>
    if (s.length : Int) < it.minLen then 1
    else match it.matchAt s with
      | (none, _) => 1
      | (some offset, flag) =>
        match sliceFrom s offset with
        | .ok s => 1 + stepsFlag M cM cS it flag s rest next
        | _ => 1

/-- Steps of `starStep` (items.go:308-322). -/
def stepsStar (cS cL : Counter) (s : Str) (items : List Item) (next : NextItems) : Nat :=
  match items with
  | [] =>
    if next.isEmpty then 1
    else 1 + cS s next.next.1 next.next.2
  | _ :: _ => 1 + cL s items next

/-- Steps of `againStep` (items.go:481-484). -/
def stepsAgain (cL : Counter) (s : Str) (items : List Item) (next : NextItems) : Nat :=
  let n := (decodeRune s).2
  if n < 1 then 0 else cL (s.drop n) items next

/-- Steps of `loopFlag` (items.go:345-479). -/
def stepsLoopFlag (M S : Matcher) (cM cS cL : Counter) (it : Item) (flag : FindFlag) (length : Int)
    (s : Str) (rest : List Item) (next : NextItems) : Nat :=
  match flag, it with
  | .done, _ =>
    match sliceFromInt s length with
    | .ok sub =>
      cM sub rest next +
        match M sub rest next with
        | .ok (m, ab) => if m || ab then 0 else stepsAgain cL s (it :: rest) next
        | _ => 0
    | _ => 0
  | .list, .list l =>
    stepsOr
      (if l.minSize = 0 then starOptLoop (contWith M S rest next) (s.length + 1) s
        else .ok false)
      (if l.minSize = 0 then
        stepsStarOpt (contWith M S rest next) (stepsCont cM cS rest next) (s.length + 1) s
        else 0)
      (stepsStarList l.vals (contWith M M rest next) (stepsCont cM cM rest next)
        (s.length + 1) s)
  | .group, .group vals mn _ =>
    stepsOr (if mn = 0 then contWith S S rest next s else .ok false)
      (if mn = 0 then stepsCont cS cS rest next s else 0)
      (stepsGroup (fun v => fstR (S s (groupItems v) (rest :: next)))
        (fun v => cS s (groupItems v) (rest :: next)) vals)
  | .star, _ =>
    if rest.isEmpty then
      if next.isEmpty then 0
      else
        cS s next.next.1 next.next.2 +
        match fstR (S s next.next.1 next.next.2) with
        | .ok m => if m then 0 else stepsAgain cL s rest next
        | _ => 0
    else stepsAgain cL s rest next
  | _, _ => 0

/-- Steps of `loopStep` (items.go:323-485). -/
def stepsLoop (M S : Matcher) (cM cS cL : Counter) (s : Str) (items : List Item)
    (next : NextItems) : Nat :=
  match items with
  | [] =>
    if next.isEmpty then 1
    else 1 + cM s next.next.1 next.next.2
  | it :: rest =>
    if (s.length : Int) < it.minLen then 1
    else match it.find s with
      | .ok (some (offset, length), flag) =>
        match sliceFrom s offset with
        | .ok s => 1 + stepsLoopFlag M S cM cS cL it flag length s rest next
        | _ => 1
      | _ => 1

mutual
/-- Steps of `matchItems` (items.go:167-299). -/
def stepsItems : Nat → Str → List Item → NextItems → Nat
  | 0, _, _, _ => 0
  | fuel + 1, s, items, next =>
    stepsMatch (matchItems fuel) (stepsItems fuel) (stepsStarItems fuel) s items next

/-- Steps of `matchStarItems` (items.go:308-487). -/
def stepsStarItems : Nat → Str → List Item → NextItems → Nat
  | 0, _, _, _ => 0
  | fuel + 1, s, items, next => stepsStar (stepsStarItems fuel) (stepsStarLoop fuel) s items next

/-- Steps of the loop of `matchStarItems` (items.go:323-486). -/
def stepsStarLoop : Nat → Str → List Item → NextItems → Nat
  | 0, _, _, _ => 0
  | fuel + 1, s, items, next =>
    stepsLoop (matchItems fuel) (matchStarItems fuel) (stepsItems fuel) (stepsStarItems fuel)
      (stepsStarLoop fuel) s items next
end

/-- Steps of `Glob.Match` (glob.go:43-80): none unless the tests before `MatchItems` pass. -/
def Glob.matchSteps (g : Glob) (s : Str) : Nat :=
  if g.node = [42] then 0
  else if (s.length : Int) < g.minLen then 0
  else if g.maxLen > 0 ∧ (s.length : Int) > g.maxLen then 0
  else if g.items.length = 0 then 0
  else if g.pref ≠ [] ∧ !hasPrefix s g.pref then 0
  else
    let s := s.drop g.pref.length
    if g.suff ≠ [] ∧ !hasSuffix s g.suff then 0
    else
      let s := s.take (s.length - g.suff.length)
      if g.vals.length > 0 then 0
      else stepsItems (2 * (s.length + Item.size.sizeL g.items) + 4) s g.items []

end GoMatcher
