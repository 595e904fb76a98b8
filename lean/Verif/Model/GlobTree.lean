import Verif.Model.GGlob

/-! # Model of the batch glob matcher (`pkg/items/tree.go`, `pkg/items/store.go`, `glob/tree.go`) -/

namespace GoMatcher

/-- `TreeItem` (store.go:110-119): item, `Reverse`, `Terminated` (store.go:104-108; query and
index when `Terminate` is set) and `Childs`. -/
inductive Tree where
  | node (item : Item) (rev : Bool) (term : Option (Str × Int)) (childs : List Tree)

namespace Tree

def item : Tree → Item
  | .node i _ _ _ => i

def rev : Tree → Bool
  | .node _ r _ _ => r

def term : Tree → Option (Str × Int)
  | .node _ _ t _ => t

def childs : Tree → List Tree
  | .node _ _ _ cs => cs

end Tree

/-- What a search does: the calls of `store.Store` and the counter `matched`. -/
abbrev Ev := Events × Nat

/-- Nothing stored. -/
def noEv : R Ev := .ok ([], 0)

/-- `if c { .. }`. -/
def whenEv (c : Prop) [Decidable c] (a : R Ev) : R Ev := if c then a else noEv

/-- A loop over the children: `for .. { if n, _ := k(child); n > 0 { matched += n } }`. -/
def forChilds (k : Tree → R Ev) : List Tree → R Ev
  | [] => noEv
  | c :: cs => addR (k c) (forChilds k cs)

/-- A loop over the values of a group (tree.go:142-152, 293-303, 425-435, 568-578). -/
def groupEv (k : Item → R Ev) : List Item → R Ev
  | [] => noEv
  | v :: vs => addR (k v) (groupEv k vs)

/-- A loop over the values of a list that are prefixes of `s` (tree.go:110-125, 394-407). -/
def listEv (s : Str) (k : Str → R Ev) : List Str → R Ev
  | [] => noEv
  | v :: vs =>
    if hasPrefix s v then addR (k (s.drop v.length)) (listEv s k vs) else listEv s k vs

/-- The loop of tree.go:394-407 when it returns at the first value found (tree.go:399-403). -/
def firstEv (s : Str) (k : Str → R Ev) : List Str → R Ev
  | [] => noEv
  | v :: vs => if hasPrefix s v then k (s.drop v.length) else firstEv s k vs

/-- Inner loop of the list search (tree.go:237-257, 525-541): what is stored and the largest
offset. -/
def starListInnerEv (s : Str) (k : Str → R Ev) : List Str → Option Nat → R (Ev × Option Nat)
  | [], off => .ok (([], 0), off)
  | v :: vs, off =>
    match strIndex s v with
    | none => starListInnerEv s k vs off
    | some i => do
      let a ← k (s.drop (i + v.length))
      let b ← starListInnerEv s k vs (maxOff off i)
      .ok (addEv a b.1, b.2)

/-- The list search (tree.go:234-266, 522-551): what is stored and the final value of `s`.  The
fuel counts rounds. -/
def starListEv (vals : List Str) (k : Str → R Ev) : Nat → Str → R (Ev × Str)
  | 0, _ => .timeout
  | fuel + 1, s => do
    let a ← starListInnerEv s k vals none
    match a.2 with
    | none => .ok (a.1, s)
    | some o =>
      let s := s.drop o
      let n := (decodeRune s).2
      if n < 1 then .ok (a.1, s)
      else do
        let b ← starListEv vals k fuel (s.drop n)
        .ok (addEv a.1 b.1, b.2)

/-- Skip one rune and go on (tree.go:327-330, 599-602). -/
def againEv (k : Str → R Ev) (s : Str) : R Ev :=
  let n := (decodeRune s).2
  if n < 1 then noEv else k (s.drop n)

/-- Type of `match` and `matchStar`. -/
abbrev TMatcher := Tree → Str → R Ev

/-- Type of `matchItemsInTree` and `matchStarItemsInTree`. -/
abbrev IMatcher := Tree → Str → List Item → R Ev

/-- `matchNextTreeItem` (tree.go:335-346), also tree.go:81-89, 99-107, 116-124, 131-139,
246-256; `M` is `match`. -/
def Tree.next (M : TMatcher) (t : Tree) (s : Str) : R Ev :=
  addR (whenEv (s = []) (.ok (storeFin t.term))) (forChilds (fun c => M c s) t.childs)

/-- `matchStarNextTreeItem` (tree.go:457-468), also tree.go:222-231, 281-290; `S` is
`matchStar`. -/
def Tree.starNext (S : TMatcher) (t : Tree) (s : Str) : R Ev :=
  addR (.ok (storeFin t.term)) (forChilds (fun c => S c s) t.childs)

/-- The switch of `match` (tree.go:79-173); `s` is already `s[offset:]`. -/
def Tree.matchFlag (M S : TMatcher) (I : IMatcher) (t : Tree) (flag : FindFlag) (s : Str) : R Ev :=
  match flag, t.item with
  | .done, _ => t.next M s
  | .list, .list l => addR (whenEv (l.minSize = 0) (t.next M s)) (listEv s (t.next M) l.vals)
  | .group, .group vals mn _ =>
    addR (whenEv (mn = 0) (t.next M s)) (groupEv (fun v => I t s (groupItems v)) vals)
  | .star, _ =>
    if t.childs.length = 0 then .ok (storeFin t.term) else forChilds (fun c => S c s) t.childs
  | _, _ => .panic

/-- `match` (tree.go:70-175). -/
def Tree.matchStep (M S : TMatcher) (I : IMatcher) (t : Tree) (s : Str) : R Ev :=
  if (s.length : Int) < t.item.minLen then noEv
  else match t.item.matchAt s with
    | (none, _) => noEv
    | (some offset, flag) => do
      let s ← sliceFrom s offset
      t.matchFlag M S I flag s

/-- The switch of the loop of `matchStar` (tree.go:203-325) with the end of the loop body
(tree.go:327-330); `s` is already `s[offset:]`, `opt` is `optional`, and `L` is the loop with the
new value of `optional`.  At tree.go:267-270 the outer `offset` is 0. -/
def Tree.starFlag (M S : TMatcher) (J : IMatcher) (L : Bool → TMatcher) (t : Tree)
    (flag : FindFlag) (length : Int) (s : Str) (opt : Bool) : R Ev :=
  match flag, t.item with
  | .done, _ => do
    let sub ← sliceFromInt s length
    addR
      (if sub = [] ∧ t.childs.length = 0 ∧ t.term.isSome then .ok (storeFin t.term)
        else forChilds (fun c => M c sub) t.childs)
      (againEv (L opt t) s)
  | .list, .list l =>
    let again := if l.minSize = 0 ∧ opt = true then false else opt
    addR (whenEv (l.minSize = 0 ∧ opt = true) (t.starNext S s)) (do
      let r ← starListEv l.vals (t.next M) (s.length + 1) s
      addR (.ok r.1) (againEv (againEv (L again t)) r.2))
  | .group, .group vals mn _ =>
    addR (whenEv (mn = 0) (t.starNext S s)) (groupEv (fun v => J t s (groupItems v)) vals)
  | .star, _ =>
    if t.childs.length = 0 ∧ t.term.isSome then .ok (storeFin t.term)
    else forChilds (fun c => S c s) t.childs
  | _, _ => .panic

/-- One round of the loop of `matchStar` (tree.go:191-331). -/
def Tree.starStep (M S : TMatcher) (J : IMatcher) (L : Bool → TMatcher) (opt : Bool) (t : Tree)
    (s : Str) : R Ev :=
  if (s.length : Int) < t.item.minLen then noEv
  else do
    match ← t.item.find s with
    | (none, _) => noEv
    | (some (offset, length), flag) => do
      let s ← sliceFrom s offset
      t.starFlag M S J L flag length s opt

/-- The switch of `matchItemsInTree` (tree.go:375-453); `s` is already `s[offset:]`, and `rest` is
`items[pos+1:]`.  The next round is a call of `I`.  In the case of a star the loop goes on with
the same position (tree.go:442 declares a new `pos`). -/
def Tree.itemsFlag (M S : TMatcher) (I J : IMatcher) (t : Tree) (it : Item) (flag : FindFlag)
    (s : Str) (rest : List Item) : R Ev :=
  match flag, it with
  | .done, _ => I t s rest
  | .list, .list l =>
    if l.minSize = 0 ∧ rest = [] then t.next M s
    else
      addR (whenEv (l.minSize = 0) (I t s rest))
        (if rest = [] then firstEv s (t.next M) l.vals
          else listEv s (fun u => I t u rest) l.vals)
  | .group, .group vals mn _ =>
    if mn = 0 ∧ rest = [] then t.next M s
    else
      addR (whenEv (mn = 0) (I t s rest)) (groupEv (fun v => I t s (groupItems v)) vals)
  | .star, _ =>
    if rest = [] then t.starNext S s else addR (J t s rest) (I t s (it :: rest))
  | _, _ => .panic

/-- One round of `matchItemsInTree` (tree.go:361-454); `items` is `items[pos:]`. -/
def Tree.itemsStep (M S : TMatcher) (I J : IMatcher) (t : Tree) (s : Str) (items : List Item) :
    R Ev :=
  match items with
  | [] => t.next M s
  | it :: rest =>
    if (s.length : Int) < it.minLen then noEv
    else match it.matchAt s with
      | (none, _) => noEv
      | (some offset, flag) => do
        let s ← sliceFrom s offset
        t.itemsFlag M S I J it flag s rest

/-- The switch of the loop of `matchStarItemsInTree` (tree.go:502-597) with the end of the loop
body (tree.go:599-602); `s` is already `s[offset:]`, `rest` is `items[1:]`. -/
def Tree.starItemsFlag (M S : TMatcher) (I J : IMatcher) (t : Tree) (it : Item) (flag : FindFlag)
    (length : Int) (s : Str) (rest : List Item) : R Ev :=
  match flag, it with
  | .done, _ => do
    let sub ← sliceFromInt s length
    addR (I t sub rest) (againEv (fun u => J t u (it :: rest)) s)
  | .list, .list l =>
    addR (whenEv (l.minSize = 0) (if rest = [] then t.starNext S s else J t s rest)) (do
      let r ← starListEv l.vals (fun u => if rest = [] then t.next M u else I t u rest)
        (s.length + 1) s
      .ok r.1)
  | .group, .group vals mn _ =>
    addR (whenEv (mn = 0) (if rest = [] then t.next M s else J t s rest))
      (groupEv (fun v => J t s (groupItems v)) vals)
  | .star, _ => if rest = [] then t.starNext S s else J t s rest
  | _, _ => .panic

/-- `matchStarItemsInTree` (tree.go:477-605).  The items do not change in the loop, so the test for
no items (tree.go:483-488) may be made in every round. -/
def Tree.starItemsStep (M S : TMatcher) (I J : IMatcher) (t : Tree) (s : Str)
    (items : List Item) : R Ev :=
  match items with
  | [] => t.starNext S s
  | it :: rest =>
    if (s.length : Int) < it.minLen then noEv
    else do
      match ← it.find s with
      | (none, _) => noEv
      | (some (offset, length), flag) => do
        let s ← sliceFrom s offset
        t.starItemsFlag M S I J it flag length s rest

mutual
/-- `TreeItem.match` (tree.go:70-175).  In the four functions the fuel bounds the depth of the
recursion, counting loop rounds as recursion. -/
def Tree.matchT : Nat → Tree → Str → R Ev
  | 0, _, _ => .timeout
  | fuel + 1, t, s =>
    t.matchStep (Tree.matchT fuel) (Tree.starT fuel true) (Tree.itemsT fuel) s
/-- The loop of `TreeItem.matchStar` (tree.go:184-333) with its variable `optional`, which is
true at first. -/
def Tree.starT : Nat → Bool → Tree → Str → R Ev
  | 0, _, _, _ => .timeout
  | fuel + 1, opt, t, s =>
    t.starStep (Tree.matchT fuel) (Tree.starT fuel true) (Tree.starItemsT fuel)
      (Tree.starT fuel) opt s
/-- `TreeItem.matchItemsInTree` (tree.go:355-455). -/
def Tree.itemsT : Nat → Tree → Str → List Item → R Ev
  | 0, _, _, _ => .timeout
  | fuel + 1, t, s, items =>
    t.itemsStep (Tree.matchT fuel) (Tree.starT fuel true) (Tree.itemsT fuel)
      (Tree.starItemsT fuel) s items
/-- `TreeItem.matchStarItemsInTree` (tree.go:477-605). -/
def Tree.starItemsT : Nat → Tree → Str → List Item → R Ev
  | 0, _, _, _ => .timeout
  | fuel + 1, t, s, items =>
    t.starItemsStep (Tree.matchT fuel) (Tree.starT fuel true) (Tree.itemsT fuel)
      (Tree.starItemsT fuel) s items
end

/-- `MatchLast` of the items (string.go:86-94, byte.go:74-80, rune.go:74-85,
items/runesranges.go:71-74, any.go:60-63, star.go:60-63, stringlist.go:160-163, group.go:75-78,
chain.go:75-78): offset (`none` for -1) and flag. -/
def Item.matchLast (it : Item) (s : Str) : R (Option Nat × FindFlag) :=
  match it with
  | .str w => .ok (if hasSuffix s w then some (s.length - w.length) else none, .done)
  | .byte b =>
    match s.getLast? with
    | none => .panic
    | some c => .ok (if c ≠ b then none else some 0, .done)
  | .rune r =>
    let d := decodeLastRune s
    .ok (if d.1 ≠ runeError then (if d.1 = r then some (s.length - d.2) else none) else none, .done)
  | .ranges rs => .ok ((rs.endsWith s).map Prod.snd, .done)
  | .any _ | .star _ | .list _ | .group _ _ _ | .chain _ _ _ => .ok (some 0, .notSupported)

/-- A child with `Reverse` (tree.go:22-41). -/
def Tree.matchRev (M : TMatcher) (t : Tree) (s : Str) : R Ev :=
  if (s.length : Int) < t.item.minLen then noEv
  else do
    match ← t.item.matchLast s with
    | (some offset, .done) => do
      let s ← sliceTo s offset
      t.next M s
    | _ => noEv

/-- `TreeItem.Match` (tree.go:19-49), called on the root. -/
def Tree.matches (fuel : Nat) (root : Tree) (s : Str) : R Ev :=
  forChilds (fun c => if c.rev then c.matchRev (Tree.matchT fuel) s else Tree.matchT fuel c s)
    root.childs

/-! ## Building the tree -/

/-- The child found by `LocateChildTreeItem` (store.go:121-128) or appended, then changed by `f`
(tree.go:20-28, 33-41, 45-53 of `glob/tree.go`). -/
def insertChild (it : Item) (rev : Bool) (f : Tree → Tree) : List Tree → List Tree
  | [] => [f (.node it rev none [])]
  | c :: cs => if c.rev = rev ∧ c.item.equal it then f c :: cs else c :: insertChild it rev f cs

/-- The descent of `addGlob`: the tree with the steps inserted below `t` and `Terminate`, `Query`,
`Index` set at the end.  The Go code updates nodes in place; the tree has no sharing. -/
def Tree.insert : List (Item × Bool) → Str × Int → Tree → Tree
  | [], e, .node i r _ cs => .node i r (some e) cs
  | (it, rev) :: ps, e, .node i r tm cs =>
    .node i r tm (insertChild it rev (Tree.insert ps e) cs)

/-- The steps of `addGlob` (glob/tree.go:18-54): suffix (reversed), prefix, items. -/
def Glob.steps (g : Glob) : List (Item × Bool) :=
  (if g.suff ≠ [] then [(.str g.suff, true)] else []) ++
    ((if g.pref ≠ [] then [(.str g.pref, false)] else []) ++ g.items.map (fun i => (i, false)))

/-- `GlobTree` (glob/tree.go:64-76).  The `Item` of the root is nil in Go and never used. -/
structure GlobTree where
  root : Tree := .node (.any 0) false none []
  globs : GoMap Str Int := []
  globsIndex : GoMap Int Str := []

/-- The errors of the `Add` functions (glob/tree.go:9-13) and of `Parse`. -/
inductive GAddErr where
  | indexInvalid | globExist | indexDup | parse (e : GErr)
  deriving DecidableEq, Repr

/-- Result of an `Add` call: normalized text, returned index, error. -/
structure GAddRes where
  normalized : Str := []
  n : Int := 0
  err : Option GAddErr := none
  deriving DecidableEq, Repr

/-- `addGlob` (glob/tree.go:15-61). -/
def GlobTree.insert (t : GlobTree) (g : Glob) (index : Int) : Tree :=
  t.root.insert g.steps (g.node, index)

/-- `GlobTree.Add` (glob/tree.go:78-124). -/
def GlobTree.add (t : GlobTree) (glob : Str) (index : Int) : R (GlobTree × GAddRes) :=
  if glob = [] then .ok (t, {})
  else if index < 0 then .ok (t, { normalized := glob, err := some .indexInvalid })
  else match t.globs.get glob with
  | some n => .ok (t, { normalized := glob, n := n, err := some .globExist })
  | none =>
    match t.globsIndex.get index with
    | some q => .ok (t, { normalized := q, err := some .indexDup })
    | none => do
      match ← parseGlob glob with
      | .error e => .ok (t, { err := some (.parse e) })
      | .ok g =>
        match t.globs.get g.node with
        | some n => .ok (t, { normalized := g.node, n := n, err := some .globExist })
        | none =>
          let globs := t.globs.set g.glob index
          .ok ({ root := t.insert g index
                 globs := if g.node ≠ g.glob then globs.set g.node index else globs
                 globsIndex := t.globsIndex.set index g.node },
               { normalized := g.node, n := index })

/-- `GlobTree.AddGlob` (glob/tree.go:126-163).  As in the code, `normalized` is overwritten by the
failed lookup in `GlobsIndex` (glob/tree.go:147), so the empty string is recorded. -/
def GlobTree.addGlob (t : GlobTree) (g : Glob) (index : Int) : GlobTree × GAddRes :=
  if index < 0 then (t, { normalized := g.node, err := some .indexInvalid })
  else match t.globs.get g.glob with
  | some n => (t, { normalized := g.node, n := n, err := some .globExist })
  | none =>
    match t.globs.get g.node with
    | some n => (t, { normalized := g.node, n := n, err := some .globExist })
    | none =>
      match t.globsIndex.get index with
      | some q => (t, { normalized := q, err := some .indexDup })
      | none =>
        let normalized : Str := []
        let globs := t.globs.set g.glob index
        ({ root := t.insert g index
           globs := if normalized ≠ g.glob then globs.set normalized index else globs
           globsIndex := t.globsIndex.set index normalized },
         { normalized := normalized, n := index })

/-- `GlobTree.Match` (glob/tree.go:165-167). -/
def GlobTree.matches (fuel : Nat) (t : GlobTree) (s : Str) : R Ev := t.root.matches fuel s

end GoMatcher
