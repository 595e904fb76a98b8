import Verif.Model.TagTerm
import Verif.Model.GGlob

/-! # Model of the batch matcher for `seriesByTag` queries (`gtags/items.go`, `gtags/tree.go`) -/

namespace GoMatcher

/-- `TaggedItem` (items.go:17-25) with its term, `Terminated` (query and index when `Terminate` is
set) and the groups of children.  A group (`TaggedItems`, items.go:7-11) is a triple: key, `NotMatched`,
`Matched`.  The root item of a tree has no term and is never terminated; it is modelled by
its groups alone. -/
inductive TItem where
  | node (term : TTerm) (fin : Option (Str × Int)) (items : List (Str × List TItem × List TItem))

/-- `TaggedItems` (items.go:7-11): key, `NotMatched`, `Matched`. -/
abbrev TGroup := Str × List TItem × List TItem

namespace TItem

def term : TItem → TTerm
  | .node t _ _ => t

def fin : TItem → Option (Str × Int)
  | .node _ f _ => f

def items : TItem → List TGroup
  | .node _ _ gs => gs

end TItem

/-- The loop of `findOrAppend` (items.go:58-78) over the keys of the groups: `.ok` of the position
found, or `.error` of the final value of `high`.  `fuel` bounds the number of rounds. -/
def placeLoop (ks : List Str) (key : Str) : Nat → Nat → Nat → R (Except Nat Nat)
  | 0, _, _ => .timeout
  | fuel + 1, low, high =>
    if low ≤ high then
      let mid := (low + high) / 2
      match ks[mid]? with
      | none => .panic
      | some k =>
        if key = k then .ok (.ok mid)
        else if strLt key k then
          if low = mid then .ok (.error low) else placeLoop ks key fuel low (mid - 1)
        else if low = high then .ok (.error (mid + 1))
        else placeLoop ks key fuel (mid + 1) high
    else .ok (.error high)

/-- `TaggedItem.findOrAppend` (items.go:31-95) with `hasName` (27-29): the groups afterwards and the
position. -/
def findOrAppend (gs : List TGroup) (key : Str) : R (List TGroup × Nat) :=
  if key = [] then .ok (gs, 1)
  else match gs with
  | [] => .ok ([(key, [], [])], 0)
  | g :: rest =>
    if key = nameKey then
      if g.1 = nameKey then .ok (g :: rest, 0) else .ok ((key, [], []) :: g :: rest, 0)
    else do
      match ← placeLoop ((g :: rest).map Prod.fst) key ((g :: rest).length + 1)
          (if g.1 = nameKey then 1 else 0) ((g :: rest).length - 1) with
      | .ok mid => .ok (g :: rest, mid)
      | .error high =>
        if high = (g :: rest).length then .ok ((g :: rest) ++ [(key, [], [])], high)
        else if high ≤ 0 then .ok ((key, [], []) :: g :: rest, 0)
        else .ok ((g :: rest).take high ++ (key, [], []) :: (g :: rest).drop high, high)

/-- The child for a term is found or created (items.go:229-246), then changed by `f`. -/
def insertTerm (f : TItem → R TItem) (t : TTerm) : List TItem → R (List TItem)
  | [] => do
    let c ← f (.node t none [])
    .ok [c]
  | c :: cs =>
    if t.id = c.term.id then do
      let c ← f c
      .ok (c :: cs)
    else do
      let cs ← insertTerm f t cs
      .ok (c :: cs)

/-- `eq` or `match` (items.go:222-228). -/
def TagOp.isMatched : TagOp → Bool
  | .eq | .mt => true
  | _ => false

/-- The last item gets `Terminate`, `Query`, `Index` (tree.go:66-68). -/
def TItem.finish (e : Option (Str × Int)) : TItem → TItem
  | .node t fin gs => .node t (match e with | some e => some e | none => fin) gs

/-- The recursive call on the child (items.go:248-250), or the end of the descent. -/
def TItem.descend (last : Bool) (e : Option (Str × Int)) (f : List TGroup → R (List TGroup))
    (c : TItem) : R TItem :=
  if last then .ok (c.finish e)
  else do
    let items ← f c.items
    .ok (.node c.term c.fin items)

/-- `TaggedItem.Parse` (items.go:216-253), followed by the assignments of `Add` to the last
item (tree.go:66-68) when `e` is given. -/
def parseItems (e : Option (Str × Int)) : List TTerm → List TGroup → R (List TGroup)
  | [], _ => .panic
  | t :: ts, gs => do
    let r ← findOrAppend gs t.key
    match r.1[r.2]? with
    | none => .panic
    | some (k, nm, m) =>
      let f := TItem.descend ts.isEmpty e (parseItems e ts)
      if t.op.isMatched then do
        let m ← insertTerm f t m
        .ok (r.1.set r.2 (k, nm, m))
      else do
        let nm ← insertTerm f t nm
        .ok (r.1.set r.2 (k, nm, m))

/-- Skip unless the term matches. -/
def whenR (m : R Bool) (a : R (Events × Nat)) : R (Events × Nat) := do
  if ← m then a else .ok ([], 0)

/-- `child.Term.Match(v)`, or no question asked when the tag is absent. -/
def askTerm (lib : GoLib) (t : TTerm) : Option Str → R Bool
  | some v => t.matches lib v
  | none => .ok true

mutual
/-- The loop of `TaggedItem.MatchByTagsMap` (items.go:260-300).  The check for empty `tags`
(items.go:256-258) is the same in every call and is made in `GTagsTree.matchByTagsMap`. -/
def groupsMap (lib : GoLib) (tags : GoMap Str Str) : List (Str × List TItem × List TItem) → R (Events × Nat)
  | [] => .ok ([], 0)
  | (k, nm, m) :: gs =>
    addR
      (match tags.get k with
        | some v => addR (childsMap lib tags (some v) m) (childsMap lib tags (some v) nm)
        | none => childsMap lib tags none nm)
      (groupsMap lib tags gs)
/-- The loops over the children of a group (items.go:263-274, 275-286, 289-297). -/
def childsMap (lib : GoLib) (tags : GoMap Str Str) (v : Option Str) : List TItem → R (Events × Nat)
  | [] => .ok ([], 0)
  | c :: cs => addR (childMap lib tags v c) (childsMap lib tags v cs)
/-- The bodies of these loops. -/
def childMap (lib : GoLib) (tags : GoMap Str Str) (v : Option Str) : TItem → R (Events × Nat)
  | .node t fin gs =>
    whenR (askTerm lib t v) (addR (.ok (storeFin fin)) (groupsMap lib tags gs))
end

/-- The loop of `find` (items.go:191-211).  `high` may become -1 only when `search` is 0; then
the loop ends. -/
def findLoop (ks : List Str) (key : Str) : Nat → Nat → Nat → Nat → R (Option Nat)
  | 0, _, _, _ => .timeout
  | fuel + 1, low, high, search =>
    match ks[search]? with
    | none => .panic
    | some k =>
      if key = k then .ok (some search)
      else
        let next (low high : Nat) : R (Option Nat) :=
          if low > high then .ok none
          else if low = high then
            match ks[low]? with
            | none => .panic
            | some k => if key = k then .ok (some low) else .ok none
          else findLoop ks key fuel low high ((low + high) / 2)
        if strLt key k then
          if search = 0 then .ok none else next low (search - 1)
        else next (search + 1) high

/-- Narrowing by the start position (items.go:175-184): found, or the new bounds. -/
def findStart (ks : List Str) (key : Str) (start low high : Nat) : R (Nat ⊕ Nat × Nat) :=
  if start > low then
    match ks[start]? with
    | none => .panic
    | some k =>
      if k = key then .ok (.inl start)
      else if strLt key k then .ok (.inr (low, start - 1))
      else .ok (.inr (start, high))
  else .ok (.inr (low, high))

/-- `find` (items.go:159-214) on the keys of the tags. -/
def findKey (ks : List Str) (key : Str) (start : Nat) : R (Option Nat) :=
  if key = [] then .ok none
  else match ks with
  | [] => .ok none
  | k :: rest =>
    if key = nameKey then (if k = nameKey then .ok (some 0) else .ok none)
    else do
      match ← findStart (k :: rest) key start (if k = nameKey then 1 else 0) ((k :: rest).length - 1) with
      | .inl n => .ok (some n)
      | .inr (low, high) =>
        let search := (low + high) / 2
        let search := if search > low + 4 then low + 4 else search
        findLoop (k :: rest) key ((k :: rest).length + 2) low high search

/-- The method `TaggedItem.find` (items.go:97-157) on the keys of the groups.  Its text is that of
`find` with the groups for the tags; the second check for an empty key (items.go:109-111) has no
effect.  The code only calls it from its tests. -/
def findGroup (gs : List TGroup) (key : Str) (start : Nat) : R (Option Nat) :=
  findKey (gs.map Prod.fst) key start

/-- `find` (items.go:159-214). -/
def findTag (tags : List Tag) (key : Str) (start : Nat) : R (Option Nat) :=
  findKey (tags.map Tag.key) key start

mutual
/-- The loop of `TaggedItem.MatchByTags` (items.go:312-353); `pos` is `matchPos`. -/
def groupsSlice (lib : GoLib) (tags : List Tag) (pos : Nat) :
    List (Str × List TItem × List TItem) → R (Events × Nat)
  | [] => .ok ([], 0)
  | (k, nm, m) :: gs =>
    match findTag tags k pos with
    | .ok none => addR (childsSlice lib tags none nm) (groupsSlice lib tags pos gs)
    | .ok (some n) =>
      match tags[n]? with
      | none => .panic
      | some g =>
        addR (addR (childsSlice lib tags (some g.value) m) (childsSlice lib tags (some g.value) nm))
          (groupsSlice lib tags n gs)
    | .panic => .panic
    | .timeout => .timeout
/-- The loops over the children of a group (items.go:316-324, 327-338, 339-350). -/
def childsSlice (lib : GoLib) (tags : List Tag) (v : Option Str) : List TItem → R (Events × Nat)
  | [] => .ok ([], 0)
  | c :: cs => addR (childSlice lib tags v c) (childsSlice lib tags v cs)
/-- The bodies of these loops. -/
def childSlice (lib : GoLib) (tags : List Tag) (v : Option Str) : TItem → R (Events × Nat)
  | .node t fin gs =>
    whenR (askTerm lib t v) (addR (.ok (storeFin fin)) (groupsSlice lib tags 0 gs))
end

/-- `GTagsTree` (tree.go:9-24). -/
structure GTagsTree where
  fin : Option (Str × Int) := none
  root : List TGroup := []
  queries : GoMap Str Int := []
  queryIndex : GoMap Int Str := []

/-- Errors of `Add` (`glob/errors.go`, `gtags/errors.go`). -/
inductive TAddErr where
  | indexInvalid | globExist | indexDup | parse (e : TagErr)
  deriving DecidableEq, Repr

/-- Result of an `Add` call: normalized text, returned index, error. -/
structure TAddRes where
  normalized : Str := []
  n : Int := 0
  err : Option TAddErr := none
  deriving DecidableEq, Repr

/-- `GTagsTree.Add` (tree.go:26-80). -/
def GTagsTree.add (lib : GoLib) (t : GTagsTree) (query : Str) (index : Int) :
    R (GTagsTree × TAddRes) :=
  if query = [] then .ok (t, {})
  else if index < 0 then .ok (t, { normalized := query, err := some .indexInvalid })
  else match t.queries.get query with
  | some n => .ok (t, { normalized := query, n := n, err := some .globExist })
  | none =>
    match t.queryIndex.get index with
    | some q => .ok (t, { normalized := q, err := some .indexDup })
    | none => do
      match ← parseSeriesByTag lib query with
      | .error e => .ok (t, { err := some (.parse e) })
      | .ok terms =>
        let normalized := termsText terms
        match t.queries.get normalized with
        | some n => .ok (t, { normalized := normalized, n := n, err := some .globExist })
        | none =>
          let queries := t.queries.set query index
          let queries := if normalized ≠ query then queries.set normalized index else queries
          match terms with
          | [] =>
            .ok ({ t with fin := some (normalized, index), queries := queries
                          queryIndex := t.queryIndex.set index normalized },
                 { normalized := normalized, n := index })
          | u :: us => do
            let root ← parseItems (some (normalized, index)) (u :: us) t.root
            .ok ({ t with root := root, queries := queries
                          queryIndex := t.queryIndex.set index normalized },
                 { normalized := normalized, n := index })

/-- `GTagsTree.AddTerms` (tree.go:82-117).  As in the code, the last item is not terminated, and
`normalized` is overwritten by the failed lookup in `QueryIndex` (tree.go:98). -/
def GTagsTree.addTerms (t : GTagsTree) (terms : List TTerm) (index : Int) : R (GTagsTree × TAddRes) :=
  match terms with
  | [] => .ok (t, {})
  | u :: us =>
    if index < 0 then .ok (t, { err := some .indexInvalid })
    else
      let text := termsText (u :: us)
      match t.queries.get text with
      | some n => .ok (t, { normalized := text, n := n, err := some .globExist })
      | none =>
        match t.queryIndex.get index with
        | some q => .ok (t, { normalized := q, err := some .indexDup })
        | none => do
          let normalized : Str := []
          let root ← parseItems none (u :: us) t.root
          .ok ({ t with root := root, queries := t.queries.set normalized index
                        queryIndex := t.queryIndex.set index normalized },
               { normalized := normalized, n := index })

/-- `GTagsTree.MatchByTagsMap` (tree.go:119-121, items.go:255-258). -/
def GTagsTree.matchByTagsMap (lib : GoLib) (t : GTagsTree) (tags : GoMap Str Str) : R (Events × Nat) :=
  if tags.length = 0 then .ok ([], 0) else groupsMap lib tags t.root

/-- `GTagsTree.MatchByTags` (tree.go:123-128, items.go:305-308): the query without conditions is
stored but not counted. -/
def GTagsTree.matchByTags (lib : GoLib) (t : GTagsTree) (tags : List Tag) : R (Events × Nat) := do
  let r ← if tags.length = 0 then .ok ([], 0) else groupsSlice lib tags 0 t.root
  .ok ((storeFin t.fin).1 ++ r.1, r.2)

end GoMatcher
