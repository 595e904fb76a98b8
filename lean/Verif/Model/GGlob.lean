import Verif.Model.Glob
import Verif.Model.Path
import Verif.Model.GoMap

/-! # Dotted globs and their batch matcher (`gglob/gglob.go`, `gglob/gtree.go`) -/

namespace GoMatcher

/-- `GGlob` (gglob.go:11-19). -/
structure GGlob where
  glob : Str := []
  node : Str := []
  minLen : Int := 0
  maxLen : Int := 0
  parts : List Glob := []

/-- Errors of `gglob.Parse`: `items.ErrNodeEmpty` (gglob.go:94, pkg/items/errors.go:28-30) or an
error of `glob.Parse`. -/
inductive GGErr where
  | nodeEmpty (path : Str)
  | part (e : GErr)
  deriving DecidableEq, Repr

/-- `Error` of these errors (pkg/items/errors.go:32-34). -/
def GGErr.text : GGErr → Str
  | .nodeEmpty path => b!"empty node in path: " ++ path
  | .part e => e.text

/-- Loop of `GGlob.Match` (gglob.go:37-50). -/
def ggLoop : List Glob → Str → R Bool
  | [], path => .ok (path = [])
  | g :: gs, path =>
    let r := cutDot path
    if r.1 = [] then .ok false
    else do
      let m ← g.matches r.1
      if m then ggLoop gs r.2.1 else .ok false

/-- `GGlob.Match` (gglob.go:21-51). -/
def GGlob.matches (g : GGlob) (path : Str) : R Bool :=
  if path = [] then .ok false
  else
    let r := pathLevel path
    if g.parts.length ≠ r.2 then .ok false
    else if (r.1.length : Int) < g.minLen then .ok false
    else if g.maxLen > 0 ∧ (r.1.length : Int) > g.maxLen then .ok false
    else ggLoop g.parts r.1

/-- Loop of `GGlob.MatchByParts` (gglob.go:69-76); the lists have equal length. -/
def ggPartsLoop : List Glob → List Str → R Bool
  | g :: gs, p :: ps => do
    let m ← g.matches p
    if m then ggPartsLoop gs ps else .ok false
  | [], _ => .ok true
  | _ :: _, [] => .panic

/-- `GGlob.MatchByParts` (gglob.go:53-77). -/
def GGlob.matchByParts (g : GGlob) (parts : List Str) (length : Int) : R Bool :=
  if parts.length = 0 then .ok false
  else if g.parts.length ≠ parts.length then .ok false
  else if length > 0 ∧ length < g.minLen then .ok false
  else if length > 0 ∧ g.maxLen > 0 ∧ length > g.maxLen then .ok false
  else ggPartsLoop g.parts parts

/-- Loop of `gglob.Parse` (gglob.go:90-105) with `s` and `nextParts`: the parsed parts in order. -/
def ggParseLoop (path s : Str) : R (Except GGErr (List Glob)) :=
  match s with
  | [] => .ok (.ok [])
  | c :: t =>
    let r := cutDot (c :: t)
    if r.1 = [] then .ok (.error (.nodeEmpty path))
    else do
      let g ← parseGlob r.1
      match g with
      | .error e => .ok (.error (.part e))
      | .ok g => do
        let gs ← ggParseLoop path r.2.1
        match gs with
        | .error e => .ok (.error e)
        | .ok gs => .ok (.ok (g :: gs))
termination_by s.length
decreasing_by exact cutDot_length _ (by simp)

/-- The text written by gglob.go:107-115. -/
def joinNodes : List Glob → Str
  | [] => []
  | [g] => g.node
  | g :: gs => g.node ++ 46 :: joinNodes gs

/-- `gglob.Parse` (gglob.go:79-118). -/
def parseGGlob (s : Str) : R (Except GGErr GGlob) := do
  let s := (pathLevel s).1
  let r ← ggParseLoop s s
  match r with
  | .error e => .ok (.error e)
  | .ok parts => .ok (.ok
    { glob := s
      node := joinNodes parts
      minLen := parts.foldl (fun n g => n + g.minLen) 0
      maxLen := parts.foldl (fun n g => addMaxLen n g.maxLen) 0
      parts := parts })

/-- `gglob.ParseMust` (gglob.go:120-126). -/
def parseGGlobMust (s : Str) : R GGlob := do
  match ← parseGGlob s with
  | .error _ => .panic
  | .ok gg => .ok gg

/-! ## The batch matcher -/

/-- `GTreeItem` (gtree.go:10-18).  `term` is `items.Terminated` (store.go:104-108): query and
index when `Terminate` is set.  The root has no `Item`. -/
inductive GTree where
  | node (item : Option Glob) (term : Option (Str × Int)) (childsMap : List (Str × GTree))
      (childs : List GTree)

namespace GTree

/-- `&GTreeItem{Item: g}`. -/
def leaf (g : Option Glob) : GTree := .node g none [] []

def item : GTree → Option Glob
  | .node i _ _ _ => i

def term : GTree → Option (Str × Int)
  | .node _ t _ _ => t

/-- `Item.Match(part)` of a child (gtree.go:41, 74); the children in `Childs` always have an
item. -/
def itemMatches (t : GTree) (part : Str) : R Bool :=
  match t.item with
  | some g => g.matches part
  | none => .panic

end GTree

/-- The sequence of `store.Store(query, index)` calls, oldest first. -/
abbrev Events := List (Str × Int)

/-- One child whose part has matched (gtree.go:28-32, 42-46, 61-65, 75-79). -/
def storeTerm (t : GTree) : Events × Nat :=
  match t.term with
  | some e => ([e], 1)
  | none => ([], 0)

/-- Collected calls and the counter `matched`. -/
def addEv (a b : Events × Nat) : Events × Nat := (a.1 ++ b.1, a.2 + b.2)

/-- Two searches, one after the other: all calls of `Store`, sum of the counters. -/
def addR (a b : R (Events × Nat)) : R (Events × Nat) := do
  let x ← a
  let y ← b
  .ok (addEv x y)

/-- `if item.Terminate { store.Store(item.Query, item.Index); matched++ }`. -/
def storeFin : Option (Str × Int) → Events × Nat
  | some e => ([e], 1)
  | none => ([], 0)

mutual
/-- `GTreeItem.MatchItems` (gtree.go:20-56). -/
def GTree.matchItems (t : GTree) (path : Str) : R (Events × Nat) :=
  match t with
  | .node _ _ cm cs =>
    let r := cutDot path
    if r.1 = [] then .ok ([], 0)
    else do
      let a ← mapItems cm r.1 r.2.1
      let b ← childItems cs r.1 r.2.1
      .ok (addEv a b)
/-- The lookup in `ChildsMap` (gtree.go:26-39). -/
def mapItems (cm : List (Str × GTree)) (part rest : Str) : R (Events × Nat) :=
  match cm with
  | [] => .ok ([], 0)
  | (k, child) :: cm =>
    if k = part then
      if rest = [] then .ok (storeTerm child) else child.matchItems rest
    else mapItems cm part rest
/-- The loop over `Childs` (gtree.go:40-53). -/
def childItems (cs : List GTree) (part rest : Str) : R (Events × Nat) :=
  match cs with
  | [] => .ok ([], 0)
  | c :: cs => do
    let m ← c.itemMatches part
    let a ← if m then (if rest = [] then .ok (storeTerm c) else c.matchItems rest) else .ok ([], 0)
    let b ← childItems cs part rest
    .ok (addEv a b)
end

mutual
/-- `GTreeItem.MatchItemsByParts` (gtree.go:58-89); `parts[0]` panics without parts, but only
when a child looks at it. -/
def GTree.matchByParts (t : GTree) (parts : List Str) : R (Events × Nat) :=
  match t with
  | .node _ _ cm cs =>
    match parts with
    | [] => if cm.length > 0 ∨ cs.length > 0 then .panic else .ok ([], 0)
    | p :: ps => do
      let a ← mapParts cm p ps
      let b ← childParts cs p ps
      .ok (addEv a b)
/-- The lookup in `ChildsMap` (gtree.go:59-72). -/
def mapParts (cm : List (Str × GTree)) (part : Str) (rest : List Str) : R (Events × Nat) :=
  match cm with
  | [] => .ok ([], 0)
  | (k, child) :: cm =>
    if k = part then
      if rest = [] then .ok (storeTerm child) else child.matchByParts rest
    else mapParts cm part rest
/-- The loop over `Childs` (gtree.go:73-86). -/
def childParts (cs : List GTree) (part : Str) (rest : List Str) : R (Events × Nat) :=
  match cs with
  | [] => .ok ([], 0)
  | c :: cs => do
    let m ← c.itemMatches part
    let a ← if m then (if rest = [] then .ok (storeTerm c) else c.matchByParts rest) else .ok ([], 0)
    let b ← childParts cs part rest
    .ok (addEv a b)
end

/-- `ChildsMap` with the child for `g` found or created (gtree.go:111-119) and then changed by
`f`. -/
def insertMap (f : GTree → GTree) (g : Glob) : List (Str × GTree) → List (Str × GTree)
  | [] => [(g.node, f (GTree.leaf (some g)))]
  | (k, c) :: cm => if k = g.node then (k, f c) :: cm else (k, c) :: insertMap f g cm

/-- `Childs` with the child for `g` found (`LocateChildGTreeItem`, gtree.go:91-98) or
appended (gtree.go:121-129) and then changed by `f`. -/
def insertChilds (f : GTree → GTree) (g : Glob) : List GTree → List GTree
  | [] => [f (GTree.leaf (some g))]
  | c :: cs =>
    if (c.item.map Glob.node) = some g.node then f c :: cs else c :: insertChilds f g cs

/-- The descent of `addGGlob` (gtree.go:108-135): the tree after inserting the remaining parts
below `t`, with `Terminate`, `Query` and `Index` set at the end.  The Go code updates nodes
in place; the tree has no sharing, so this is the same as rebuilding the path. -/
def GTree.insert (t : GTree) (parts : List Glob) (e : Str × Int) : GTree :=
  match parts, t with
  | [], .node i _ cm cs => .node i (some e) cm cs
  | g :: gs, .node i tm cm cs =>
    if g.items.length = 0 then .node i tm (insertMap (fun c => c.insert gs e) g cm) cs
    else .node i tm cm (insertChilds (fun c => c.insert gs e) g cs)

/-- `addGGlob` (gtree.go:100-138). -/
def addGGlob (root : GoMap Nat GTree) (gg : GGlob) (index : Int) : GoMap Nat GTree :=
  root.set gg.parts.length
    (((root.get gg.parts.length).getD (GTree.leaf none)).insert gg.parts (gg.node, index))

/-- `GGlobTree` (gtree.go:141-153). -/
structure GGlobTree where
  root : GoMap Nat GTree := []
  globs : GoMap Str Int := []
  globsIndex : GoMap Int Str := []

/-- The errors of the `Add` functions (`glob/errors.go`). -/
inductive AddErr where
  | indexInvalid | globExist | indexDup | parse (e : GGErr)
  deriving DecidableEq, Repr

/-- Result of an `Add` call: normalized text, returned index, error. -/
structure AddRes where
  normalized : Str := []
  n : Int := 0
  err : Option AddErr := none
  deriving DecidableEq, Repr

/-- `GGlobTree.Add` (gtree.go:155-202): the new tree and the result. -/
def GGlobTree.add (t : GGlobTree) (s : Str) (index : Int) : R (GGlobTree × AddRes) :=
  if s = [] then .ok (t, {})
  else if index < 0 then .ok (t, { normalized := s, err := some .indexInvalid })
  else match t.globs.get s with
  | some n => .ok (t, { normalized := s, n := n, err := some .globExist })
  | none =>
    match t.globsIndex.get index with
    | some q => .ok (t, { normalized := q, err := some .indexDup })
    | none => do
      match ← parseGGlob s with
      | .error e => .ok (t, { err := some (.parse e) })
      | .ok g =>
        match t.globs.get g.node with
        | some n => .ok (t, { normalized := g.node, n := n, err := some .globExist })
        | none =>
          .ok ({ root := addGGlob t.root g index
                 globs := (t.globs.set s index).set g.node index
                 globsIndex := t.globsIndex.set index g.node },
               { normalized := g.node, n := index })

/-- `GGlobTree.AddGlob` (gtree.go:204-241).  As in the code, `normalized` is overwritten by the
failed lookup in `GlobsIndex` (gtree.go:225), so the empty string is recorded. -/
def GGlobTree.addGlob (t : GGlobTree) (g : GGlob) (index : Int) : GGlobTree × AddRes :=
  if index < 0 then (t, { normalized := g.node, err := some .indexInvalid })
  else match t.globs.get g.glob with
  | some n => (t, { normalized := g.node, n := n, err := some .globExist })
  | none =>
    match t.globs.get g.node with
    | some n => (t, { normalized := g.node, n := n, err := some .globExist })
    | none =>
      match t.globsIndex.get index with
      | some q => (t, { normalized := q, n := 0, err := some .indexDup })
      | none =>
        let normalized : Str := []
        let globs := t.globs.set g.node index
        let globs := if normalized ≠ g.node then globs.set normalized index else globs
        ({ root := addGGlob t.root g index
           globs := globs
           globsIndex := t.globsIndex.set index normalized },
         { normalized := normalized, n := index })

/-- `GGlobTree.Match` (gtree.go:243-255). -/
def GGlobTree.matches (t : GGlobTree) (path : Str) : R (Events × Nat) :=
  if path = [] then .ok ([], 0)
  else
    let r := pathLevel path
    match t.root.get r.2 with
    | some root => root.matchItems r.1
    | none => .ok ([], 0)

/-- `GGlobTree.MatchByParts` (gtree.go:257-268). -/
def GGlobTree.matchByParts (t : GGlobTree) (parts : List Str) : R (Events × Nat) :=
  if parts.length = 0 then .ok ([], 0)
  else match t.root.get parts.length with
    | some root => root.matchByParts parts
    | none => .ok ([], 0)

end GoMatcher
