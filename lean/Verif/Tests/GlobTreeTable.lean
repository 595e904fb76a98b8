import Verif.Model.GlobTree

/-! # Model checks against the test tables of `/repo/glob/tree*_test.go`

These are tests of the model, not proofs of properties. -/

namespace GoMatcher.Tests

/-- `TreeItemStr` of the Go tests. -/
inductive TreeStr where
  | mk (node : Str) (rev : Bool) (term : Option (Str × Int)) (childs : List TreeStr)

mutual
def TreeStr.same : TreeStr → TreeStr → Bool
  | .mk n r t cs, .mk n' r' t' cs' => n == n' && r == r' && t == t' && sameAll cs cs'
def sameAll : List TreeStr → List TreeStr → Bool
  | [], [] => true
  | c :: cs, c' :: cs' => c.same c' && sameAll cs cs'
  | _, _ => false
end

mutual
/-- `StringTreeItem` of the Go tests. -/
def treeStr : Tree → TreeStr
  | .node i r t cs => .mk i.writeString r t (treeStrs cs)
def treeStrs : List Tree → List TreeStr
  | [] => []
  | c :: cs => treeStr c :: treeStrs cs
end

/-- All globs added with their position as index. -/
def addAll : List Str → Int → GlobTree → R GlobTree
  | [], _, t => .ok t
  | g :: gs, i, t => do
    let r ← t.add g i
    addAll gs (i + 1) r.1

/-- The two maps have the same bindings. -/
def sameMap {κ ν : Type} [DecidableEq κ] [DecidableEq ν] (m want : GoMap κ ν) : Bool :=
  m.length == want.length && want.all (fun p => m.get p.1 == some p.2)

/-- One row of the Go test table. -/
def treeRow (globs : List Str) (root : Option TreeStr) (gm : GoMap Str Int) (gi : GoMap Int Str)
    (rows : List (Str × List Str)) : Bool :=
  match addAll globs 0 {} with
  | .ok t =>
    (root.all (fun r => match r with
      | .mk _ _ tm cs => t.root.term == tm && sameAll (treeStrs t.root.childs) cs)) &&
    sameMap t.globs gm && sameMap t.globsIndex gi &&
    rows.all (fun p =>
      match t.matches 400 p.1 with
      | .ok (es, n) => (sortBy strLe (es.map Prod.fst) == sortBy strLe p.2) && n == es.length &&
          es.all (fun e => t.globsIndex.get e.2 == some e.1)
      | _ => false)
  | _ => false

/- tree_batch_test.go: a.*.{cd,b}*.e, a.*.{b,cd}*.e, a.*.{cd,b}*.df, a.b.b*.e, a.*.{bc,d}*.e, *.{bc,d}*.e, *{cd,b}*.df, a.b.b*.{c,bc}, a.b.b*{c,bc}, bc.{,cd,b}*.df, bc.{,cd,b}, bc.*{,cd,b}, bc.*{,cd,b}* -/
example : treeRow [[97, 46, 42, 46, 123, 99, 100, 44, 98, 125, 42, 46, 101], [97, 46, 42, 46, 123, 98, 44, 99, 100, 125, 42, 46, 101], [97, 46, 42, 46, 123, 99, 100, 44, 98, 125, 42, 46, 100, 102], [97, 46, 98, 46, 98, 42, 46, 101], [97, 46, 42, 46, 123, 98, 99, 44, 100, 125, 42, 46, 101], [42, 46, 123, 98, 99, 44, 100, 125, 42, 46, 101], [42, 123, 99, 100, 44, 98, 125, 42, 46, 100, 102], [97, 46, 98, 46, 98, 42, 46, 123, 99, 44, 98, 99, 125], [97, 46, 98, 46, 98, 42, 123, 99, 44, 98, 99, 125], [98, 99, 46, 123, 44, 99, 100, 44, 98, 125, 42, 46, 100, 102], [98, 99, 46, 123, 44, 99, 100, 44, 98, 125], [98, 99, 46, 42, 123, 44, 99, 100, 44, 98, 125], [98, 99, 46, 42, 123, 44, 99, 100, 44, 98, 125, 42]] none
    [([97, 46, 42, 46, 123, 98, 44, 99, 100, 125, 42, 46, 101], 0), ([97, 46, 42, 46, 123, 99, 100, 44, 98, 125, 42, 46, 101], 0), ([97, 46, 42, 46, 123, 98, 44, 99, 100, 125, 42, 46, 100, 102], 2), ([97, 46, 42, 46, 123, 99, 100, 44, 98, 125, 42, 46, 100, 102], 2), ([97, 46, 98, 46, 98, 42, 46, 101], 3), ([97, 46, 42, 46, 123, 98, 99, 44, 100, 125, 42, 46, 101], 4), ([42, 46, 123, 98, 99, 44, 100, 125, 42, 46, 101], 5), ([42, 123, 98, 44, 99, 100, 125, 42, 46, 100, 102], 6), ([42, 123, 99, 100, 44, 98, 125, 42, 46, 100, 102], 6), ([97, 46, 98, 46, 98, 42, 46, 123, 98, 99, 44, 99, 125], 7), ([97, 46, 98, 46, 98, 42, 46, 123, 99, 44, 98, 99, 125], 7), ([97, 46, 98, 46, 98, 42, 123, 98, 99, 44, 99, 125], 8), ([97, 46, 98, 46, 98, 42, 123, 99, 44, 98, 99, 125], 8), ([98, 99, 46, 123, 44, 98, 44, 99, 100, 125, 42, 46, 100, 102], 9), ([98, 99, 46, 123, 44, 99, 100, 44, 98, 125, 42, 46, 100, 102], 9), ([98, 99, 46, 123, 44, 98, 44, 99, 100, 125], 10), ([98, 99, 46, 123, 44, 99, 100, 44, 98, 125], 10), ([98, 99, 46, 42, 123, 44, 98, 44, 99, 100, 125], 11), ([98, 99, 46, 42, 123, 44, 99, 100, 44, 98, 125], 11), ([98, 99, 46, 42, 123, 44, 98, 44, 99, 100, 125, 42], 12), ([98, 99, 46, 42, 123, 44, 99, 100, 44, 98, 125, 42], 12)]
    [(0, [97, 46, 42, 46, 123, 98, 44, 99, 100, 125, 42, 46, 101]), (2, [97, 46, 42, 46, 123, 98, 44, 99, 100, 125, 42, 46, 100, 102]), (3, [97, 46, 98, 46, 98, 42, 46, 101]), (4, [97, 46, 42, 46, 123, 98, 99, 44, 100, 125, 42, 46, 101]), (5, [42, 46, 123, 98, 99, 44, 100, 125, 42, 46, 101]), (6, [42, 123, 98, 44, 99, 100, 125, 42, 46, 100, 102]), (7, [97, 46, 98, 46, 98, 42, 46, 123, 98, 99, 44, 99, 125]), (8, [97, 46, 98, 46, 98, 42, 123, 98, 99, 44, 99, 125]), (9, [98, 99, 46, 123, 44, 98, 44, 99, 100, 125, 42, 46, 100, 102]), (10, [98, 99, 46, 123, 44, 98, 44, 99, 100, 125]), (11, [98, 99, 46, 42, 123, 44, 98, 44, 99, 100, 125]), (12, [98, 99, 46, 42, 123, 44, 98, 44, 99, 100, 125, 42])]
    [([97, 46, 98, 46, 98, 99, 101, 46, 101], [[97, 46, 42, 46, 123, 98, 44, 99, 100, 125, 42, 46, 101], [97, 46, 98, 46, 98, 42, 46, 101], [97, 46, 42, 46, 123, 98, 99, 44, 100, 125, 42, 46, 101], [42, 46, 123, 98, 99, 44, 100, 125, 42, 46, 101]]), ([97, 46, 98, 46, 99, 100, 46, 101], [[97, 46, 42, 46, 123, 98, 44, 99, 100, 125, 42, 46, 101]]), ([97, 46, 68, 46, 98, 99, 101, 46, 101], [[97, 46, 42, 46, 123, 98, 44, 99, 100, 125, 42, 46, 101], [97, 46, 42, 46, 123, 98, 99, 44, 100, 125, 42, 46, 101], [42, 46, 123, 98, 99, 44, 100, 125, 42, 46, 101]]), ([97, 46, 68, 46, 98, 99, 100, 46, 100, 102], [[97, 46, 42, 46, 123, 98, 44, 99, 100, 125, 42, 46, 100, 102], [42, 123, 98, 44, 99, 100, 125, 42, 46, 100, 102], [42, 123, 98, 44, 99, 100, 125, 42, 46, 100, 102]]), ([97, 46, 98, 46, 98, 46, 98, 99], [[97, 46, 98, 46, 98, 42, 46, 123, 98, 99, 44, 99, 125], [97, 46, 98, 46, 98, 42, 123, 98, 99, 44, 99, 125], [97, 46, 98, 46, 98, 42, 123, 98, 99, 44, 99, 125]]), ([97, 46, 98, 46, 98, 101, 100, 46, 98, 99], [[97, 46, 98, 46, 98, 42, 46, 123, 98, 99, 44, 99, 125], [97, 46, 98, 46, 98, 42, 123, 98, 99, 44, 99, 125], [97, 46, 98, 46, 98, 42, 123, 98, 99, 44, 99, 125]]), ([98, 99, 46, 46, 100, 102], [[42, 123, 98, 44, 99, 100, 125, 42, 46, 100, 102], [98, 99, 46, 123, 44, 98, 44, 99, 100, 125, 42, 46, 100, 102], [98, 99, 46, 42, 123, 44, 98, 44, 99, 100, 125], [98, 99, 46, 42, 123, 44, 98, 44, 99, 100, 125, 42]]), ([98, 99, 46, 99, 100, 46, 100, 102], [[42, 123, 98, 44, 99, 100, 125, 42, 46, 100, 102], [42, 123, 98, 44, 99, 100, 125, 42, 46, 100, 102], [98, 99, 46, 123, 44, 98, 44, 99, 100, 125, 42, 46, 100, 102], [98, 99, 46, 123, 44, 98, 44, 99, 100, 125, 42, 46, 100, 102], [98, 99, 46, 42, 123, 44, 98, 44, 99, 100, 125], [98, 99, 46, 42, 123, 44, 98, 44, 99, 100, 125, 42], [98, 99, 46, 42, 123, 44, 98, 44, 99, 100, 125, 42]]), ([98, 99, 46], [[98, 99, 46, 123, 44, 98, 44, 99, 100, 125], [98, 99, 46, 42, 123, 44, 98, 44, 99, 100, 125], [98, 99, 46, 42, 123, 44, 98, 44, 99, 100, 125, 42]]), ([98, 99, 100], [])] = true := by decide +kernel
/- tree_group_test.go: {b*,a?cd*,cd[a-z]}bc*c*e, {b*,a?cd*,cd[a-z]}bc*CD*e -/
example : treeRow [[123, 98, 42, 44, 97, 63, 99, 100, 42, 44, 99, 100, 91, 97, 45, 122, 93, 125, 98, 99, 42, 99, 42, 101], [123, 98, 42, 44, 97, 63, 99, 100, 42, 44, 99, 100, 91, 97, 45, 122, 93, 125, 98, 99, 42, 67, 68, 42, 101]] (some (.mk [] false none [.mk [101] true none [.mk [123, 97, 63, 99, 100, 42, 44, 98, 42, 44, 99, 100, 91, 97, 45, 122, 93, 125] false none [.mk [98, 99] false none [.mk [42] false none [.mk [99] false none [.mk [42] false (some ([123, 97, 63, 99, 100, 42, 44, 98, 42, 44, 99, 100, 91, 97, 45, 122, 93, 125, 98, 99, 42, 99, 42, 101], 0)) []], .mk [67, 68] false none [.mk [42] false (some ([123, 97, 63, 99, 100, 42, 44, 98, 42, 44, 99, 100, 91, 97, 45, 122, 93, 125, 98, 99, 42, 67, 68, 42, 101], 1)) []]]]]]]))
    [([123, 97, 63, 99, 100, 42, 44, 98, 42, 44, 99, 100, 91, 97, 45, 122, 93, 125, 98, 99, 42, 99, 42, 101], 0), ([123, 98, 42, 44, 97, 63, 99, 100, 42, 44, 99, 100, 91, 97, 45, 122, 93, 125, 98, 99, 42, 99, 42, 101], 0), ([123, 97, 63, 99, 100, 42, 44, 98, 42, 44, 99, 100, 91, 97, 45, 122, 93, 125, 98, 99, 42, 67, 68, 42, 101], 1), ([123, 98, 42, 44, 97, 63, 99, 100, 42, 44, 99, 100, 91, 97, 45, 122, 93, 125, 98, 99, 42, 67, 68, 42, 101], 1)]
    [(0, [123, 97, 63, 99, 100, 42, 44, 98, 42, 44, 99, 100, 91, 97, 45, 122, 93, 125, 98, 99, 42, 99, 42, 101]), (1, [123, 97, 63, 99, 100, 42, 44, 98, 42, 44, 99, 100, 91, 97, 45, 122, 93, 125, 98, 99, 42, 67, 68, 42, 101])]
    [([97, 90, 99, 100, 98, 99, 99, 101], [[123, 97, 63, 99, 100, 42, 44, 98, 42, 44, 99, 100, 91, 97, 45, 122, 93, 125, 98, 99, 42, 99, 42, 101]]), ([97, 208, 175, 99, 100, 98, 99, 99, 101], [[123, 97, 63, 99, 100, 42, 44, 98, 42, 44, 99, 100, 91, 97, 45, 122, 93, 125, 98, 99, 42, 99, 42, 101]]), ([97, 208, 174, 99, 100, 81, 65, 98, 99, 90, 87, 99, 73, 101], [[123, 97, 63, 99, 100, 42, 44, 98, 42, 44, 99, 100, 91, 97, 45, 122, 93, 125, 98, 99, 42, 99, 42, 101]]), ([97, 90, 99, 100, 81, 65, 98, 99, 90, 87, 99, 73, 101], [[123, 97, 63, 99, 100, 42, 44, 98, 42, 44, 99, 100, 91, 97, 45, 122, 93, 125, 98, 99, 42, 99, 42, 101]]), ([], []), ([97, 99, 100, 113, 98, 99, 90, 99, 73, 101], []), ([97, 98, 67, 68, 98, 99, 90, 73, 99, 101], []), ([208, 153, 97, 98, 67, 68, 98, 99, 90, 73, 99, 101], []), ([97, 90, 99, 100, 98, 99, 99], []), ([97, 90, 99, 100, 99, 99, 101], []), ([97, 90, 99, 100, 81, 65, 98, 99, 90, 87, 73, 101], [])] = true := by decide +kernel
/- tree_group_test.go: *{b*,a?cd*,cd[a-z]}bc*c*e, *{b*,a?cd*,cd[a-z]}bc*CD*e, *{b*,a?cd*,cd[a-z]}bc*cd*e -/
example : treeRow [[42, 123, 98, 42, 44, 97, 63, 99, 100, 42, 44, 99, 100, 91, 97, 45, 122, 93, 125, 98, 99, 42, 99, 42, 101], [42, 123, 98, 42, 44, 97, 63, 99, 100, 42, 44, 99, 100, 91, 97, 45, 122, 93, 125, 98, 99, 42, 67, 68, 42, 101], [42, 123, 98, 42, 44, 97, 63, 99, 100, 42, 44, 99, 100, 91, 97, 45, 122, 93, 125, 98, 99, 42, 99, 100, 42, 101]] (some (.mk [] false none [.mk [101] true none [.mk [42] false none [.mk [123, 97, 63, 99, 100, 42, 44, 98, 42, 44, 99, 100, 91, 97, 45, 122, 93, 125] false none [.mk [98, 99] false none [.mk [42] false none [.mk [99] false none [.mk [42] false (some ([42, 123, 97, 63, 99, 100, 42, 44, 98, 42, 44, 99, 100, 91, 97, 45, 122, 93, 125, 98, 99, 42, 99, 42, 101], 0)) []], .mk [67, 68] false none [.mk [42] false (some ([42, 123, 97, 63, 99, 100, 42, 44, 98, 42, 44, 99, 100, 91, 97, 45, 122, 93, 125, 98, 99, 42, 67, 68, 42, 101], 1)) []], .mk [99, 100] false none [.mk [42] false (some ([42, 123, 97, 63, 99, 100, 42, 44, 98, 42, 44, 99, 100, 91, 97, 45, 122, 93, 125, 98, 99, 42, 99, 100, 42, 101], 2)) []]]]]]]]))
    [([42, 123, 97, 63, 99, 100, 42, 44, 98, 42, 44, 99, 100, 91, 97, 45, 122, 93, 125, 98, 99, 42, 99, 42, 101], 0), ([42, 123, 98, 42, 44, 97, 63, 99, 100, 42, 44, 99, 100, 91, 97, 45, 122, 93, 125, 98, 99, 42, 99, 42, 101], 0), ([42, 123, 97, 63, 99, 100, 42, 44, 98, 42, 44, 99, 100, 91, 97, 45, 122, 93, 125, 98, 99, 42, 67, 68, 42, 101], 1), ([42, 123, 98, 42, 44, 97, 63, 99, 100, 42, 44, 99, 100, 91, 97, 45, 122, 93, 125, 98, 99, 42, 67, 68, 42, 101], 1), ([42, 123, 97, 63, 99, 100, 42, 44, 98, 42, 44, 99, 100, 91, 97, 45, 122, 93, 125, 98, 99, 42, 99, 100, 42, 101], 2), ([42, 123, 98, 42, 44, 97, 63, 99, 100, 42, 44, 99, 100, 91, 97, 45, 122, 93, 125, 98, 99, 42, 99, 100, 42, 101], 2)]
    [(0, [42, 123, 97, 63, 99, 100, 42, 44, 98, 42, 44, 99, 100, 91, 97, 45, 122, 93, 125, 98, 99, 42, 99, 42, 101]), (1, [42, 123, 97, 63, 99, 100, 42, 44, 98, 42, 44, 99, 100, 91, 97, 45, 122, 93, 125, 98, 99, 42, 67, 68, 42, 101]), (2, [42, 123, 97, 63, 99, 100, 42, 44, 98, 42, 44, 99, 100, 91, 97, 45, 122, 93, 125, 98, 99, 42, 99, 100, 42, 101])]
    [([97, 90, 99, 100, 98, 99, 99, 101], [[42, 123, 97, 63, 99, 100, 42, 44, 98, 42, 44, 99, 100, 91, 97, 45, 122, 93, 125, 98, 99, 42, 99, 42, 101]]), ([97, 208, 175, 99, 100, 98, 99, 99, 101], [[42, 123, 97, 63, 99, 100, 42, 44, 98, 42, 44, 99, 100, 91, 97, 45, 122, 93, 125, 98, 99, 42, 99, 42, 101]]), ([97, 208, 174, 99, 100, 81, 65, 98, 99, 90, 87, 99, 73, 101], [[42, 123, 97, 63, 99, 100, 42, 44, 98, 42, 44, 99, 100, 91, 97, 45, 122, 93, 125, 98, 99, 42, 99, 42, 101]]), ([97, 90, 99, 100, 81, 65, 98, 99, 90, 87, 99, 73, 101], [[42, 123, 97, 63, 99, 100, 42, 44, 98, 42, 44, 99, 100, 91, 97, 45, 122, 93, 125, 98, 99, 42, 99, 42, 101]]), ([97, 98, 67, 68, 98, 99, 90, 73, 99, 101], [[42, 123, 97, 63, 99, 100, 42, 44, 98, 42, 44, 99, 100, 91, 97, 45, 122, 93, 125, 98, 99, 42, 99, 42, 101]]), ([208, 153, 97, 98, 67, 68, 98, 99, 90, 73, 99, 101], [[42, 123, 97, 63, 99, 100, 42, 44, 98, 42, 44, 99, 100, 91, 97, 45, 122, 93, 125, 98, 99, 42, 99, 42, 101]]), ([97, 99, 100, 113, 98, 99, 90, 99, 73, 101], [[42, 123, 97, 63, 99, 100, 42, 44, 98, 42, 44, 99, 100, 91, 97, 45, 122, 93, 125, 98, 99, 42, 99, 42, 101]]), ([97, 99, 100, 113, 98, 99, 90, 67, 68, 73, 101], [[42, 123, 97, 63, 99, 100, 42, 44, 98, 42, 44, 99, 100, 91, 97, 45, 122, 93, 125, 98, 99, 42, 67, 68, 42, 101]]), ([97, 99, 100, 113, 98, 99, 90, 99, 100, 73, 101], [[42, 123, 97, 63, 99, 100, 42, 44, 98, 42, 44, 99, 100, 91, 97, 45, 122, 93, 125, 98, 99, 42, 99, 42, 101], [42, 123, 97, 63, 99, 100, 42, 44, 98, 42, 44, 99, 100, 91, 97, 45, 122, 93, 125, 98, 99, 42, 99, 100, 42, 101]]), ([], []), ([97, 90, 99, 100, 98, 99, 99], []), ([97, 90, 99, 100, 99, 99, 101], []), ([97, 90, 99, 100, 81, 65, 98, 99, 90, 87, 73, 101], [])] = true := by decide +kernel
/- tree_stringlist_opt_test.go: bc.*{,b,cd}*, bc.*{,b,cd} -/
example : treeRow [[98, 99, 46, 42, 123, 44, 98, 44, 99, 100, 125, 42], [98, 99, 46, 42, 123, 44, 98, 44, 99, 100, 125]] (some (.mk [] false none [.mk [98, 99, 46] false none [.mk [42] false none [.mk [123, 44, 98, 44, 99, 100, 125] false (some ([98, 99, 46, 42, 123, 44, 98, 44, 99, 100, 125], 1)) [.mk [42] false (some ([98, 99, 46, 42, 123, 44, 98, 44, 99, 100, 125, 42], 0)) []]]]]))
    [([98, 99, 46, 42, 123, 44, 98, 44, 99, 100, 125, 42], 0), ([98, 99, 46, 42, 123, 44, 98, 44, 99, 100, 125], 1)]
    [(0, [98, 99, 46, 42, 123, 44, 98, 44, 99, 100, 125, 42]), (1, [98, 99, 46, 42, 123, 44, 98, 44, 99, 100, 125])]
    [([98, 99, 46, 46, 100, 102], [[98, 99, 46, 42, 123, 44, 98, 44, 99, 100, 125], [98, 99, 46, 42, 123, 44, 98, 44, 99, 100, 125, 42]]), ([98, 99, 46], [[98, 99, 46, 42, 123, 44, 98, 44, 99, 100, 125], [98, 99, 46, 42, 123, 44, 98, 44, 99, 100, 125, 42]])] = true := by decide +kernel
/- tree_stringlist_test.go: a.*.{cd,b}*.e, a.*.{b,cd,b}*.e -/
example : treeRow [[97, 46, 42, 46, 123, 99, 100, 44, 98, 125, 42, 46, 101], [97, 46, 42, 46, 123, 98, 44, 99, 100, 44, 98, 125, 42, 46, 101]] (some (.mk [] false none [.mk [46, 101] true none [.mk [97, 46] false none [.mk [42] false none [.mk [46] false none [.mk [123, 98, 44, 99, 100, 125] false none [.mk [42] false (some ([97, 46, 42, 46, 123, 98, 44, 99, 100, 125, 42, 46, 101], 0)) []]]]]]]))
    [([97, 46, 42, 46, 123, 98, 44, 99, 100, 125, 42, 46, 101], 0), ([97, 46, 42, 46, 123, 99, 100, 44, 98, 125, 42, 46, 101], 0)]
    [(0, [97, 46, 42, 46, 123, 98, 44, 99, 100, 125, 42, 46, 101])]
    [([97, 46, 98, 46, 98, 99, 101, 46, 101], [[97, 46, 42, 46, 123, 98, 44, 99, 100, 125, 42, 46, 101]]), ([97, 46, 98, 46, 99, 100, 46, 101], [[97, 46, 42, 46, 123, 98, 44, 99, 100, 125, 42, 46, 101]]), ([97, 46, 68, 46, 98, 99, 101, 46, 101], [[97, 46, 42, 46, 123, 98, 44, 99, 100, 125, 42, 46, 101]]), ([97, 46, 68, 46, 100, 98, 99, 101, 46, 101], []), ([97, 46, 68, 46, 100, 99, 100, 46, 101], [])] = true := by decide +kernel
/- tree_stringlist_test.go: *{b,cd}*.df -/
example : treeRow [[42, 123, 98, 44, 99, 100, 125, 42, 46, 100, 102]] (some (.mk [] false none [.mk [46, 100, 102] true none [.mk [42] false none [.mk [123, 98, 44, 99, 100, 125] false none [.mk [42] false (some ([42, 123, 98, 44, 99, 100, 125, 42, 46, 100, 102], 0)) []]]]]))
    [([42, 123, 98, 44, 99, 100, 125, 42, 46, 100, 102], 0)]
    [(0, [42, 123, 98, 44, 99, 100, 125, 42, 46, 100, 102])]
    [([97, 46, 68, 46, 98, 99, 100, 46, 100, 102], [[42, 123, 98, 44, 99, 100, 125, 42, 46, 100, 102], [42, 123, 98, 44, 99, 100, 125, 42, 46, 100, 102]]), ([97, 46, 68, 46, 98, 46, 100, 102], [[42, 123, 98, 44, 99, 100, 125, 42, 46, 100, 102]])] = true := by decide +kernel
/- tree_stringlist_test.go: a.b*.{bc,c} -/
example : treeRow [[97, 46, 98, 42, 46, 123, 98, 99, 44, 99, 125]] (some (.mk [] false none [.mk [97, 46, 98] false none [.mk [42] false none [.mk [46] false none [.mk [123, 98, 99, 44, 99, 125] false (some ([97, 46, 98, 42, 46, 123, 98, 99, 44, 99, 125], 0)) []]]]]))
    [([97, 46, 98, 42, 46, 123, 98, 99, 44, 99, 125], 0)]
    [(0, [97, 46, 98, 42, 46, 123, 98, 99, 44, 99, 125])]
    [([97, 46, 98, 46, 98, 101, 100, 46, 98, 99], [[97, 46, 98, 42, 46, 123, 98, 99, 44, 99, 125]])] = true := by decide +kernel
/- tree_stringlist_test.go: bc.*{,b,cd}, bc.*{,b,cd}* -/
example : treeRow [[98, 99, 46, 42, 123, 44, 98, 44, 99, 100, 125], [98, 99, 46, 42, 123, 44, 98, 44, 99, 100, 125, 42]] none
    [([98, 99, 46, 42, 123, 44, 98, 44, 99, 100, 125], 0), ([98, 99, 46, 42, 123, 44, 98, 44, 99, 100, 125, 42], 1)]
    [(0, [98, 99, 46, 42, 123, 44, 98, 44, 99, 100, 125]), (1, [98, 99, 46, 42, 123, 44, 98, 44, 99, 100, 125, 42])]
    [([98, 99, 46, 99, 100, 46, 100, 102], [[98, 99, 46, 42, 123, 44, 98, 44, 99, 100, 125], [98, 99, 46, 42, 123, 44, 98, 44, 99, 100, 125, 42], [98, 99, 46, 42, 123, 44, 98, 44, 99, 100, 125, 42]])] = true := by decide +kernel
/- tree_stringlist_test.go: a.b.b*.{bc,c} -/
example : treeRow [[97, 46, 98, 46, 98, 42, 46, 123, 98, 99, 44, 99, 125]] none
    [([97, 46, 98, 46, 98, 42, 46, 123, 98, 99, 44, 99, 125], 0)]
    [(0, [97, 46, 98, 46, 98, 42, 46, 123, 98, 99, 44, 99, 125])]
    [([97, 46, 98, 46, 98, 46, 98, 101, 100, 46, 98, 99], [[97, 46, 98, 46, 98, 42, 46, 123, 98, 99, 44, 99, 125]]), ([97, 46, 98, 46, 98, 46, 98, 101, 100, 46, 99, 100], []), ([97, 46, 98, 46, 98, 46, 98, 101, 100, 46, 98, 99, 100], []), ([97, 46, 98, 46, 100, 46, 98, 99], [])] = true := by decide +kernel

end GoMatcher.Tests
