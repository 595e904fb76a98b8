import Verif.Basic

/-! # Model of the match stores (`pkg/items/store.go:1-102`)

Here a Go slice is the list of its elements.  `Model/StoreMem.lean` models the same stores
with lengths, capacities and backing arrays, and with `Grow`. -/

namespace GoMatcher

/-- `MinStore` (store.go:7-9). -/
structure MinStore where
  min : Int
  deriving DecidableEq, Repr

/-- `NewMinStore` (store.go:11-13). -/
def MinStore.new : MinStore := ⟨-1⟩

/-- `MinStore.Init` (store.go:15-17). -/
def MinStore.init (_s : MinStore) : MinStore := ⟨-1⟩

/-- `MinStore.Store` (store.go:19-23). -/
def MinStore.store (s : MinStore) (_q : Str) (index : Int) : MinStore :=
  if s.min < 0 ∨ s.min > index then ⟨index⟩ else s

/-- `IndexStore` (store.go:25-27). -/
structure IndexStore where
  n : List Int
  deriving DecidableEq, Repr

/-- `IndexStore.Init` (store.go:33-37). -/
def IndexStore.init (s : IndexStore) : IndexStore := if s.n.length > 0 then ⟨[]⟩ else s

/-- `IndexStore.Store` (store.go:47-49). -/
def IndexStore.store (s : IndexStore) (_q : Str) (index : Int) : IndexStore := ⟨s.n ++ [index]⟩

/-- `StringStore` (store.go:51-53). -/
structure StringStore where
  s : List Str
  deriving DecidableEq, Repr

/-- `StringStore.Init` (store.go:59-63). -/
def StringStore.init (s : StringStore) : StringStore := if s.s.length > 0 then ⟨[]⟩ else s

/-- `StringStore.Store` (store.go:73-75). -/
def StringStore.store (s : StringStore) (q : Str) (_index : Int) : StringStore := ⟨s.s ++ [q]⟩

/-- `AllStore` (store.go:77-81). -/
structure AllStore where
  min : MinStore
  index : IndexStore
  s : StringStore
  deriving DecidableEq, Repr

/-- `NewAllStore` (store.go:83-85): all zero values, so `Min` is 0, not -1. -/
def AllStore.new : AllStore := ⟨⟨0⟩, ⟨[]⟩, ⟨[]⟩⟩

/-- `AllStore.Init` (store.go:87-91). -/
def AllStore.init (a : AllStore) : AllStore := ⟨a.min.init, a.index.init, a.s.init⟩

/-- `AllStore.Store` (store.go:98-102). -/
def AllStore.store (a : AllStore) (q : Str) (index : Int) : AllStore :=
  ⟨a.min.store q index, a.index.store q index, a.s.store q index⟩

end GoMatcher
