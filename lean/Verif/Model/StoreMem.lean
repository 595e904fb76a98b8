import Verif.Model.Store

/-! # Model of the memory of the match stores (`pkg/items/store.go:25-102`)

The list model of `Model/Store.lean` cannot tell `s.N[:0]` from `nil` and has no capacity,
so `Grow` would be the identity there.  Here a slice keeps its backing array. -/

namespace GoMatcher

/-- A Go slice: `arr` is its backing array (its length is the capacity), `len` the length of
the slice, and `gen` counts the arrays allocated for it so far, so that two headers of equal
`gen` share one array.  Every slice of the stores starts at the beginning of its array. -/
structure MemSlice (α : Type) where
  arr : List α
  len : Nat
  gen : Nat
  deriving DecidableEq, Repr

/-- The elements of the slice. -/
def MemSlice.val {α : Type} (s : MemSlice α) : List α := s.arr.take s.len

/-- `cap(s)`. -/
def MemSlice.cap {α : Type} (s : MemSlice α) : Nat := s.arr.length

/-- The `nil` slice, zero value of the fields at store.go:26,52. -/
def MemSlice.nil {α : Type} : MemSlice α := ⟨[], 0, 0⟩

/-- `Init` of the two list stores (store.go:33-37,59-63): `s = s[:0]`, the array stays. -/
def MemSlice.init {α : Type} (s : MemSlice α) : MemSlice α :=
  if s.len > 0 then { s with len := 0 } else s

/-- The builtin `copy(dst, src)` for two backing arrays: the first elements are overwritten
and the rest of `dst` stays. -/
def copyInto {α : Type} (dst src : List α) : List α :=
  src.take dst.length ++ dst.drop src.length

/-- `Grow` of the two list stores (store.go:39-45,65-71).  `zero` is the zero value that
`make` fills the new array with. -/
def MemSlice.grow {α : Type} (zero : α) (s : MemSlice α) (n : Int) : MemSlice α :=
  if n > (s.cap : Int) then
    ⟨copyInto (List.replicate n.toNat zero) s.val, s.len, s.gen + 1⟩
  else s

/-- The builtin `append(s, x)` (store.go:48,74).  Within the capacity it writes to the array;
else it allocates one.  The language leaves the new capacity open, so `room` (extra room for
a given length) is a parameter. -/
def MemSlice.append {α : Type} (zero : α) (room : Nat → Nat) (s : MemSlice α) (x : α) : MemSlice α :=
  if s.len < s.cap then { s with arr := s.arr.set s.len x, len := s.len + 1 }
  else ⟨s.val ++ [x] ++ List.replicate (room s.len) zero, s.len + 1, s.gen + 1⟩

/-- `AllStore` with its memory (store.go:77-81). -/
structure MemStore where
  min : MinStore
  index : MemSlice Int
  s : MemSlice Str
  deriving DecidableEq, Repr

/-- `NewAllStore` (store.go:83-85). -/
def MemStore.new : MemStore := ⟨⟨0⟩, .nil, .nil⟩

/-- `AllStore.Init` (store.go:87-91). -/
def MemStore.init (a : MemStore) : MemStore := ⟨a.min.init, a.index.init, a.s.init⟩

/-- `AllStore.Grow` (store.go:93-96). -/
def MemStore.grow (a : MemStore) (n : Int) : MemStore :=
  { a with index := a.index.grow 0 n, s := a.s.grow [] n }

/-- `AllStore.Store` (store.go:98-102); string first, then index, then minimum. -/
def MemStore.store (room : Nat → Nat) (a : MemStore) (q : Str) (index : Int) : MemStore :=
  ⟨a.min.store q index, a.index.append 0 room index, a.s.append [] room q⟩

/-- A call of one of the methods of `AllStore`. -/
inductive StoreOp where
  | init
  | grow (n : Int)
  | store (q : Str) (index : Int)
  deriving DecidableEq, Repr

/-- Effect of one call. -/
def MemStore.step (room : Nat → Nat) (a : MemStore) : StoreOp → MemStore
  | .init => a.init
  | .grow n => a.grow n
  | .store q i => a.store room q i

/-- Effect of a series of calls. -/
def MemStore.run (room : Nat → Nat) (a : MemStore) (ops : List StoreOp) : MemStore :=
  ops.foldl (MemStore.step room) a

end GoMatcher
