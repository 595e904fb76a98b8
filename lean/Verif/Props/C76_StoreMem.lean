import Verif.Model.StoreMem

/-! # C76: the memory of the match stores

`Grow` changes no answer, whatever calls are mixed; after `Grow(n)` the next calls of `Store`
allocate nothing until `n` elements are held; `Init` keeps the room.  The price of keeping the
room: a slice read before `Init` is overwritten by the calls after it. -/

namespace GoMatcher
namespace C76

/-- The calls of `Store` since the last `Init`. -/
def since : List StoreOp → List (Str × Int)
  | [] => []
  | .init :: ops => since ops
  | .grow _ :: ops => since ops
  | .store q i :: ops => if .init ∈ ops then since ops else (q, i) :: since ops

/-- A slice is well made when it fits its array. -/
def Fit {α : Type} (s : MemSlice α) : Prop := s.len ≤ s.arr.length

theorem val_length {α : Type} {s : MemSlice α} (h : Fit s) : s.val.length = s.len := by
  unfold MemSlice.val
  rw [List.length_take]
  exact Nat.min_eq_left h

theorem init_val {α : Type} (s : MemSlice α) : s.init.val = [] := by
  unfold MemSlice.init MemSlice.val
  split
  · simp
  · have : s.len = 0 := by omega
    simp [this]

theorem init_fit {α : Type} {s : MemSlice α} (h : Fit s) : Fit s.init := by
  unfold MemSlice.init Fit at *
  split
  · simp
  · exact h

theorem init_arr {α : Type} (s : MemSlice α) : s.init.arr = s.arr ∧ s.init.gen = s.gen := by
  unfold MemSlice.init
  split <;> exact ⟨rfl, rfl⟩

theorem grow_val {α : Type} (z : α) {s : MemSlice α} (h : Fit s) (n : Int) :
    (s.grow z n).val = s.val ∧ Fit (s.grow z n) ∧ (s.grow z n).len = s.len := by
  unfold MemSlice.grow
  split
  case isFalse => exact ⟨rfl, h, rfl⟩
  case isTrue hn =>
    have hv := val_length h
    have hle : s.val.length ≤ n.toNat := by
      rw [hv]; unfold MemSlice.cap at hn; unfold Fit at h; omega
    refine ⟨?_, ?_, rfl⟩
    · show (copyInto (List.replicate n.toNat z) s.val).take s.len = s.val
      unfold copyInto
      rw [List.length_replicate, List.take_of_length_le hle, List.take_append_of_le_length (by omega),
        List.take_of_length_le (by omega)]
    · show s.len ≤ (copyInto (List.replicate n.toNat z) s.val).length
      unfold copyInto
      simp only [List.length_append, List.length_take, List.length_drop, List.length_replicate]
      omega

theorem grow_cap {α : Type} (z : α) {s : MemSlice α} (h : Fit s) (n : Int) :
    n ≤ (s.grow z n).cap ∧ s.cap ≤ (s.grow z n).cap ∧
      (n ≤ s.cap → s.grow z n = s) := by
  unfold MemSlice.grow
  split
  case isFalse hn => exact ⟨by omega, Nat.le_refl _, fun _ => rfl⟩
  case isTrue hn =>
    have hl : (copyInto (List.replicate n.toNat z) s.val).length = n.toNat := by
      have hv := val_length h
      unfold copyInto
      simp only [List.length_append, List.length_take, List.length_drop, List.length_replicate]
      unfold MemSlice.cap at hn; unfold Fit at h
      omega
    refine ⟨?_, ?_, fun h => by omega⟩
    · show n ≤ ((copyInto (List.replicate n.toNat z) s.val).length : Int)
      omega
    · show s.cap ≤ (copyInto (List.replicate n.toNat z) s.val).length
      omega

theorem append_val {α : Type} (z : α) (room : Nat → Nat) {s : MemSlice α} (h : Fit s) (x : α) :
    (s.append z room x).val = s.val ++ [x] ∧ Fit (s.append z room x) ∧
      (s.append z room x).len = s.len + 1 := by
  have hv := val_length h
  unfold MemSlice.append
  split
  case isTrue hl =>
    unfold MemSlice.cap at hl
    refine ⟨?_, ?_, rfl⟩
    · show (s.arr.set s.len x).take (s.len + 1) = s.arr.take s.len ++ [x]
      rw [List.take_add_one]
      rw [List.take_set_of_le (Nat.le_refl _)]
      simp [hl]
    · show s.len + 1 ≤ (s.arr.set s.len x).length
      rw [List.length_set]; omega
  case isFalse hl =>
    refine ⟨?_, ?_, rfl⟩
    · show (s.val ++ [x] ++ List.replicate (room s.len) z).take (s.len + 1) = s.val ++ [x]
      rw [List.take_append_of_le_length (by simp [hv])]
      exact List.take_of_length_le (by simp [hv])
    · show s.len + 1 ≤ (s.val ++ [x] ++ List.replicate (room s.len) z).length
      simp only [List.length_append, List.length_cons, List.length_nil, hv]
      omega

theorem append_gen {α : Type} (z : α) (room : Nat → Nat) (s : MemSlice α) (x : α)
    (h : s.len < s.cap) : (s.append z room x).gen = s.gen ∧ (s.append z room x).cap = s.cap ∧
      (s.append z room x).len = s.len + 1 := by
  unfold MemSlice.append
  rw [if_pos h]
  exact ⟨rfl, by simp [MemSlice.cap], rfl⟩

/-- What a store can look like after `NewAllStore` and any calls. -/
def Made (room : Nat → Nat) (a : MemStore) : Prop := ∃ ops, a = MemStore.new.run room ops

theorem run_fit (room : Nat → Nat) (ops : List StoreOp) (a : MemStore)
    (h : Fit a.index ∧ Fit a.s) : Fit (a.run room ops).index ∧ Fit (a.run room ops).s := by
  unfold MemStore.run
  induction ops generalizing a with
  | nil => exact h
  | cons op ops ih =>
    rw [List.foldl_cons]
    apply ih
    cases op with
    | init => exact ⟨init_fit h.1, init_fit h.2⟩
    | grow n => exact ⟨(grow_val _ h.1 n).2.1, (grow_val _ h.2 n).2.1⟩
    | store q i => exact ⟨(append_val _ room h.1 i).2.1, (append_val _ room h.2 q).2.1⟩

theorem made_fit {room : Nat → Nat} {a : MemStore} (h : Made room a) : Fit a.index ∧ Fit a.s := by
  obtain ⟨ops, rfl⟩ := h
  exact run_fit room ops _ ⟨Nat.le_refl _, Nat.le_refl _⟩

theorem run_val (room : Nat → Nat) (ops : List StoreOp) (a : MemStore)
    (h : Fit a.index ∧ Fit a.s) :
    (a.run room ops).s.val = (if .init ∈ ops then [] else a.s.val) ++ (since ops).map Prod.fst ∧
    (a.run room ops).index.val =
      (if .init ∈ ops then [] else a.index.val) ++ (since ops).map Prod.snd := by
  induction ops generalizing a with
  | nil => simp [MemStore.run, since]
  | cons op ops ih =>
    have hf := run_fit room [op] a h
    have := ih (a.run room [op]) hf
    have e : a.run room (op :: ops) = (a.run room [op]).run room ops := by
      simp [MemStore.run]
    rw [e, this.1, this.2]
    cases op with
    | init =>
      have h1 : (a.run room [.init]).s.val = [] := init_val _
      have h2 : (a.run room [.init]).index.val = [] := init_val _
      simp [h1, h2, since]
    | grow n =>
      have h1 : (a.run room [.grow n]).s.val = a.s.val := (grow_val _ h.2 n).1
      have h2 : (a.run room [.grow n]).index.val = a.index.val := (grow_val _ h.1 n).1
      simp [h1, h2, since]
    | store q i =>
      have h1 : (a.run room [.store q i]).s.val = a.s.val ++ [q] := (append_val _ room h.2 q).1
      have h2 : (a.run room [.store q i]).index.val = a.index.val ++ [i] :=
        (append_val _ room h.1 i).1
      by_cases hi : StoreOp.init ∈ ops
      · simp [since, hi]
      · simp [since, hi, h1, h2]

/-- Whatever calls of `Init`, `Grow` and `Store` were made, and whatever room `append` takes,
the lists hold the calls of `Store` since the last `Init`, in order. -/
theorem lists (room : Nat → Nat) (ops : List StoreOp) :
    (MemStore.new.run room ops).s.val = (since ops).map Prod.fst ∧
    (MemStore.new.run room ops).index.val = (since ops).map Prod.snd := by
  have := run_val room ops MemStore.new ⟨Nat.le_refl _, Nat.le_refl _⟩
  rw [this.1, this.2]
  constructor <;> split <;> rfl

/-- The three parts of a store without its memory. -/
def forget (a : MemStore) : AllStore := ⟨a.min, ⟨a.index.val⟩, ⟨a.s.val⟩⟩

/-- One call on the list model of `Model/Store.lean`; `Grow` does nothing there. -/
def listStep (a : AllStore) : StoreOp → AllStore
  | .init => a.init
  | .grow _ => a
  | .store q i => a.store q i

/-- The list model of `Model/Store.lean`, which all the other properties use, gives the
contents of the stores with memory after any calls. -/
theorem agrees (room : Nat → Nat) (ops : List StoreOp) :
    forget (MemStore.new.run room ops) = ops.foldl listStep AllStore.new := by
  have key : ∀ (ops : List StoreOp) (a : MemStore), Fit a.index ∧ Fit a.s →
      forget (a.run room ops) = ops.foldl listStep (forget a) := by
    intro ops
    induction ops with
    | nil => intro a _; rfl
    | cons op ops ih =>
      intro a h
      have e : a.run room (op :: ops) = (a.run room [op]).run room ops := by
        simp [MemStore.run]
      rw [e, ih _ (run_fit room [op] a h), List.foldl_cons]
      congr 1
      cases op with
      | init =>
        have h1 : (a.run room [.init]).s.val = [] := init_val _
        have h2 : (a.run room [.init]).index.val = [] := init_val _
        have e1 : ∀ x : IndexStore, x.init = ⟨[]⟩ := by
          intro ⟨l⟩; cases l <;> simp [IndexStore.init]
        have e2 : ∀ x : StringStore, x.init = ⟨[]⟩ := by
          intro ⟨l⟩; cases l <;> simp [StringStore.init]
        have e3 : listStep (forget a) .init = ⟨a.min.init, ⟨[]⟩, ⟨[]⟩⟩ := by
          show (⟨(forget a).min.init, (forget a).index.init, (forget a).s.init⟩ : AllStore) = _
          rw [e1, e2]
          rfl
        rw [e3]
        unfold forget
        rw [h1, h2]
        rfl
      | grow n =>
        have h1 : (a.run room [.grow n]).s.val = a.s.val := (grow_val _ h.2 n).1
        have h2 : (a.run room [.grow n]).index.val = a.index.val := (grow_val _ h.1 n).1
        simp only [forget, listStep, h1, h2]
        rfl
      | store q i =>
        have h1 : (a.run room [.store q i]).s.val = a.s.val ++ [q] := (append_val _ room h.2 q).1
        have h2 : (a.run room [.store q i]).index.val = a.index.val ++ [i] :=
          (append_val _ room h.1 i).1
        simp only [forget, listStep, h1, h2, AllStore.store, IndexStore.store, StringStore.store]
        rfl
  exact key ops _ ⟨Nat.le_refl _, Nat.le_refl _⟩

/-- `Store` calls for the pairs of `calls`. -/
def stores (calls : List (Str × Int)) : List StoreOp := calls.map fun c => .store c.1 c.2

theorem stores_gen (room : Nat → Nat) (calls : List (Str × Int)) (a : MemStore)
    (h1 : a.index.len + calls.length ≤ a.index.cap) (h2 : a.s.len + calls.length ≤ a.s.cap) :
    (a.run room (stores calls)).index.gen = a.index.gen ∧
    (a.run room (stores calls)).s.gen = a.s.gen := by
  induction calls generalizing a with
  | nil => exact ⟨rfl, rfl⟩
  | cons c cs ih =>
    have e : a.run room (stores (c :: cs)) = (a.store room c.1 c.2).run room (stores cs) := by
      simp [MemStore.run, stores, MemStore.step]
    have g1 := append_gen 0 room a.index c.2 (by simp at h1; omega)
    have g2 := append_gen [] room a.s c.1 (by simp at h2; omega)
    have := ih (a.store room c.1 c.2)
      (by simp only [List.length_cons] at h1; show (a.index.append 0 room c.2).len + cs.length ≤ (a.index.append 0 room c.2).cap
          omega)
      (by simp only [List.length_cons] at h2; show (a.s.append [] room c.1).len + cs.length ≤ (a.s.append [] room c.1).cap
          omega)
    rw [e, this.1, this.2]
    exact ⟨g1.1, g2.1⟩

/-- After `Grow(n)` on any store, `Store` allocates nothing until `n` elements are held. -/
theorem grow_reserves (room : Nat → Nat) {a : MemStore} (ha : Made room a) (n : Nat)
    (calls : List (Str × Int)) (h1 : a.index.val.length + calls.length ≤ n)
    (h2 : a.s.val.length + calls.length ≤ n) :
    ((a.grow n).run room (stores calls)).index.gen = (a.grow n).index.gen ∧
    ((a.grow n).run room (stores calls)).s.gen = (a.grow n).s.gen := by
  obtain ⟨f1, f2⟩ := made_fit ha
  rw [val_length f1] at h1
  rw [val_length f2] at h2
  have c1 := (grow_cap 0 f1 n).1
  have c2 := (grow_cap ([] : Str) f2 n).1
  have l1 := (grow_val 0 f1 n).2.2
  have l2 := (grow_val ([] : Str) f2 n).2.2
  apply stores_gen
  · show (a.index.grow 0 n).len + calls.length ≤ (a.index.grow 0 n).cap
    omega
  · show (a.s.grow [] n).len + calls.length ≤ (a.s.grow [] n).cap
    omega

/-- `Grow` never takes room away, and takes none when there is enough: the second of two calls
with the same or a smaller number allocates nothing, nor does a negative number. -/
theorem grow_again (room : Nat → Nat) {a : MemStore} (ha : Made room a) (n m : Int) (h : m ≤ n) :
    (a.grow n).grow m = a.grow n ∧ a.index.cap ≤ (a.grow n).index.cap ∧
      a.s.cap ≤ (a.grow n).s.cap ∧ (n ≤ 0 → a.grow n = a) := by
  obtain ⟨f1, f2⟩ := made_fit ha
  have c1 := grow_cap 0 f1 n
  have c2 := grow_cap ([] : Str) f2 n
  have d1 := (grow_cap 0 (grow_val 0 f1 n).2.1 m).2.2 (by have := c1.1; omega)
  have d2 := (grow_cap ([] : Str) (grow_val [] f2 n).2.1 m).2.2 (by have := c2.1; omega)
  refine ⟨?_, c1.2.1, c2.2.1, fun hn => ?_⟩
  · unfold MemStore.grow
    simp only [d1, d2]
  · unfold MemStore.grow
    rw [c1.2.2 (by omega), c2.2.2 (by omega)]

/-- `Init` keeps the room: as many calls as were made before it allocate nothing after it.
Repeating the same match on one store therefore allocates only the first time. -/
theorem init_reuses (room : Nat → Nat) {a : MemStore} (ha : Made room a)
    (calls : List (Str × Int)) (h1 : calls.length ≤ a.index.val.length)
    (h2 : calls.length ≤ a.s.val.length) :
    (a.init.run room (stores calls)).index.gen = a.index.gen ∧
    (a.init.run room (stores calls)).s.gen = a.s.gen := by
  obtain ⟨f1, f2⟩ := made_fit ha
  rw [val_length f1] at h1
  rw [val_length f2] at h2
  have z1 : a.index.init.len = 0 := by unfold MemSlice.init; split <;> first | rfl | omega
  have z2 : a.s.init.len = 0 := by unfold MemSlice.init; split <;> first | rfl | omega
  have g := stores_gen room calls a.init
    (by show a.index.init.len + calls.length ≤ a.index.init.arr.length
        rw [(init_arr a.index).1]; unfold Fit at f1; omega)
    (by show a.s.init.len + calls.length ≤ a.s.init.arr.length
        rw [(init_arr a.s).1]; unfold Fit at f2; omega)
  rw [g.1, g.2]
  exact ⟨(init_arr a.index).2, (init_arr a.s).2⟩

/-- Reading a header `old` taken from the slice before: as long as no array was allocated since,
it reads the present array. -/
def reads {α : Type} (old now : MemSlice α) : List α :=
  if old.gen = now.gen then now.arr.take old.len else old.val

/-- A header taken before further calls of `Store` (without `Init`) still reads what it
read. -/
theorem header_kept (room : Nat → Nat) {a : MemStore} (ha : Made room a)
    (calls : List (Str × Int)) :
    reads a.s (a.run room (stores calls)).s = a.s.val ∧
    reads a.index (a.run room (stores calls)).index = a.index.val := by
  obtain ⟨f1, f2⟩ := made_fit ha
  have hr := run_val room (stores calls) a ⟨f1, f2⟩
  have hi : StoreOp.init ∉ stores calls := by simp [stores]
  rw [if_neg hi, if_neg hi] at hr
  have key : ∀ {α : Type} (x y : MemSlice α) (l : List α), Fit x → y.val = x.val ++ l →
      reads x y = x.val := by
    intro α x y l hx hy
    unfold reads
    split
    · have hlen : x.len ≤ y.len := by
        have := congrArg List.length hy
        rw [List.length_append, val_length hx] at this
        have : y.val.length ≤ y.len := by unfold MemSlice.val; rw [List.length_take]; omega
        omega
      have : y.arr.take x.len = (y.val).take x.len := by
        unfold MemSlice.val
        rw [List.take_take, Nat.min_eq_left hlen]
      rw [this, hy, List.take_append_of_le_length (by rw [val_length hx]; omega),
        List.take_of_length_le (by rw [val_length hx]; omega)]
    · rfl
  exact ⟨key _ _ _ f2 hr.1, key _ _ _ f1 hr.2⟩

/-- After `Init` it does not: the slice of queries read from a store changes when the store is
used for the next match. -/
theorem header_kept_init_wrong : ∃ (ops : List StoreOp) (calls : List (Str × Int)),
    (∀ room, (MemStore.new.run room ops).s.val = [b! "a", b! "b"]) ∧
    ∀ room, reads (MemStore.new.run room ops).s
      (((MemStore.new.run room ops).init).run room (stores calls)).s = [b! "c", b! "b"] := by
  refine ⟨[.grow 2, .store (b! "a") 0, .store (b! "b") 1], [(b! "c", 2)], fun room => ?_, fun room => ?_⟩
  · rw [(lists room _).1]; rfl
  · rfl

example : (MemStore.new.run (fun _ => 3)
    [.store (b! "a") 5, .grow 2, .grow 9, .store (b! "b") 3, .init, .grow (-1), .store (b! "c") 4]) =
    ⟨⟨4⟩, ⟨[4, 3, 0, 0, 0, 0, 0, 0, 0], 1, 2⟩, ⟨[b! "c", b! "b", [], [], [], [], [], [], []], 1, 2⟩⟩ := by
  decide

example : Made (fun _ => 0) (MemStore.new.store (fun _ => 0) (b! "a") 5) := ⟨[.store (b! "a") 5], rfl⟩

/-- Hypotheses of `grow_reserves`: one element held, three more fit in four. -/
example : let a := MemStore.new.store (fun _ => 0) (b! "a") 5
    a.index.val.length + 3 ≤ 4 ∧ (a.grow 4).index.gen = 2 ∧
    ((a.grow 4).run (fun _ => 0) (stores [(b! "b", 1), (b! "c", 2), (b! "d", 3)])).index.gen = 2 ∧
    ((a.grow 4).run (fun _ => 0) (stores [(b! "b", 1), (b! "c", 2), (b! "d", 3), (b! "e", 4)])).index.gen = 3 := by
  decide

end C76
end GoMatcher
