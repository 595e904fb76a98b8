import Verif.Model.Store

/-! # C41: stores report the calls made on them -/

namespace GoMatcher
namespace C41

/-- Result of the calls `Store(q, i)` for the pairs of `calls`, in order. -/
def run (a : AllStore) (calls : List (Str × Int)) : AllStore :=
  calls.foldl (fun a c => a.store c.1 c.2) a

theorem run_s (a : AllStore) (calls : List (Str × Int)) :
    (run a calls).s.s = a.s.s ++ calls.map Prod.fst := by
  unfold run
  induction calls generalizing a with
  | nil => simp
  | cons c cs ih =>
    rw [List.foldl_cons, ih]
    simp [AllStore.store, StringStore.store]

theorem run_index (a : AllStore) (calls : List (Str × Int)) :
    (run a calls).index.n = a.index.n ++ calls.map Prod.snd := by
  unfold run
  induction calls generalizing a with
  | nil => simp
  | cons c cs ih =>
    rw [List.foldl_cons, ih]
    simp [AllStore.store, IndexStore.store]

theorem run_min (m : MinStore) (calls : List (Str × Int)) (hpos : ∀ c ∈ calls, 0 ≤ c.2) :
    let r := calls.foldl (fun m c => m.store c.1 c.2) m
    (calls = [] ∧ r = m) ∨
    (calls ≠ [] ∧ (∀ c ∈ calls, r.min ≤ c.2) ∧ (0 ≤ m.min → r.min ≤ m.min) ∧ 0 ≤ r.min ∧
      ((0 ≤ m.min ∧ r.min = m.min) ∨ ∃ c ∈ calls, r.min = c.2)) := by
  induction calls generalizing m with
  | nil => left; exact ⟨rfl, rfl⟩
  | cons c cs ih =>
    right
    have hc := hpos c (by simp)
    have hstep : (m.store c.1 c.2).min ≤ c.2 ∧ 0 ≤ (m.store c.1 c.2).min ∧
        (0 ≤ m.min → (m.store c.1 c.2).min ≤ m.min) ∧
        ((0 ≤ m.min ∧ (m.store c.1 c.2).min = m.min) ∨ (m.store c.1 c.2).min = c.2) := by
      unfold MinStore.store
      split
      · simp; omega
      · omega
    obtain ⟨s1, s2, s3, s4⟩ := hstep
    simp only [List.foldl_cons]
    rcases ih (m.store c.1 c.2) (fun x hx => hpos x (by simp [hx])) with ⟨h1, h2⟩ | ⟨h1, h2, h3, h4, h5⟩
    · subst h1
      simp only [List.foldl_nil] at h2 ⊢
      refine ⟨by simp, ?_, s3, s2, ?_⟩
      · intro x hx; simp at hx; subst hx; exact s1
      · rcases s4 with s4 | s4
        · exact Or.inl s4
        · exact Or.inr ⟨c, by simp, s4⟩
    · refine ⟨by simp, ?_, ?_, h4, ?_⟩
      · intro x hx
        rcases List.mem_cons.mp hx with rfl | hx
        · have := h3 s2; omega
        · exact h2 x hx
      · intro hm
        have := s3 hm
        have := h3 s2
        omega
      · rcases h5 with ⟨_, h5⟩ | ⟨x, hx, h5⟩
        · rcases s4 with ⟨a, b⟩ | s4
          · exact Or.inl ⟨a, by omega⟩
          · exact Or.inr ⟨c, by simp, by omega⟩
        · exact Or.inr ⟨x, by simp [hx], h5⟩

/-- After `Init` and any calls, `S` and `Index` list the calls in order. -/
theorem all_lists (a : AllStore) (calls : List (Str × Int)) :
    (run a.init calls).s.s = calls.map Prod.fst ∧
    (run a.init calls).index.n = calls.map Prod.snd := by
  constructor
  · rw [run_s]
    have : a.init.s.s = [] := by
      simp only [AllStore.init, StringStore.init]
      split
      · rfl
      · exact List.length_eq_zero_iff.mp (by omega)
    rw [this]; rfl
  · rw [run_index]
    have : a.init.index.n = [] := by
      simp only [AllStore.init, IndexStore.init]
      split
      · rfl
      · exact List.length_eq_zero_iff.mp (by omega)
    rw [this]; rfl

/-- After `Init` and calls with non-negative indexes, `Min` is the smallest index, or -1
when nothing was stored. -/
theorem all_min (a : AllStore) (calls : List (Str × Int)) (hpos : ∀ c ∈ calls, 0 ≤ c.2) :
    (calls = [] → (run a.init calls).min.min = -1) ∧
    (calls ≠ [] → (∃ c ∈ calls, (run a.init calls).min.min = c.2) ∧
      ∀ c ∈ calls, (run a.init calls).min.min ≤ c.2) := by
  have hrun : ∀ (a : AllStore), (run a calls).min = calls.foldl (fun m c => m.store c.1 c.2) a.min := by
    unfold run
    clear hpos
    induction calls with
    | nil => intro a; rfl
    | cons c cs ih => intro a; rw [List.foldl_cons, ih]; rfl
  rw [hrun]
  rcases run_min a.init.min calls hpos with ⟨h1, h2⟩ | ⟨h1, h2, h3, h4, h5⟩
  · refine ⟨fun _ => ?_, fun h => absurd h1 h⟩
    rw [h2]; rfl
  · refine ⟨fun h => absurd h h1, fun _ => ⟨?_, h2⟩⟩
    rcases h5 with ⟨h, _⟩ | h
    · exact absurd h (by simp [AllStore.init, MinStore.init])
    · exact h

/-- A store made by `NewMinStore` needs no `Init`. -/
theorem minStore_new (calls : List (Str × Int)) (hpos : ∀ c ∈ calls, 0 ≤ c.2) :
    (calls = [] → (calls.foldl (fun m c => m.store c.1 c.2) MinStore.new).min = -1) ∧
    (calls ≠ [] → (∃ c ∈ calls, (calls.foldl (fun m c => m.store c.1 c.2) MinStore.new).min = c.2) ∧
      ∀ c ∈ calls, (calls.foldl (fun m c => m.store c.1 c.2) MinStore.new).min ≤ c.2) := by
  rcases run_min MinStore.new calls hpos with ⟨h1, h2⟩ | ⟨h1, h2, h3, h4, h5⟩
  · exact ⟨fun _ => by rw [h2]; rfl, fun h => absurd h1 h⟩
  · refine ⟨fun h => absurd h h1, fun _ => ⟨?_, h2⟩⟩
    rcases h5 with ⟨h, _⟩ | h
    · exact absurd h (by decide)
    · exact h

/-- `Init` forgets everything: runs after it do not depend on what was stored before. -/
theorem init_forgets (a b : AllStore) (calls : List (Str × Int)) :
    run a.init calls = run b.init calls := by
  have : a.init = b.init := by
    simp only [AllStore.init, MinStore.init, IndexStore.init, StringStore.init, AllStore.mk.injEq,
      true_and]
    constructor
    · split <;> split <;> first | rfl | (apply congrArg; rw [eq_comm]; apply List.length_eq_zero_iff.mp; omega) | skip
      · have := List.length_eq_zero_iff.mp (show b.index.n.length = 0 by omega)
        cases hb : b.index; simp [hb] at this; simp [this]
      · have := List.length_eq_zero_iff.mp (show a.index.n.length = 0 by omega)
        cases ha : a.index; simp [ha] at this; simp [this]
      · have h1 := List.length_eq_zero_iff.mp (show b.index.n.length = 0 by omega)
        have h2 := List.length_eq_zero_iff.mp (show a.index.n.length = 0 by omega)
        cases hb : b.index; cases ha : a.index; simp [hb] at h1; simp [ha] at h2; simp [h1, h2]
    · split <;> split <;> first | rfl | skip
      · have := List.length_eq_zero_iff.mp (show b.s.s.length = 0 by omega)
        cases hb : b.s; simp [hb] at this; simp [this]
      · have := List.length_eq_zero_iff.mp (show a.s.s.length = 0 by omega)
        cases ha : a.s; simp [ha] at this; simp [this]
      · have h1 := List.length_eq_zero_iff.mp (show b.s.s.length = 0 by omega)
        have h2 := List.length_eq_zero_iff.mp (show a.s.s.length = 0 by omega)
        cases hb : b.s; cases ha : a.s; simp [hb] at h1; simp [ha] at h2; simp [h1, h2]
  rw [this]

/-- `NewAllStore` without `Init` reports 0 as minimum, whatever is stored. -/
theorem allStore_new_min_wrong :
    (run AllStore.new [(b! "a", 5), (b! "b", 7)]).min.min = 0 := by decide

example : (run AllStore.new.init [(b! "a", 5), (b! "b", 3), (b! "a", 4)]) =
    ⟨⟨3⟩, ⟨[5, 3, 4]⟩, ⟨[b! "a", b! "b", b! "a"]⟩⟩ := by decide

end C41
end GoMatcher
