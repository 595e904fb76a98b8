import Verif.Proofs.TreeOnly
import Verif.Proofs.Steps

/-! # How often a search in the batch tree stores an index -/

namespace GoMatcher

/-- How often the index is stored. -/
def reps (i : Int) (l : Events) : Nat := l.countP fun e => decide (e.2 = i)

/-- If the search returns, it stores the index at most `n` times. -/
def AtMost (i : Int) (n : Nat) (x : R Ev) : Prop := ∀ e, x = .ok e → reps i e.1 ≤ n

section
variable {i : Int}

theorem reps_addEv (a b : Ev) : reps i (addEv a b).1 = reps i a.1 + reps i b.1 := List.countP_append

theorem atMost_mono {n m : Nat} {x : R Ev} (h : AtMost i n x) (hm : n ≤ m) : AtMost i m x :=
  fun e he => Nat.le_trans (h e he) hm

theorem atMost_noEv (n : Nat) : AtMost i n noEv := by
  rintro _ ⟨⟩
  exact Nat.zero_le n

theorem atMost_panic (n : Nat) : AtMost i n .panic := by
  rintro _ ⟨⟩

theorem atMost_bind {α : Type} {n : Nat} {x : R α} {f : α → R Ev}
    (h : ∀ a, x = .ok a → AtMost i n (f a)) : AtMost i n (x >>= f) := by
  intro e he
  obtain ⟨a, ha, hf⟩ := R.bind_eq_ok.1 he
  exact h a ha e hf

theorem atMost_addR {n m : Nat} {a b : R Ev} (ha : AtMost i n a) (hb : AtMost i m b) :
    AtMost i (n + m) (addR a b) := by
  intro e he
  obtain ⟨x, y, h1, h2, rfl⟩ := addEvR_ok.1 he
  rw [reps_addEv]
  exact Nat.add_le_add (ha x h1) (hb y h2)

theorem atMost_only {x : R Ev} (h : Only (fun e => e.2 ≠ i) x) : AtMost i 0 x := by
  intro e he
  unfold reps
  rw [Nat.le_zero, List.countP_eq_zero]
  intro z hz
  simpa using h e he z hz

theorem atMost_fin (t : Option (Str × Int)) : AtMost i 1 (.ok (storeFin t)) := by
  rintro _ ⟨⟩
  refine Nat.le_trans List.countP_le_length ?_
  cases t <;> simp [storeFin]

theorem atMost_fin_other {t : Option (Str × Int)} (h : ∀ e, t = some e → e.2 ≠ i) :
    AtMost i 0 (.ok (storeFin t)) :=
  atMost_only (only_storeFin h)

/-- The index occurs nowhere in the tree. -/
abbrev Tree.Quiet (i : Int) (t : Tree) : Prop := t.All fun e => e.2 ≠ i

/-- The index occurs in the tree at most at the end of the path, which starts below `t`. -/
inductive Tree.OnPath (i : Int) : List (Item × Bool) → Tree → Prop
  | here {t : Tree} (hc : ∀ c ∈ t.childs, c.Quiet i) : OnPath i [] t
  | child {t c : Tree} {l r : List Tree} {ps : List (Item × Bool)}
      (ht : ∀ e, t.term = some e → e.2 ≠ i) (hcs : t.childs = l ++ c :: r)
      (hl : ∀ x ∈ l, x.Quiet i) (hr : ∀ x ∈ r, x.Quiet i) (h : OnPath i ps c) :
      OnPath i ((c.item, c.rev) :: ps) t

theorem atMost_quiet {k : Tree → R Ev} (hq : ∀ c, c.Quiet i → AtMost i 0 (k c)) (cs : List Tree)
    (h : ∀ c ∈ cs, c.Quiet i) : AtMost i 0 (forChilds k cs) := by
  induction cs with
  | nil => exact atMost_noEv 0
  | cons c cs ih =>
    exact atMost_addR (hq c (h c (by simp))) (ih fun c hc => h c (by simp [hc]))

theorem atMost_split {k : Tree → R Ev} (hq : ∀ c, c.Quiet i → AtMost i 0 (k c)) {n : Nat} {c : Tree}
    (l r : List Tree) (hl : ∀ c ∈ l, c.Quiet i) (hr : ∀ c ∈ r, c.Quiet i) (hc : AtMost i n (k c)) :
    AtMost i n (forChilds k (l ++ c :: r)) := by
  induction l with
  | nil => exact atMost_addR (m := 0) hc (atMost_quiet hq r hr)
  | cons d l ih =>
    rw [List.cons_append, forChilds]
    have := atMost_addR (hq d (hl d (by simp))) (ih fun c hc => hl c (by simp [hc]))
    rwa [Nat.zero_add] at this

/-- The children of a node on the path. -/
theorem atMost_childs {k : Tree → R Ev} (hq : ∀ c, c.Quiet i → AtMost i 0 (k c)) {n : Nat} {t : Tree}
    {ps : List (Item × Bool)} (h : t.OnPath i ps)
    (hc : ∀ c qs, ps = (c.item, c.rev) :: qs → c.OnPath i qs → AtMost i n (k c)) :
    AtMost i n (forChilds k t.childs) := by
  cases h with
  | here h0 => exact atMost_mono (atMost_quiet hq _ h0) (Nat.zero_le n)
  | child _ hcs hl hr h =>
    rw [hcs]
    exact atMost_split hq _ _ hl hr (hc _ _ rfl h)

/-- Storing at a node on the path and looking at its children. -/
theorem atMost_next {M : TMatcher} {s : Str} (hq : ∀ c, c.Quiet i → AtMost i 0 (M c s)) {n : Nat}
    {t : Tree} {ps : List (Item × Bool)} (h : t.OnPath i ps) (h0 : ps = [] → s = [] → 1 ≤ n)
    (hc : ∀ c qs, ps = (c.item, c.rev) :: qs → c.OnPath i qs → AtMost i n (M c s)) :
    AtMost i n (t.next M s) := by
  unfold Tree.next
  cases h with
  | here hch =>
    refine atMost_addR (n := n) (m := 0) ?_ (atMost_quiet hq _ hch)
    unfold whenEv
    split
    · exact atMost_mono (atMost_fin _) (h0 rfl (by assumption))
    · exact atMost_noEv n
  | child ht hcs hl hr h =>
    have h1 : AtMost i 0 (whenEv (s = []) (.ok (storeFin t.term))) := by
      unfold whenEv
      split
      · exact atMost_fin_other ht
      · exact atMost_noEv 0
    have h2 : AtMost i n (forChilds (fun c => M c s) t.childs) := by
      rw [hcs]
      exact atMost_split hq _ _ hl hr (hc _ _ rfl h)
    have := atMost_addR h1 h2
    rwa [Nat.zero_add] at this

theorem quiet_matchT (fuel : Nat) {t : Tree} (h : t.Quiet i) (s : Str) :
    AtMost i 0 (Tree.matchT fuel t s) := atMost_only ((only_tree fuel).1 t s h)

theorem quiet_starT (fuel : Nat) (opt : Bool) {t : Tree} (h : t.Quiet i) (s : Str) :
    AtMost i 0 (Tree.starT fuel opt t s) := atMost_only ((only_tree fuel).2.1 opt t s h)

/-! ## Any bytes: a star only at the end -/

/-- Items without braces, a star only at the end. -/
def EndStar : List Item → Prop
  | [] => True
  | [it] => Solid it
  | it :: rest => Solid it ∧ (∀ n, it ≠ .star n) ∧ EndStar rest

theorem EndStar.head {it : Item} {rest : List Item} (h : EndStar (it :: rest)) : Solid it := by
  cases rest with
  | nil => exact h
  | cons => exact h.1

theorem EndStar.tail {it : Item} {rest : List Item} (h : EndStar (it :: rest)) : EndStar rest := by
  cases rest with
  | nil => trivial
  | cons => exact h.2.2

theorem EndStar.star {n : Nat} {rest : List Item} (h : EndStar (.star n :: rest)) : rest = [] := by
  cases rest with
  | nil => rfl
  | cons => exact absurd rfl (h.2.1 n)

theorem once_starLast (fuel : Nat) (s : Str) (t : Tree) (ps : List (Item × Bool)) (h : t.OnPath i ps)
    (hs : EndStar (t.item :: its ps)) : AtMost i 1 (Tree.matchT fuel t s) := by
  induction fuel generalizing s t ps with
  | zero => rintro _ ⟨⟩
  | succ fuel ih =>
    rw [Tree.matchT]
    unfold Tree.matchStep
    split
    · exact atMost_noEv 1
    split
    · exact atMost_noEv 1
    · rename_i off flag hm
      refine atMost_bind fun u _ => ?_
      by_cases hst : ∃ n, t.item = .star n
      · obtain ⟨n, hst⟩ := hst
        rw [hst] at hs hm
        have e := hs.star
        have e' : ps = [] := by cases ps with
          | nil => rfl
          | cons => cases e
        subst e'
        have hf : flag = .star := by
          simp only [Item.matchAt, Prod.mk.injEq] at hm
          exact hm.2.symm
        subst hf
        unfold Tree.matchFlag
        dsimp only
        split
        · exact atMost_fin _
        · cases h with
          | here hc => exact atMost_mono (atMost_quiet (fun c hc => quiet_starT fuel true hc u) _ hc) (Nat.zero_le 1)
      · have hf : flag = .done := by
          have := solid_matchAt hs.head (fun n e => hst ⟨n, e⟩) s
          rw [hm] at this
          exact this
        subst hf
        unfold Tree.matchFlag
        dsimp only
        refine atMost_next (fun c hc => quiet_matchT fuel hc u) h (fun _ _ => Nat.le_refl 1) ?_
        rintro c qs rfl hq
        exact ih u c qs hq (by simpa using hs.tail)

end

end GoMatcher
