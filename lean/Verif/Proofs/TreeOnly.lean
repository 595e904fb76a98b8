import Verif.Proofs.TreeMono
import Verif.Proofs.GlobTreeHist

/-! # What a search in the batch tree can report -/

namespace GoMatcher

/-- All queries and indexes in the tree are of a kind. -/
inductive Tree.All (P : Str × Int → Prop) : Tree → Prop
  | mk {t : Tree} (h : ∀ e, t.term = some e → P e) (hc : ∀ c ∈ t.childs, Tree.All P c) : Tree.All P t

section
variable {P : Str × Int → Prop}

theorem Tree.All.term {t : Tree} (h : t.All P) : ∀ e, t.term = some e → P e := by cases h; assumption
theorem Tree.All.child {t : Tree} (h : t.All P) : ∀ c ∈ t.childs, c.All P := by cases h; assumption

/-- All reported pairs are of a kind. -/
def Only (P : Str × Int → Prop) (x : R Ev) : Prop := ∀ e, x = .ok e → ∀ z ∈ e.1, P z

theorem only_noEv : Only P noEv := by
  rintro _ ⟨⟩ _ ⟨⟩

theorem only_bind {α : Type} {x : R α} {f : α → R Ev} (h : ∀ a, x = .ok a → Only P (f a)) :
    Only P (x >>= f) := by
  intro e he
  obtain ⟨a, ha, hf⟩ := R.bind_eq_ok.1 he
  exact h a ha e hf

theorem only_addEv {a b : Ev} (ha : ∀ z ∈ a.1, P z) (hb : ∀ z ∈ b.1, P z) :
    ∀ z ∈ (addEv a b).1, P z := by
  intro z hz
  rcases List.mem_append.1 hz with hz | hz
  · exact ha z hz
  · exact hb z hz

theorem only_addR {a b : R Ev} (ha : Only P a) (hb : Only P b) : Only P (addR a b) := by
  refine only_bind fun x hx => only_bind fun y hy => ?_
  rintro _ ⟨⟩
  exact only_addEv (ha x hx) (hb y hy)

theorem only_whenEv {c : Prop} [Decidable c] {a : R Ev} (h : Only P a) : Only P (whenEv c a) := by
  unfold whenEv
  split
  · exact h
  · exact only_noEv

theorem only_storeFin {e : Option (Str × Int)} (h : ∀ x, e = some x → P x) :
    Only P (.ok (storeFin e)) := by
  rintro _ ⟨⟩ z hz
  cases e with
  | none => cases hz
  | some x =>
    rw [List.mem_singleton.1 hz]
    exact h x rfl

theorem only_panic : Only P .panic := by
  rintro _ ⟨⟩

theorem only_forChilds {k : Tree → R Ev} {cs : List Tree} (h : ∀ c ∈ cs, Only P (k c)) :
    Only P (forChilds k cs) := by
  induction cs with
  | nil => exact only_noEv
  | cons c cs ih => exact only_addR (h c (by simp)) (ih fun c hc => h c (by simp [hc]))

theorem only_groupEv {k : Item → R Ev} (h : ∀ c, Only P (k c)) (vs : List Item) :
    Only P (groupEv k vs) := by
  induction vs with
  | nil => exact only_noEv
  | cons c cs ih => exact only_addR (h c) ih

theorem only_listEv {s : Str} {k : Str → R Ev} (h : ∀ u, Only P (k u)) (vs : List Str) :
    Only P (listEv s k vs) := by
  induction vs with
  | nil => exact only_noEv
  | cons v vs ih =>
    simp only [listEv]
    split
    · exact only_addR (h _) ih
    · exact ih

theorem only_firstEv {s : Str} {k : Str → R Ev} (h : ∀ u, Only P (k u)) (vs : List Str) :
    Only P (firstEv s k vs) := by
  induction vs with
  | nil => exact only_noEv
  | cons v vs ih =>
    simp only [firstEv]
    split
    · exact h _
    · exact ih

theorem only_starListInnerEv {s : Str} {k : Str → R Ev} (h : ∀ u, Only P (k u))
    (vs : List Str) (off : Option Nat) (e : Ev × Option Nat)
    (he : starListInnerEv s k vs off = .ok e) : ∀ z ∈ e.1.1, P z := by
  induction vs generalizing off e with
  | nil => rw [starListInnerEv] at he; cases he; rintro _ ⟨⟩
  | cons v vs ih =>
    simp only [starListInnerEv] at he
    split at he
    · exact ih _ _ he
    · obtain ⟨a, ha, he⟩ := R.bind_eq_ok.1 he
      obtain ⟨b, hb, he⟩ := R.bind_eq_ok.1 he
      cases he
      exact only_addEv (h _ a ha) (ih _ _ hb)

theorem only_starListEv {k : Str → R Ev} (h : ∀ u, Only P (k u)) (vs : List Str)
    (fuel : Nat) (s : Str) (e : Ev × Str) (he : starListEv vs k fuel s = .ok e) :
    ∀ z ∈ e.1.1, P z := by
  induction fuel generalizing s e with
  | zero => simp [starListEv] at he
  | succ fuel ih =>
    simp only [starListEv] at he
    obtain ⟨a, ha, he⟩ := R.bind_eq_ok.1 he
    have h1 := only_starListInnerEv h vs none a ha
    split at he
    · cases he; exact h1
    · split at he
      · cases he; exact h1
      · obtain ⟨b, hb, he⟩ := R.bind_eq_ok.1 he
        cases he
        exact only_addEv h1 (ih _ _ hb)

theorem only_againEv {k : Str → R Ev} (h : ∀ u, Only P (k u)) (s : Str) : Only P (againEv k s) := by
  unfold againEv
  dsimp only
  split
  · exact only_noEv
  · exact h _

variable {M S : TMatcher} {I J : IMatcher} {L : Bool → TMatcher}

theorem only_next (hM : ∀ t s, t.All P → Only P (M t s)) {t : Tree} (ht : t.All P) (s : Str) : Only P (t.next M s) :=
  only_addR (only_whenEv (only_storeFin ht.term)) (only_forChilds (fun c hc => hM c s (ht.child c hc)))

theorem only_starNext (hS : ∀ t s, t.All P → Only P (S t s)) {t : Tree} (ht : t.All P) (s : Str) : Only P (t.starNext S s) :=
  only_addR (only_storeFin ht.term) (only_forChilds (fun c hc => hS c s (ht.child c hc)))

theorem only_treeMatchStep (hM : ∀ t s, t.All P → Only P (M t s)) (hS : ∀ t s, t.All P → Only P (S t s))
    (hI : ∀ t s l, t.All P → Only P (I t s l)) (t : Tree) (s : Str) (ht : t.All P) : Only P (t.matchStep M S I s) := by
  unfold Tree.matchStep
  split
  · exact only_noEv
  split
  · exact only_noEv
  · refine only_bind fun u _ => ?_
    unfold Tree.matchFlag
    split
    · exact only_next hM ht _
    · exact only_addR (only_whenEv (only_next hM ht _)) (only_listEv (fun _ => only_next hM ht _) _)
    · exact only_addR (only_whenEv (only_next hM ht _)) (only_groupEv (fun _ => hI _ _ _ ht) _)
    · split
      · exact only_storeFin ht.term
      · exact only_forChilds (fun c hc => hS c _ (ht.child c hc))
    · exact only_panic

theorem only_starStep (hM : ∀ t s, t.All P → Only P (M t s)) (hS : ∀ t s, t.All P → Only P (S t s))
    (hJ : ∀ t s l, t.All P → Only P (J t s l)) (hL : ∀ b t s, t.All P → Only P (L b t s)) (opt : Bool) (t : Tree) (s : Str) (ht : t.All P) :
    Only P (t.starStep M S J L opt s) := by
  unfold Tree.starStep
  split
  · exact only_noEv
  refine only_bind fun u _ => ?_
  split
  · exact only_noEv
  · refine only_bind fun u _ => ?_
    unfold Tree.starFlag
    split
    · refine only_bind fun v _ => only_addR ?_ (only_againEv (fun _ => hL _ _ _ ht) _)
      split
      · exact only_storeFin ht.term
      · exact only_forChilds (fun c hc => hM c _ (ht.child c hc))
    · refine only_addR (only_whenEv (only_starNext hS ht _)) ?_
      refine only_bind fun r hr => only_addR ?_ (only_againEv (fun _ => only_againEv (fun _ => hL _ _ _ ht) _) _)
      rintro _ ⟨⟩
      exact only_starListEv (fun _ => only_next hM ht _) _ _ _ _ hr
    · exact only_addR (only_whenEv (only_starNext hS ht _)) (only_groupEv (fun _ => hJ _ _ _ ht) _)
    · split
      · exact only_storeFin ht.term
      · exact only_forChilds (fun c hc => hS c _ (ht.child c hc))
    · exact only_panic

theorem only_itemsStep (hM : ∀ t s, t.All P → Only P (M t s)) (hS : ∀ t s, t.All P → Only P (S t s))
    (hI : ∀ t s l, t.All P → Only P (I t s l)) (hJ : ∀ t s l, t.All P → Only P (J t s l)) (t : Tree) (s : Str)
    (l : List Item) (ht : t.All P) : Only P (t.itemsStep M S I J s l) := by
  unfold Tree.itemsStep
  split
  · exact only_next hM ht _
  split
  · exact only_noEv
  split
  · exact only_noEv
  · refine only_bind fun u _ => ?_
    unfold Tree.itemsFlag
    split
    · exact hI _ _ _ ht
    · split
      · exact only_next hM ht _
      · refine only_addR (only_whenEv (hI _ _ _ ht)) ?_
        split
        · exact only_firstEv (fun _ => only_next hM ht _) _
        · exact only_listEv (fun _ => hI _ _ _ ht) _
    · split
      · exact only_next hM ht _
      · exact only_addR (only_whenEv (hI _ _ _ ht)) (only_groupEv (fun _ => hI _ _ _ ht) _)
    · split
      · exact only_starNext hS ht _
      · exact only_addR (hJ _ _ _ ht) (hI _ _ _ ht)
    · exact only_panic

theorem only_starItemsStep (hM : ∀ t s, t.All P → Only P (M t s)) (hS : ∀ t s, t.All P → Only P (S t s))
    (hI : ∀ t s l, t.All P → Only P (I t s l)) (hJ : ∀ t s l, t.All P → Only P (J t s l)) (t : Tree) (s : Str)
    (l : List Item) (ht : t.All P) : Only P (t.starItemsStep M S I J s l) := by
  unfold Tree.starItemsStep
  split
  · exact only_starNext hS ht _
  split
  · exact only_noEv
  refine only_bind fun u _ => ?_
  split
  · exact only_noEv
  · refine only_bind fun u _ => ?_
    unfold Tree.starItemsFlag
    split
    · exact only_bind fun v _ => only_addR (hI _ _ _ ht) (only_againEv (fun _ => hJ _ _ _ ht) _)
    · refine only_addR (only_whenEv ?_) ?_
      · split
        · exact only_starNext hS ht _
        · exact hJ _ _ _ ht
      · refine only_bind fun r hr => ?_
        rintro _ ⟨⟩
        refine only_starListEv (fun u => ?_) _ _ _ _ hr
        split
        · exact only_next hM ht _
        · exact hI _ _ _ ht
    · refine only_addR (only_whenEv ?_) (only_groupEv (fun _ => hJ _ _ _ ht) _)
      split
      · exact only_next hM ht _
      · exact hJ _ _ _ ht
    · split
      · exact only_starNext hS ht _
      · exact hJ _ _ _ ht
    · exact only_panic

theorem only_tree (fuel : Nat) :
    (∀ t s, t.All P → Only P (Tree.matchT fuel t s)) ∧ (∀ b t s, t.All P → Only P (Tree.starT fuel b t s)) ∧
    (∀ t s l, t.All P → Only P (Tree.itemsT fuel t s l)) ∧ (∀ t s l, t.All P → Only P (Tree.starItemsT fuel t s l)) := by
  induction fuel with
  | zero =>
    refine ⟨?_, ?_, ?_, ?_⟩
    · intro t s _ e h; rw [Tree.matchT] at h; cases h
    · intro b t s _ e h; rw [Tree.starT] at h; cases h
    · intro t s l _ e h; rw [Tree.itemsT] at h; cases h
    · intro t s l _ e h; rw [Tree.starItemsT] at h; cases h
  | succ n ih =>
    obtain ⟨hM, hS, hI, hJ⟩ := ih
    refine ⟨?_, ?_, ?_, ?_⟩
    · intro t s ht
      rw [Tree.matchT]
      exact only_treeMatchStep hM (hS true) hI t s ht
    · intro b t s ht
      rw [Tree.starT]
      exact only_starStep hM (hS true) hJ hS b t s ht
    · intro t s l ht
      rw [Tree.itemsT]
      exact only_itemsStep hM (hS true) hI hJ t s l ht
    · intro t s l ht
      rw [Tree.starItemsT]
      exact only_starItemsStep hM (hS true) hI hJ t s l ht

theorem only_matches (fuel : Nat) {t : Tree} (h : t.All P) (s : Str) : Only P (t.matches fuel s) := by
  unfold Tree.matches
  refine only_forChilds (fun c hc => ?_)
  have ht := h.child c hc
  split
  · unfold Tree.matchRev
    split
    · exact only_noEv
    refine only_bind fun u _ => ?_
    split
    · exact only_bind fun u _ => only_next (only_tree fuel).1 ht _
    · exact only_noEv
  · exact (only_tree fuel).1 _ _ ht

theorem insert_all {ps : List (Item × Bool)} {e : Str × Int} {t : Tree} (ht : t.All P) (he : P e) :
    (t.insert ps e).All P := by
  induction ps generalizing t with
  | nil =>
    obtain ⟨i, r, tm, cs⟩ := t
    refine .mk ?_ ht.child
    rintro _ ⟨⟩
    exact he
  | cons p ps ih =>
    obtain ⟨it, rev⟩ := p
    obtain ⟨i, r, tm, cs⟩ := t
    refine .mk ht.term ?_
    have key : ∀ cs : List Tree, (∀ c ∈ cs, c.All P) →
        ∀ c ∈ insertChild it rev (Tree.insert ps e) cs, c.All P := by
      intro cs
      induction cs with
      | nil =>
        intro _ c hc
        rw [insertChild, List.mem_singleton] at hc
        rw [hc]
        exact ih (.mk (by rintro _ ⟨⟩) (by rintro _ ⟨⟩))
      | cons x xs ihx =>
        intro hall c hc
        unfold insertChild at hc
        split at hc
        · rcases List.mem_cons.1 hc with rfl | hc
          · exact ih (hall x (by simp))
          · exact hall c (by simp [hc])
        · rcases List.mem_cons.1 hc with rfl | hc
          · exact hall c (by simp)
          · exact ihx (fun c hc => hall c (by simp [hc])) c hc
    exact key cs ht.child

end

end GoMatcher
