import Verif.Model.GlobTree
import Verif.Proofs.MatchMono

/-! # `GlobTree.Match`: more fuel does not change an answer, and the counter counts -/

namespace GoMatcher

/-! ## Fuel -/

theorem R.Le.bind {α β : Type} {x y : R α} {f g : α → R β} (h : R.Le x y)
    (hf : ∀ a, R.Le (f a) (g a)) : R.Le (x >>= f) (y >>= g) := by
  cases x with
  | timeout => intro h; exact absurd rfl h
  | panic => rw [h (by simp)]; exact R.Le.refl _
  | ok a => rw [h (by simp), R.bind_ok, R.bind_ok]; exact hf a

def TMatcher.Le (M M' : TMatcher) : Prop := ∀ t s, R.Le (M t s) (M' t s)
def IMatcher.Le (I I' : IMatcher) : Prop := ∀ t s l, R.Le (I t s l) (I' t s l)

theorem le_addR {a a' b b' : R Ev} (ha : R.Le a a') (hb : R.Le b b') :
    R.Le (addR a b) (addR a' b') :=
  ha.bind fun _ => hb.bind fun _ => R.Le.refl _

theorem le_whenEv {c : Prop} [Decidable c] {a a' : R Ev} (h : R.Le a a') :
    R.Le (whenEv c a) (whenEv c a') := by
  unfold whenEv
  split
  · exact h
  · exact R.Le.refl _

theorem le_forChilds {k k' : Tree → R Ev} (h : ∀ c, R.Le (k c) (k' c)) (cs : List Tree) :
    R.Le (forChilds k cs) (forChilds k' cs) := by
  induction cs with
  | nil => exact R.Le.refl _
  | cons c cs ih => exact le_addR (h c) ih

theorem le_groupEv {k k' : Item → R Ev} (h : ∀ c, R.Le (k c) (k' c)) (vs : List Item) :
    R.Le (groupEv k vs) (groupEv k' vs) := by
  induction vs with
  | nil => exact R.Le.refl _
  | cons c cs ih => exact le_addR (h c) ih

theorem le_listEv {s : Str} {k k' : Str → R Ev} (h : ∀ u, R.Le (k u) (k' u)) (vs : List Str) :
    R.Le (listEv s k vs) (listEv s k' vs) := by
  induction vs with
  | nil => exact R.Le.refl _
  | cons v vs ih =>
    simp only [listEv]
    split
    · exact le_addR (h _) ih
    · exact ih

theorem le_firstEv {s : Str} {k k' : Str → R Ev} (h : ∀ u, R.Le (k u) (k' u)) (vs : List Str) :
    R.Le (firstEv s k vs) (firstEv s k' vs) := by
  induction vs with
  | nil => exact R.Le.refl _
  | cons v vs ih =>
    simp only [firstEv]
    split
    · exact h _
    · exact ih

theorem le_starListInnerEv {s : Str} {k k' : Str → R Ev} (h : ∀ u, R.Le (k u) (k' u))
    (vs : List Str) (off : Option Nat) :
    R.Le (starListInnerEv s k vs off) (starListInnerEv s k' vs off) := by
  induction vs generalizing off with
  | nil => exact R.Le.refl _
  | cons v vs ih =>
    simp only [starListInnerEv]
    split
    · exact ih _
    · exact (h _).bind fun _ => (ih _).bind fun _ => R.Le.refl _

theorem le_starListEv {k k' : Str → R Ev} (h : ∀ u, R.Le (k u) (k' u)) (vs : List Str)
    (fuel : Nat) (s : Str) : R.Le (starListEv vs k fuel s) (starListEv vs k' fuel s) := by
  induction fuel generalizing s with
  | zero => exact R.Le.refl _
  | succ fuel ih =>
    simp only [starListEv]
    refine (le_starListInnerEv h vs none).bind fun a => ?_
    split
    · exact R.Le.refl _
    · split
      · exact R.Le.refl _
      · exact (ih _).bind fun _ => R.Le.refl _

theorem le_againEv {k k' : Str → R Ev} (h : ∀ u, R.Le (k u) (k' u)) (s : Str) :
    R.Le (againEv k s) (againEv k' s) := by
  unfold againEv
  dsimp only
  split
  · exact R.Le.refl _
  · exact h _

section
variable {M M' S S' : TMatcher} {I I' J J' : IMatcher} {L L' : Bool → TMatcher}

theorem le_next (hM : M.Le M') (t : Tree) (s : Str) : R.Le (t.next M s) (t.next M' s) :=
  le_addR (R.Le.refl _) (le_forChilds (fun c => hM c s) _)

theorem le_starNext (hS : S.Le S') (t : Tree) (s : Str) :
    R.Le (t.starNext S s) (t.starNext S' s) :=
  le_addR (R.Le.refl _) (le_forChilds (fun c => hS c s) _)

theorem le_treeMatchStep (hM : M.Le M') (hS : S.Le S') (hI : I.Le I') :
    TMatcher.Le (fun t s => t.matchStep M S I s) (fun t s => t.matchStep M' S' I' s) := by
  intro t s
  dsimp only
  unfold Tree.matchStep
  split
  · exact R.Le.refl _
  split
  · exact R.Le.refl _
  · refine (R.Le.refl _).bind fun u => ?_
    unfold Tree.matchFlag
    split
    · exact le_next hM _ _
    · exact le_addR (le_whenEv (le_next hM _ _)) (le_listEv (fun _ => le_next hM _ _) _)
    · exact le_addR (le_whenEv (le_next hM _ _)) (le_groupEv (fun _ => hI _ _ _) _)
    · split
      · exact R.Le.refl _
      · exact le_forChilds (fun c => hS c _) _
    · exact R.Le.refl _

theorem le_starStep (hM : M.Le M') (hS : S.Le S') (hJ : J.Le J') (hL : ∀ b, (L b).Le (L' b))
    (opt : Bool) :
    TMatcher.Le (fun t s => t.starStep M S J L opt s) (fun t s => t.starStep M' S' J' L' opt s) := by
  intro t s
  dsimp only
  unfold Tree.starStep
  split
  · exact R.Le.refl _
  refine (R.Le.refl _).bind fun u => ?_
  split
  · exact R.Le.refl _
  · refine (R.Le.refl _).bind fun u => ?_
    unfold Tree.starFlag
    split
    · refine (R.Le.refl _).bind fun v => le_addR ?_ (le_againEv (fun _ => hL _ _ _) _)
      split
      · exact R.Le.refl _
      · exact le_forChilds (fun c => hM c _) _
    · refine le_addR (le_whenEv (le_starNext hS _ _)) ?_
      refine (le_starListEv (fun _ => le_next hM _ _) _ _ _).bind fun r => ?_
      exact le_addR (R.Le.refl _) (le_againEv (fun _ => le_againEv (fun _ => hL _ _ _) _) _)
    · exact le_addR (le_whenEv (le_starNext hS _ _)) (le_groupEv (fun _ => hJ _ _ _) _)
    · split
      · exact R.Le.refl _
      · exact le_forChilds (fun c => hS c _) _
    · exact R.Le.refl _

theorem le_itemsStep (hM : M.Le M') (hS : S.Le S') (hI : I.Le I') (hJ : J.Le J') :
    IMatcher.Le (fun t s l => t.itemsStep M S I J s l) (fun t s l => t.itemsStep M' S' I' J' s l) := by
  intro t s l
  dsimp only
  unfold Tree.itemsStep
  split
  · exact le_next hM _ _
  split
  · exact R.Le.refl _
  split
  · exact R.Le.refl _
  · refine (R.Le.refl _).bind fun u => ?_
    unfold Tree.itemsFlag
    split
    · exact hI _ _ _
    · split
      · exact le_next hM _ _
      · refine le_addR (le_whenEv (hI _ _ _)) ?_
        split
        · exact le_firstEv (fun _ => le_next hM _ _) _
        · exact le_listEv (fun _ => hI _ _ _) _
    · split
      · exact le_next hM _ _
      · exact le_addR (le_whenEv (hI _ _ _)) (le_groupEv (fun _ => hI _ _ _) _)
    · split
      · exact le_starNext hS _ _
      · exact le_addR (hJ _ _ _) (hI _ _ _)
    · exact R.Le.refl _

theorem le_starItemsStep (hM : M.Le M') (hS : S.Le S') (hI : I.Le I') (hJ : J.Le J') :
    IMatcher.Le (fun t s l => t.starItemsStep M S I J s l)
      (fun t s l => t.starItemsStep M' S' I' J' s l) := by
  intro t s l
  dsimp only
  unfold Tree.starItemsStep
  split
  · exact le_starNext hS _ _
  split
  · exact R.Le.refl _
  refine (R.Le.refl _).bind fun u => ?_
  split
  · exact R.Le.refl _
  · refine (R.Le.refl _).bind fun u => ?_
    unfold Tree.starItemsFlag
    split
    · exact (R.Le.refl _).bind fun v => le_addR (hI _ _ _) (le_againEv (fun _ => hJ _ _ _) _)
    · refine le_addR (le_whenEv ?_) ?_
      · split
        · exact le_starNext hS _ _
        · exact hJ _ _ _
      · refine (le_starListEv (fun u => ?_) _ _ _).bind fun r => R.Le.refl _
        split
        · exact le_next hM _ _
        · exact hI _ _ _
    · refine le_addR (le_whenEv ?_) (le_groupEv (fun _ => hJ _ _ _) _)
      split
      · exact le_next hM _ _
      · exact hJ _ _ _
    · split
      · exact le_starNext hS _ _
      · exact hJ _ _ _
    · exact R.Le.refl _

end

theorem tree_succ (fuel : Nat) :
    TMatcher.Le (Tree.matchT fuel) (Tree.matchT (fuel + 1)) ∧
    (∀ b, TMatcher.Le (Tree.starT fuel b) (Tree.starT (fuel + 1) b)) ∧
    IMatcher.Le (Tree.itemsT fuel) (Tree.itemsT (fuel + 1)) ∧
    IMatcher.Le (Tree.starItemsT fuel) (Tree.starItemsT (fuel + 1)) := by
  induction fuel with
  | zero =>
    refine ⟨?_, ?_, ?_, ?_⟩
    · intro t s h; exact absurd (by rw [Tree.matchT]) h
    · intro b t s h; exact absurd (by rw [Tree.starT]) h
    · intro t s l h; exact absurd (by rw [Tree.itemsT]) h
    · intro t s l h; exact absurd (by rw [Tree.starItemsT]) h
  | succ n ih =>
    obtain ⟨hM, hS, hI, hJ⟩ := ih
    refine ⟨?_, ?_, ?_, ?_⟩
    · intro t s
      rw [Tree.matchT, Tree.matchT]
      exact le_treeMatchStep hM (hS true) hI t s
    · intro b t s
      rw [Tree.starT, Tree.starT]
      exact le_starStep hM (hS true) hJ hS b t s
    · intro t s l
      rw [Tree.itemsT, Tree.itemsT]
      exact le_itemsStep hM (hS true) hI hJ t s l
    · intro t s l
      rw [Tree.starItemsT, Tree.starItemsT]
      exact le_starItemsStep hM (hS true) hI hJ t s l

theorem tree_matches_succ (fuel : Nat) (t : Tree) (s : Str) :
    R.Le (t.matches fuel s) (t.matches (fuel + 1) s) := by
  unfold Tree.matches
  refine le_forChilds (fun c => ?_) _
  split
  · unfold Tree.matchRev
    split
    · exact R.Le.refl _
    refine (R.Le.refl _).bind fun u => ?_
    split
    · exact (R.Le.refl _).bind fun u => le_next (tree_succ fuel).1 _ _
    · exact R.Le.refl _
  · exact (tree_succ fuel).1 _ _

/-- Two runs that end give the same answer. -/
theorem tree_matches_mono {f g : Nat} (h : f ≤ g) (t : Tree) (s : Str) :
    R.Le (t.matches f s) (t.matches g s) := by
  induction h with
  | refl => exact R.Le.refl _
  | step _ ih => exact ih.trans (tree_matches_succ _ _ _)

/-! ## The counter -/

/-- The counter is the number of calls of `Store`. -/
def Cnt (x : R Ev) : Prop := ∀ e, x = .ok e → e.2 = e.1.length

theorem cnt_noEv : Cnt noEv := by
  rintro _ ⟨⟩
  rfl

theorem cnt_bind {α : Type} {x : R α} {f : α → R Ev} (h : ∀ a, x = .ok a → Cnt (f a)) :
    Cnt (x >>= f) := by
  intro e he
  obtain ⟨a, ha, hf⟩ := R.bind_eq_ok.1 he
  exact h a ha e hf

theorem cnt_addEv {a b : Ev} (ha : a.2 = a.1.length) (hb : b.2 = b.1.length) :
    (addEv a b).2 = (addEv a b).1.length := by
  simp [addEv, ha, hb]

theorem cnt_addR {a b : R Ev} (ha : Cnt a) (hb : Cnt b) : Cnt (addR a b) := by
  refine cnt_bind fun x hx => cnt_bind fun y hy => ?_
  rintro _ ⟨⟩
  exact cnt_addEv (ha x hx) (hb y hy)

theorem cnt_whenEv {c : Prop} [Decidable c] {a : R Ev} (h : Cnt a) : Cnt (whenEv c a) := by
  unfold whenEv
  split
  · exact h
  · exact cnt_noEv

theorem cnt_storeFin (e : Option (Str × Int)) : Cnt (.ok (storeFin e)) := by
  rintro _ ⟨⟩
  cases e <;> rfl

theorem cnt_panic : Cnt .panic := by
  rintro _ ⟨⟩

theorem cnt_forChilds {k : Tree → R Ev} (h : ∀ c, Cnt (k c)) (cs : List Tree) :
    Cnt (forChilds k cs) := by
  induction cs with
  | nil => exact cnt_noEv
  | cons c cs ih => exact cnt_addR (h c) ih

theorem cnt_groupEv {k : Item → R Ev} (h : ∀ c, Cnt (k c)) (vs : List Item) :
    Cnt (groupEv k vs) := by
  induction vs with
  | nil => exact cnt_noEv
  | cons c cs ih => exact cnt_addR (h c) ih

theorem cnt_listEv {s : Str} {k : Str → R Ev} (h : ∀ u, Cnt (k u)) (vs : List Str) :
    Cnt (listEv s k vs) := by
  induction vs with
  | nil => exact cnt_noEv
  | cons v vs ih =>
    simp only [listEv]
    split
    · exact cnt_addR (h _) ih
    · exact ih

theorem cnt_firstEv {s : Str} {k : Str → R Ev} (h : ∀ u, Cnt (k u)) (vs : List Str) :
    Cnt (firstEv s k vs) := by
  induction vs with
  | nil => exact cnt_noEv
  | cons v vs ih =>
    simp only [firstEv]
    split
    · exact h _
    · exact ih

theorem cnt_starListInnerEv {s : Str} {k : Str → R Ev} (h : ∀ u, Cnt (k u))
    (vs : List Str) (off : Option Nat) (e : Ev × Option Nat)
    (he : starListInnerEv s k vs off = .ok e) : e.1.2 = e.1.1.length := by
  induction vs generalizing off e with
  | nil => rw [starListInnerEv] at he; cases he; rfl
  | cons v vs ih =>
    simp only [starListInnerEv] at he
    split at he
    · exact ih _ _ he
    · obtain ⟨a, ha, he⟩ := R.bind_eq_ok.1 he
      obtain ⟨b, hb, he⟩ := R.bind_eq_ok.1 he
      cases he
      exact cnt_addEv (h _ a ha) (ih _ _ hb)

theorem cnt_starListEv {k : Str → R Ev} (h : ∀ u, Cnt (k u)) (vs : List Str)
    (fuel : Nat) (s : Str) (e : Ev × Str) (he : starListEv vs k fuel s = .ok e) :
    e.1.2 = e.1.1.length := by
  induction fuel generalizing s e with
  | zero => simp [starListEv] at he
  | succ fuel ih =>
    simp only [starListEv] at he
    obtain ⟨a, ha, he⟩ := R.bind_eq_ok.1 he
    have h1 := cnt_starListInnerEv h vs none a ha
    split at he
    · cases he; exact h1
    · split at he
      · cases he; exact h1
      · obtain ⟨b, hb, he⟩ := R.bind_eq_ok.1 he
        cases he
        exact cnt_addEv h1 (ih _ _ hb)

theorem cnt_againEv {k : Str → R Ev} (h : ∀ u, Cnt (k u)) (s : Str) : Cnt (againEv k s) := by
  unfold againEv
  dsimp only
  split
  · exact cnt_noEv
  · exact h _

section
variable {M S : TMatcher} {I J : IMatcher} {L : Bool → TMatcher}

theorem cnt_next (hM : ∀ t s, Cnt (M t s)) (t : Tree) (s : Str) : Cnt (t.next M s) :=
  cnt_addR (cnt_whenEv (cnt_storeFin _)) (cnt_forChilds (fun c => hM c s) _)

theorem cnt_starNext (hS : ∀ t s, Cnt (S t s)) (t : Tree) (s : Str) : Cnt (t.starNext S s) :=
  cnt_addR (cnt_storeFin _) (cnt_forChilds (fun c => hS c s) _)

theorem cnt_treeMatchStep (hM : ∀ t s, Cnt (M t s)) (hS : ∀ t s, Cnt (S t s))
    (hI : ∀ t s l, Cnt (I t s l)) (t : Tree) (s : Str) : Cnt (t.matchStep M S I s) := by
  unfold Tree.matchStep
  split
  · exact cnt_noEv
  split
  · exact cnt_noEv
  · refine cnt_bind fun u _ => ?_
    unfold Tree.matchFlag
    split
    · exact cnt_next hM _ _
    · exact cnt_addR (cnt_whenEv (cnt_next hM _ _)) (cnt_listEv (fun _ => cnt_next hM _ _) _)
    · exact cnt_addR (cnt_whenEv (cnt_next hM _ _)) (cnt_groupEv (fun _ => hI _ _ _) _)
    · split
      · exact cnt_storeFin _
      · exact cnt_forChilds (fun c => hS c _) _
    · exact cnt_panic

theorem cnt_starStep (hM : ∀ t s, Cnt (M t s)) (hS : ∀ t s, Cnt (S t s))
    (hJ : ∀ t s l, Cnt (J t s l)) (hL : ∀ b t s, Cnt (L b t s)) (opt : Bool) (t : Tree) (s : Str) :
    Cnt (t.starStep M S J L opt s) := by
  unfold Tree.starStep
  split
  · exact cnt_noEv
  refine cnt_bind fun u _ => ?_
  split
  · exact cnt_noEv
  · refine cnt_bind fun u _ => ?_
    unfold Tree.starFlag
    split
    · refine cnt_bind fun v _ => cnt_addR ?_ (cnt_againEv (fun _ => hL _ _ _) _)
      split
      · exact cnt_storeFin _
      · exact cnt_forChilds (fun c => hM c _) _
    · refine cnt_addR (cnt_whenEv (cnt_starNext hS _ _)) ?_
      refine cnt_bind fun r hr => cnt_addR ?_ (cnt_againEv (fun _ => cnt_againEv (fun _ => hL _ _ _) _) _)
      rintro _ ⟨⟩
      exact cnt_starListEv (fun _ => cnt_next hM _ _) _ _ _ _ hr
    · exact cnt_addR (cnt_whenEv (cnt_starNext hS _ _)) (cnt_groupEv (fun _ => hJ _ _ _) _)
    · split
      · exact cnt_storeFin _
      · exact cnt_forChilds (fun c => hS c _) _
    · exact cnt_panic

theorem cnt_itemsStep (hM : ∀ t s, Cnt (M t s)) (hS : ∀ t s, Cnt (S t s))
    (hI : ∀ t s l, Cnt (I t s l)) (hJ : ∀ t s l, Cnt (J t s l)) (t : Tree) (s : Str)
    (l : List Item) : Cnt (t.itemsStep M S I J s l) := by
  unfold Tree.itemsStep
  split
  · exact cnt_next hM _ _
  split
  · exact cnt_noEv
  split
  · exact cnt_noEv
  · refine cnt_bind fun u _ => ?_
    unfold Tree.itemsFlag
    split
    · exact hI _ _ _
    · split
      · exact cnt_next hM _ _
      · refine cnt_addR (cnt_whenEv (hI _ _ _)) ?_
        split
        · exact cnt_firstEv (fun _ => cnt_next hM _ _) _
        · exact cnt_listEv (fun _ => hI _ _ _) _
    · split
      · exact cnt_next hM _ _
      · exact cnt_addR (cnt_whenEv (hI _ _ _)) (cnt_groupEv (fun _ => hI _ _ _) _)
    · split
      · exact cnt_starNext hS _ _
      · exact cnt_addR (hJ _ _ _) (hI _ _ _)
    · exact cnt_panic

theorem cnt_starItemsStep (hM : ∀ t s, Cnt (M t s)) (hS : ∀ t s, Cnt (S t s))
    (hI : ∀ t s l, Cnt (I t s l)) (hJ : ∀ t s l, Cnt (J t s l)) (t : Tree) (s : Str)
    (l : List Item) : Cnt (t.starItemsStep M S I J s l) := by
  unfold Tree.starItemsStep
  split
  · exact cnt_starNext hS _ _
  split
  · exact cnt_noEv
  refine cnt_bind fun u _ => ?_
  split
  · exact cnt_noEv
  · refine cnt_bind fun u _ => ?_
    unfold Tree.starItemsFlag
    split
    · exact cnt_bind fun v _ => cnt_addR (hI _ _ _) (cnt_againEv (fun _ => hJ _ _ _) _)
    · refine cnt_addR (cnt_whenEv ?_) ?_
      · split
        · exact cnt_starNext hS _ _
        · exact hJ _ _ _
      · refine cnt_bind fun r hr => ?_
        rintro _ ⟨⟩
        refine cnt_starListEv (fun u => ?_) _ _ _ _ hr
        split
        · exact cnt_next hM _ _
        · exact hI _ _ _
    · refine cnt_addR (cnt_whenEv ?_) (cnt_groupEv (fun _ => hJ _ _ _) _)
      split
      · exact cnt_next hM _ _
      · exact hJ _ _ _
    · split
      · exact cnt_starNext hS _ _
      · exact hJ _ _ _
    · exact cnt_panic

end

theorem cnt_tree (fuel : Nat) :
    (∀ t s, Cnt (Tree.matchT fuel t s)) ∧ (∀ b t s, Cnt (Tree.starT fuel b t s)) ∧
    (∀ t s l, Cnt (Tree.itemsT fuel t s l)) ∧ (∀ t s l, Cnt (Tree.starItemsT fuel t s l)) := by
  induction fuel with
  | zero =>
    refine ⟨?_, ?_, ?_, ?_⟩
    · intro t s e h; rw [Tree.matchT] at h; cases h
    · intro b t s e h; rw [Tree.starT] at h; cases h
    · intro t s l e h; rw [Tree.itemsT] at h; cases h
    · intro t s l e h; rw [Tree.starItemsT] at h; cases h
  | succ n ih =>
    obtain ⟨hM, hS, hI, hJ⟩ := ih
    refine ⟨?_, ?_, ?_, ?_⟩
    · intro t s
      rw [Tree.matchT]
      exact cnt_treeMatchStep hM (hS true) hI t s
    · intro b t s
      rw [Tree.starT]
      exact cnt_starStep hM (hS true) hJ hS b t s
    · intro t s l
      rw [Tree.itemsT]
      exact cnt_itemsStep hM (hS true) hI hJ t s l
    · intro t s l
      rw [Tree.starItemsT]
      exact cnt_starItemsStep hM (hS true) hI hJ t s l

theorem cnt_matches (fuel : Nat) (t : Tree) (s : Str) : Cnt (t.matches fuel s) := by
  unfold Tree.matches
  refine cnt_forChilds (fun c => ?_) _
  split
  · unfold Tree.matchRev
    split
    · exact cnt_noEv
    refine cnt_bind fun u _ => ?_
    split
    · exact cnt_bind fun u _ => cnt_next (cnt_tree fuel).1 _ _
    · exact cnt_noEv
  · exact (cnt_tree fuel).1 _ _

end GoMatcher
