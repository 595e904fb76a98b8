import Verif.Proofs.TreeOrder

/-! # Searches in trees that differ only in the order of children -/

namespace GoMatcher

open Tree

theorem agree_move (k : Tree → R Ev) (l1 l2 : List Tree) (c : Tree) :
    Agree (forChilds k (l1 ++ c :: l2)) (addR (k c) (forChilds k (l1 ++ l2))) := by
  induction l1 with
  | nil => exact Agree.refl _
  | cons x xs ih =>
    simp only [List.cons_append, forChilds]
    exact (agree_addR (Agree.refl _) ih).trans (agree_swap _ _ _)

/-- The loop over the children. -/
theorem agree_forChilds {k k' : Tree → R Ev} {cs cs' : List Tree}
    (hd : cs.Pairwise fun c d => c.key ≠ d.key) (hd' : cs'.Pairwise fun c d => c.key ≠ d.key)
    (hc : ∀ K, (∃ c ∈ cs, c.key = K) ↔ ∃ c ∈ cs', c.key = K)
    (h : ∀ c ∈ cs, ∀ c' ∈ cs', c.key = c'.key → Agree (k c) (k' c')) :
    Agree (forChilds k cs) (forChilds k' cs') := by
  induction cs generalizing cs' with
  | nil =>
    cases cs' with
    | nil => exact Agree.refl _
    | cons c' cs' =>
      obtain ⟨c, hc, _⟩ := (hc c'.key).2 ⟨c', by simp, rfl⟩
      cases hc
  | cons c cs ih =>
    obtain ⟨c', hc', e⟩ := (hc c.key).1 ⟨c, by simp, rfl⟩
    obtain ⟨l1, l2, rfl⟩ := List.append_of_mem hc'
    refine Agree.trans ?_ (agree_move k' l1 l2 c').symm
    rw [forChilds]
    cases hd with
    | cons h1 h2 =>
      have hp : (l1 ++ c' :: l2).Perm (c' :: (l1 ++ l2)) := List.perm_middle
      have hd2 : (c' :: (l1 ++ l2)).Pairwise fun c d => c.key ≠ d.key :=
        (hp.pairwise_iff (fun h e => h e.symm)).1 hd'
      cases hd2 with
      | cons h3 h4 =>
        refine agree_addR (h c (by simp) c' hc' e.symm) (ih h2 h4 ?_ ?_)
        · intro K
          constructor
          · rintro ⟨x, hx, rfl⟩
            obtain ⟨y, hy, ey⟩ := (hc x.key).1 ⟨x, by simp [hx], rfl⟩
            rcases List.mem_cons.1 (hp.mem_iff.1 hy) with rfl | hy
            · exact absurd (e.symm.trans ey) (h1 x hx)
            · exact ⟨y, hy, ey⟩
          · rintro ⟨y, hy, rfl⟩
            obtain ⟨x, hx, ex⟩ := (hc y.key).2 ⟨y, hp.mem_iff.2 (by simp [hy]), rfl⟩
            rcases List.mem_cons.1 hx with rfl | hx
            · exact absurd (e.trans ex) (h3 y hy)
            · exact ⟨x, hx, ex⟩
        · intro x hx y hy exy
          exact h x (by simp [hx]) y (hp.mem_iff.2 (List.mem_cons_of_mem _ hy)) exy

/-- Related trees. -/
structure TRel (t t' : Tree) : Prop where
  neat : t.Neat
  neat' : t'.Neat
  eqv : t.Eqv t'

theorem TRel.item {t t' : Tree} (h : TRel t t') : t.item.bare = t'.item.bare := by
  cases h.eqv with
  | mk hk => exact congrArg Prod.fst hk

theorem TRel.rev {t t' : Tree} (h : TRel t t') : t.rev = t'.rev := by
  cases h.eqv with
  | mk hk => exact congrArg Prod.snd hk

theorem TRel.term {t t' : Tree} (h : TRel t t') : t.term = t'.term := by
  cases h.eqv with
  | mk _ ht => exact ht

theorem TRel.childs {t t' : Tree} (h : TRel t t') :
    t.childs.length = 0 ↔ t'.childs.length = 0 := by
  cases h.eqv with
  | mk _ _ hc _ =>
    have key : ∀ cs cs' : List Tree, (∀ K, (∃ c ∈ cs, c.key = K) → ∃ c ∈ cs', c.key = K) →
        cs'.length = 0 → cs.length = 0 := by
      intro cs cs' hc h0
      cases cs with
      | nil => rfl
      | cons c cs =>
        obtain ⟨c', hm, _⟩ := hc c.key ⟨c, by simp, rfl⟩
        rw [List.length_eq_zero_iff.1 h0] at hm
        cases hm
    exact ⟨key _ _ (fun K => (hc K).2), key _ _ (fun K => (hc K).1)⟩

def TMatcher.Cong (M : TMatcher) : Prop := ∀ t t' s, TRel t t' → Agree (M t s) (M t' s)
def IMatcher.Cong (I : IMatcher) : Prop := ∀ t t' s xs ys, TRel t t' →
  xs.map Item.bare = ys.map Item.bare → Agree (I t s xs) (I t' s ys)

theorem TRel.forChilds {t t' : Tree} (h : TRel t t') {M : TMatcher} (hM : M.Cong) (s : Str) :
    Agree (forChilds (fun c => M c s) t.childs) (forChilds (fun c => M c s) t'.childs) := by
  obtain ⟨h1, h2, h3⟩ := h
  cases h1 with
  | mk hd hs hn =>
    cases h2 with
    | mk hd' hs' hn' =>
      cases h3 with
      | mk _ _ hc he =>
        exact agree_forChilds hd hd' hc
          fun c hc c' hc' e => hM c c' s ⟨hn c hc, hn' c' hc', he c hc c' hc' e⟩

section
variable {M S : TMatcher} {I J : IMatcher} {L : Bool → TMatcher}

theorem agree_next (hM : M.Cong) {t t' : Tree} (h : TRel t t') (s : Str) :
    Agree (t.next M s) (t'.next M s) := by
  unfold Tree.next
  rw [h.term]
  exact agree_addR (Agree.refl _) (h.forChilds hM s)

theorem agree_starNext (hS : S.Cong) {t t' : Tree} (h : TRel t t') (s : Str) :
    Agree (t.starNext S s) (t'.starNext S s) := by
  unfold Tree.starNext
  rw [h.term]
  exact agree_addR (Agree.refl _) (h.forChilds hS s)

theorem agree_matchStep (hM : M.Cong) (hS : S.Cong) (hI : I.Cong) :
    TMatcher.Cong (fun t s => t.matchStep M S I s) := by
  intro t t' s h
  dsimp only
  unfold Tree.matchStep
  have hb := h.item
  have hl : t.item.minLen = t'.item.minLen := by
    rw [← Item.bare_minLen t.item, hb, Item.bare_minLen]
  rw [hl, Item.bare_matchAt hb]
  split
  · exact Agree.refl _
  split
  · exact Agree.refl _
  · rename_i flag _
    refine AgreeBy.bindEq _ fun u => ?_
    have star : Agree (if t.childs.length = 0 then .ok (storeFin t.term)
          else forChilds (fun c => S c u) t.childs)
        (if t'.childs.length = 0 then .ok (storeFin t'.term)
          else forChilds (fun c => S c u) t'.childs) := by
      by_cases h0 : t.childs.length = 0
      · rw [if_pos h0, if_pos (h.childs.1 h0), h.term]; exact Agree.refl _
      · rw [if_neg h0, if_neg (fun x => h0 (h.childs.2 x))]; exact h.forChilds hS u
    unfold Tree.matchFlag
    generalize hx : t.item = x at hb
    generalize hy : t'.item = y at hb
    cases flag with
    | done => exact agree_next hM h u
    | star => exact star
    | list =>
      cases Item.alike_of_bare hb with
      | refl =>
        cases x with
        | list l =>
          exact agree_addR (agree_whenEv Iff.rfl (agree_next hM h u))
            (agree_listEv (fun v => agree_next hM h v) _)
        | _ => exact Agree.refl _
      | list h1 h2 =>
        dsimp only
        rw [h1, h2]
        exact agree_addR (agree_whenEv Iff.rfl (agree_next hM h u))
          (agree_listEv (fun v => agree_next hM h v) _)
      | _ => exact Agree.refl _
    | group =>
      cases Item.alike_of_bare hb with
      | refl =>
        cases x with
        | group vals mn mx =>
          exact agree_addR (agree_whenEv Iff.rfl (agree_next hM h u))
            (agree_groupEv rfl fun v w e => hI _ _ _ _ _ h (Item.bare_groupItems e))
        | _ => exact Agree.refl _
      | group h1 =>
        exact agree_addR (agree_whenEv Iff.rfl (agree_next hM h u))
            (agree_groupEv h1 fun v w e => hI _ _ _ _ _ h (Item.bare_groupItems e))
      | _ => exact Agree.refl _
    | notSupported => exact Agree.refl _
    | forwarded => exact Agree.refl _
    | chain => exact Agree.refl _

theorem agree_starStep (hM : M.Cong) (hS : S.Cong) (hJ : J.Cong) (hL : ∀ b, (L b).Cong)
    (opt : Bool) : TMatcher.Cong (fun t s => t.starStep M S J L opt s) := by
  intro t t' s h
  dsimp only
  unfold Tree.starStep
  have hb := h.item
  have hl : t.item.minLen = t'.item.minLen := by
    rw [← Item.bare_minLen t.item, hb, Item.bare_minLen]
  rw [hl, Item.bare_find _ _ hb]
  split
  · exact Agree.refl _
  refine AgreeBy.bindEq _ fun p => ?_
  split
  · exact Agree.refl _
  · rename_i length flag
    refine AgreeBy.bindEq _ fun u => ?_
    have star : Agree (if t.childs.length = 0 ∧ t.term.isSome then .ok (storeFin t.term)
          else forChilds (fun c => S c u) t.childs)
        (if t'.childs.length = 0 ∧ t'.term.isSome then .ok (storeFin t'.term)
          else forChilds (fun c => S c u) t'.childs) := by
      rw [h.term]
      by_cases h0 : t.childs.length = 0 ∧ t'.term.isSome
      · rw [if_pos h0, if_pos ⟨h.childs.1 h0.1, h0.2⟩]; exact Agree.refl _
      · rw [if_neg h0, if_neg (fun x => h0 ⟨h.childs.2 x.1, x.2⟩)]; exact h.forChilds hS u
    have done : ∀ sub : Str, Agree
        (if sub = [] ∧ t.childs.length = 0 ∧ t.term.isSome then .ok (storeFin t.term)
          else forChilds (fun c => M c sub) t.childs)
        (if sub = [] ∧ t'.childs.length = 0 ∧ t'.term.isSome then .ok (storeFin t'.term)
          else forChilds (fun c => M c sub) t'.childs) := by
      intro sub
      rw [h.term]
      by_cases h0 : sub = [] ∧ t.childs.length = 0 ∧ t'.term.isSome
      · rw [if_pos h0, if_pos ⟨h0.1, h.childs.1 h0.2.1, h0.2.2⟩]; exact Agree.refl _
      · rw [if_neg h0, if_neg (fun x => h0 ⟨x.1, h.childs.2 x.2.1, x.2.2⟩)]
        exact h.forChilds hM sub
    have list : ∀ (vals : List Str) (mn : Int), Agree
        (addR (whenEv (mn = 0 ∧ opt = true) (t.starNext S u)) (do
          let r ← starListEv vals (t.next M) (u.length + 1) u
          addR (.ok r.1) (againEv (againEv (L (if mn = 0 ∧ opt = true then false else opt) t)) r.2)))
        (addR (whenEv (mn = 0 ∧ opt = true) (t'.starNext S u)) (do
          let r ← starListEv vals (t'.next M) (u.length + 1) u
          addR (.ok r.1) (againEv (againEv (L (if mn = 0 ∧ opt = true then false else opt) t')) r.2))) := by
      intro vals mn
      refine agree_addR (agree_whenEv Iff.rfl (agree_starNext hS h u)) ?_
      refine (agree_starListEv (fun v => agree_next hM h v) _ _ _).bind fun a b hab => ?_
      rw [hab.2]
      exact agree_addR hab.1 (agree_againEv (fun v => agree_againEv (fun w => hL _ _ _ _ h) _) _)
    unfold Tree.starFlag
    generalize hx : t.item = x at hb
    generalize hy : t'.item = y at hb
    cases flag with
    | done =>
      exact AgreeBy.bindEq _ fun sub => agree_addR (done sub)
        (agree_againEv (fun v => hL _ _ _ _ h) _)
    | star => exact star
    | list =>
      cases Item.alike_of_bare hb with
      | refl =>
        cases x with
        | list l => exact list _ _
        | _ => exact Agree.refl _
      | list h1 h2 =>
        dsimp only
        rw [h1, h2]
        exact list _ _
      | _ => exact Agree.refl _
    | group =>
      cases Item.alike_of_bare hb with
      | refl =>
        cases x with
        | group vals mn mx =>
          exact agree_addR (agree_whenEv Iff.rfl (agree_starNext hS h u))
            (agree_groupEv rfl fun v w e => hJ _ _ _ _ _ h (Item.bare_groupItems e))
        | _ => exact Agree.refl _
      | group h1 =>
        exact agree_addR (agree_whenEv Iff.rfl (agree_starNext hS h u))
            (agree_groupEv h1 fun v w e => hJ _ _ _ _ _ h (Item.bare_groupItems e))
      | _ => exact Agree.refl _
    | notSupported => exact Agree.refl _
    | forwarded => exact Agree.refl _
    | chain => exact Agree.refl _

theorem nil_iff {xs ys : List Item} (h : xs.map Item.bare = ys.map Item.bare) :
    xs = [] ↔ ys = [] := by
  cases xs <;> cases ys <;> first | cases h; done | simp

theorem agree_itemsStep (hM : M.Cong) (hS : S.Cong) (hI : I.Cong) (hJ : J.Cong) :
    IMatcher.Cong (fun t s l => t.itemsStep M S I J s l) := by
  intro t t' s xs ys h hxy
  dsimp only
  cases xs with
  | nil =>
    cases ys with
    | nil => exact agree_next hM h s
    | cons => cases hxy
  | cons x xs =>
    cases ys with
    | nil => cases hxy
    | cons y ys =>
      simp only [List.map_cons, List.cons.injEq] at hxy
      obtain ⟨hb, hr⟩ := hxy
      unfold Tree.itemsStep
      have hl : x.minLen = y.minLen := by rw [← Item.bare_minLen x, hb, Item.bare_minLen]
      dsimp only
      rw [hl, Item.bare_matchAt hb]
      split
      · exact Agree.refl _
      split
      · exact Agree.refl _
      · rename_i flag _
        refine AgreeBy.bindEq _ fun u => ?_
        have hn := nil_iff hr
        have list : ∀ (vals : List Str) (mn : Int), Agree
            (if mn = 0 ∧ xs = [] then t.next M u
              else addR (whenEv (mn = 0) (I t u xs))
                (if xs = [] then firstEv u (t.next M) vals else listEv u (fun v => I t v xs) vals))
            (if mn = 0 ∧ ys = [] then t'.next M u
              else addR (whenEv (mn = 0) (I t' u ys))
                (if ys = [] then firstEv u (t'.next M) vals else listEv u (fun v => I t' v ys) vals)) := by
          intro vals mn
          by_cases h0 : xs = []
          · have h0' := hn.1 h0
            simp only [h0, h0', and_true, if_true]
            split
            · exact agree_next hM h u
            · exact agree_addR (agree_whenEv Iff.rfl (hI _ _ _ _ _ h rfl))
                (agree_firstEv (fun v => agree_next hM h v) _)
          · have h0' : ¬ ys = [] := fun e => h0 (hn.2 e)
            simp only [h0, h0', and_false, if_false]
            exact agree_addR (agree_whenEv Iff.rfl (hI _ _ _ _ _ h hr))
              (agree_listEv (fun v => hI _ _ _ _ _ h hr) _)
        have group : ∀ (vals vals' : List Item) (mn : Int),
            vals.map Item.bare = vals'.map Item.bare → Agree
            (if mn = 0 ∧ xs = [] then t.next M u
              else addR (whenEv (mn = 0) (I t u xs)) (groupEv (fun v => I t u (groupItems v)) vals))
            (if mn = 0 ∧ ys = [] then t'.next M u
              else addR (whenEv (mn = 0) (I t' u ys)) (groupEv (fun v => I t' u (groupItems v)) vals')) := by
          intro vals vals' mn hv
          simp only [hn]
          split
          · exact agree_next hM h u
          · exact agree_addR (agree_whenEv Iff.rfl (hI _ _ _ _ _ h hr))
              (agree_groupEv hv fun v w e => hI _ _ _ _ _ h (Item.bare_groupItems e))
        unfold Tree.itemsFlag
        cases flag with
        | done => exact hI _ _ _ _ _ h hr
        | star =>
          dsimp only
          by_cases h0 : xs = []
          · rw [if_pos h0, if_pos (hn.1 h0)]; exact agree_starNext hS h u
          · rw [if_neg h0, if_neg (fun e => h0 (hn.2 e))]
            exact agree_addR (hJ _ _ _ _ _ h hr) (hI _ _ _ _ _ h (by simp [hb, hr]))
        | list =>
          cases Item.alike_of_bare hb with
          | refl =>
            cases x with
            | list l => exact list _ _
            | _ => exact Agree.refl _
          | list h1 h2 =>
            dsimp only
            rw [h1, h2]
            exact list _ _
          | _ => exact Agree.refl _
        | group =>
          cases Item.alike_of_bare hb with
          | refl =>
            cases x with
            | group vals mn mx => exact group _ _ _ rfl
            | _ => exact Agree.refl _
          | group h1 => exact group _ _ _ h1
          | _ => exact Agree.refl _
        | notSupported => exact Agree.refl _
        | forwarded => exact Agree.refl _
        | chain => exact Agree.refl _

theorem agree_starItemsStep (hM : M.Cong) (hS : S.Cong) (hI : I.Cong) (hJ : J.Cong) :
    IMatcher.Cong (fun t s l => t.starItemsStep M S I J s l) := by
  intro t t' s xs ys h hxy
  dsimp only
  cases xs with
  | nil =>
    cases ys with
    | nil => exact agree_starNext hS h s
    | cons => cases hxy
  | cons x xs =>
    cases ys with
    | nil => cases hxy
    | cons y ys =>
      simp only [List.map_cons, List.cons.injEq] at hxy
      obtain ⟨hb, hr⟩ := hxy
      unfold Tree.starItemsStep
      have hl : x.minLen = y.minLen := by rw [← Item.bare_minLen x, hb, Item.bare_minLen]
      dsimp only
      rw [hl, Item.bare_find _ _ hb]
      split
      · exact Agree.refl _
      refine AgreeBy.bindEq _ fun p => ?_
      split
      · exact Agree.refl _
      · rename_i length flag
        refine AgreeBy.bindEq _ fun u => ?_
        have hn := nil_iff hr
        have cons : ∀ v, Agree (I t v xs) (I t' v ys) := fun v => hI _ _ _ _ _ h hr
        have again : Agree (if xs = [] then t.starNext S u else J t u xs)
            (if ys = [] then t'.starNext S u else J t' u ys) := by
          by_cases h0 : xs = []
          · rw [if_pos h0, if_pos (hn.1 h0)]; exact agree_starNext hS h u
          · rw [if_neg h0, if_neg (fun e => h0 (hn.2 e))]; exact hJ _ _ _ _ _ h hr
        have ends : ∀ v, Agree (if xs = [] then t.next M v else I t v xs)
            (if ys = [] then t'.next M v else I t' v ys) := by
          intro v
          by_cases h0 : xs = []
          · rw [if_pos h0, if_pos (hn.1 h0)]; exact agree_next hM h v
          · rw [if_neg h0, if_neg (fun e => h0 (hn.2 e))]; exact cons v
        have opt : Agree (if xs = [] then t.next M u else J t u xs)
            (if ys = [] then t'.next M u else J t' u ys) := by
          by_cases h0 : xs = []
          · rw [if_pos h0, if_pos (hn.1 h0)]; exact agree_next hM h u
          · rw [if_neg h0, if_neg (fun e => h0 (hn.2 e))]; exact hJ _ _ _ _ _ h hr
        have list : ∀ (vals : List Str) (mn : Int), Agree
            (addR (whenEv (mn = 0) (if xs = [] then t.starNext S u else J t u xs)) (do
              let r ← starListEv vals (fun u => if xs = [] then t.next M u else I t u xs)
                (u.length + 1) u
              .ok r.1))
            (addR (whenEv (mn = 0) (if ys = [] then t'.starNext S u else J t' u ys)) (do
              let r ← starListEv vals (fun u => if ys = [] then t'.next M u else I t' u ys)
                (u.length + 1) u
              .ok r.1)) := by
          intro vals mn
          refine agree_addR (agree_whenEv Iff.rfl again) ?_
          exact (agree_starListEv ends _ _ _).bind fun a b hab => hab.1
        have group : ∀ (vals vals' : List Item) (mn : Int),
            vals.map Item.bare = vals'.map Item.bare → Agree
            (addR (whenEv (mn = 0) (if xs = [] then t.next M u else J t u xs))
              (groupEv (fun v => J t u (groupItems v)) vals))
            (addR (whenEv (mn = 0) (if ys = [] then t'.next M u else J t' u ys))
              (groupEv (fun v => J t' u (groupItems v)) vals')) := by
          intro vals vals' mn hv
          exact agree_addR (agree_whenEv Iff.rfl opt)
            (agree_groupEv hv fun v w e => hJ _ _ _ _ _ h (Item.bare_groupItems e))
        unfold Tree.starItemsFlag
        cases flag with
        | done =>
          exact AgreeBy.bindEq _ fun sub => agree_addR (hI _ _ _ _ _ h hr)
            (agree_againEv (fun v => hJ _ _ _ _ _ h (by simp [hb, hr])) _)
        | star => exact again
        | list =>
          cases Item.alike_of_bare hb with
          | refl =>
            cases x with
            | list l => exact list _ _
            | _ => exact Agree.refl _
          | list h1 h2 =>
            dsimp only
            rw [h1, h2]
            exact list _ _
          | _ => exact Agree.refl _
        | group =>
          cases Item.alike_of_bare hb with
          | refl =>
            cases x with
            | group vals mn mx => exact group _ _ _ rfl
            | _ => exact Agree.refl _
          | group h1 => exact group _ _ _ h1
          | _ => exact Agree.refl _
        | notSupported => exact Agree.refl _
        | forwarded => exact Agree.refl _
        | chain => exact Agree.refl _

end

theorem agree_tree (fuel : Nat) :
    TMatcher.Cong (Tree.matchT fuel) ∧ (∀ b, TMatcher.Cong (Tree.starT fuel b)) ∧
    IMatcher.Cong (Tree.itemsT fuel) ∧ IMatcher.Cong (Tree.starItemsT fuel) := by
  induction fuel with
  | zero =>
    refine ⟨?_, ?_, ?_, ?_⟩
    · intro t t' s _; rw [Tree.matchT, Tree.matchT]; trivial
    · intro b t t' s _; rw [Tree.starT, Tree.starT]; trivial
    · intro t t' s xs ys _ _; rw [Tree.itemsT, Tree.itemsT]; trivial
    · intro t t' s xs ys _ _; rw [Tree.starItemsT, Tree.starItemsT]; trivial
  | succ n ih =>
    obtain ⟨hM, hS, hI, hJ⟩ := ih
    refine ⟨?_, ?_, ?_, ?_⟩
    · intro t t' s h
      rw [Tree.matchT, Tree.matchT]
      exact agree_matchStep hM (hS true) hI t t' s h
    · intro b t t' s h
      rw [Tree.starT, Tree.starT]
      exact agree_starStep hM (hS true) hJ hS b t t' s h
    · intro t t' s xs ys h hxy
      rw [Tree.itemsT, Tree.itemsT]
      exact agree_itemsStep hM (hS true) hI hJ t t' s xs ys h hxy
    · intro t t' s xs ys h hxy
      rw [Tree.starItemsT, Tree.starItemsT]
      exact agree_starItemsStep hM (hS true) hI hJ t t' s xs ys h hxy

/-- `TreeItem.Match` on related trees.  The query and index of the root are not looked at. -/
theorem agree_matches (fuel : Nat) {t t' : Tree} (hn : t.Neat) (hn' : t'.Neat)
    (hc : ∀ K, (∃ c ∈ t.childs, c.key = K) ↔ ∃ c ∈ t'.childs, c.key = K)
    (he : ∀ c ∈ t.childs, ∀ c' ∈ t'.childs, c.key = c'.key → c.Eqv c') (s : Str) :
    Agree (t.matches fuel s) (t'.matches fuel s) := by
  cases hn with
  | mk hd hs hn =>
    cases hn' with
    | mk hd' hs' hn' =>
      refine agree_forChilds hd hd' hc fun c hm c' hm' e => ?_
      have h : TRel c c' := ⟨hn c hm, hn' c' hm', he c hm c' hm' e⟩
      rw [h.rev]
      split
      · unfold Tree.matchRev
        have hb := h.item
        have hl : c.item.minLen = c'.item.minLen := by
          rw [← Item.bare_minLen c.item, hb, Item.bare_minLen]
        rw [hl, Item.bare_matchLast hb]
        split
        · exact Agree.refl _
        refine AgreeBy.bindEq _ fun p => ?_
        split
        · exact AgreeBy.bindEq _ fun u => agree_next (agree_tree fuel).1 h u
        · exact Agree.refl _
      · exact (agree_tree fuel).1 c c' s h

end GoMatcher
