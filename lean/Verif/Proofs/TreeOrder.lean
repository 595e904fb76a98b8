import Verif.Proofs.Bare
import Verif.Proofs.TreePaths

/-! # Trees that differ only in the order of children -/

namespace GoMatcher

/-! ## Answers up to the order of the calls of `Store` -/

/-- Both give values that are related, or both give none. -/
def AgreeBy {α : Type} (P : α → α → Prop) : R α → R α → Prop
  | .ok a, .ok b => P a b
  | .ok _, _ => False
  | _, .ok _ => False
  | _, _ => True

theorem AgreeBy.bind {α β : Type} {P : α → α → Prop} {Q : β → β → Prop} {x y : R α} {f g : α → R β}
    (h : AgreeBy P x y) (hf : ∀ a b, P a b → AgreeBy Q (f a) (g b)) :
    AgreeBy Q (x >>= f) (y >>= g) := by
  cases x <;> cases y <;> first | exact h.elim | trivial | exact hf _ _ h

theorem AgreeBy.bindEq {α β : Type} {Q : β → β → Prop} (x : R α) {f g : α → R β}
    (hf : ∀ a, AgreeBy Q (f a) (g a)) : AgreeBy Q (x >>= f) (x >>= g) := by
  cases x <;> first | trivial | exact hf _

/-- The same calls in some order, and the same count. -/
def EvPerm (a b : Ev) : Prop := a.1.Perm b.1 ∧ a.2 = b.2

/-- The same answer up to the order of the calls of `Store`. -/
abbrev Agree : R Ev → R Ev → Prop := AgreeBy EvPerm

theorem EvPerm.refl (a : Ev) : EvPerm a a := ⟨.refl _, rfl⟩

theorem Agree.refl (a : R Ev) : Agree a a := by
  cases a <;> first | trivial | exact EvPerm.refl _

theorem Agree.trans {a b c : R Ev} (h : Agree a b) (h' : Agree b c) : Agree a c := by
  cases a <;> cases b <;> cases c <;> first
    | exact h.elim | exact h'.elim | trivial | exact ⟨h.1.trans h'.1, h.2.trans h'.2⟩

theorem Agree.symm {a b : R Ev} (h : Agree a b) : Agree b a := by
  cases a <;> cases b <;> first | exact h.elim | trivial | exact ⟨h.1.symm, h.2.symm⟩

theorem evPerm_add {a a' b b' : Ev} (h : EvPerm a a') (h' : EvPerm b b') :
    EvPerm (addEv a b) (addEv a' b') :=
  ⟨h.1.append h'.1, by simp only [addEv, h.2, h'.2]⟩

theorem agree_addR {a a' b b' : R Ev} (h : Agree a a') (h' : Agree b b') :
    Agree (addR a b) (addR a' b') :=
  h.bind fun _ _ h => h'.bind fun _ _ h' => evPerm_add h h'

/-- The second of three searches may be made first. -/
theorem agree_swap (a b c : R Ev) : Agree (addR a (addR b c)) (addR b (addR a c)) := by
  cases a <;> cases b <;> cases c <;> first | trivial | skip
  refine ⟨?_, ?_⟩
  · simp only [addEv, ← List.append_assoc]
    exact List.perm_append_comm.append_right _
  · simp only [addEv]; omega

theorem agree_whenEv {c c' : Prop} [Decidable c] [Decidable c'] {a a' : R Ev} (hc : c ↔ c')
    (h : Agree a a') : Agree (whenEv c a) (whenEv c' a') := by
  unfold whenEv
  by_cases hh : c
  · rw [if_pos hh, if_pos (hc.1 hh)]; exact h
  · rw [if_neg hh, if_neg (fun x => hh (hc.2 x))]; exact Agree.refl _

theorem agree_listEv {s : Str} {k k' : Str → R Ev} (h : ∀ u, Agree (k u) (k' u)) (vs : List Str) :
    Agree (listEv s k vs) (listEv s k' vs) := by
  induction vs with
  | nil => exact Agree.refl _
  | cons v vs ih =>
    simp only [listEv]
    split
    · exact agree_addR (h _) ih
    · exact ih

theorem agree_firstEv {s : Str} {k k' : Str → R Ev} (h : ∀ u, Agree (k u) (k' u)) (vs : List Str) :
    Agree (firstEv s k vs) (firstEv s k' vs) := by
  induction vs with
  | nil => exact Agree.refl _
  | cons v vs ih =>
    simp only [firstEv]
    split
    · exact h _
    · exact ih

theorem agree_groupEv {k k' : Item → R Ev} {vs ws : List Item}
    (hv : vs.map Item.bare = ws.map Item.bare)
    (h : ∀ v w : Item, v.bare = w.bare → Agree (k v) (k' w)) :
    Agree (groupEv k vs) (groupEv k' ws) := by
  induction vs generalizing ws with
  | nil =>
    cases ws with
    | nil => exact Agree.refl _
    | cons => cases hv
  | cons v vs ih =>
    cases ws with
    | nil => cases hv
    | cons w ws =>
      simp only [List.map_cons, List.cons.injEq] at hv
      exact agree_addR (h v w hv.1) (ih hv.2)

/-- For searches that also give a position. -/
def EvPermAt {β : Type} (a b : Ev × β) : Prop := EvPerm a.1 b.1 ∧ a.2 = b.2

theorem agree_starListInnerEv {s : Str} {k k' : Str → R Ev} (h : ∀ u, Agree (k u) (k' u))
    (vs : List Str) (off : Option Nat) :
    AgreeBy EvPermAt (starListInnerEv s k vs off) (starListInnerEv s k' vs off) := by
  induction vs generalizing off with
  | nil => exact ⟨EvPerm.refl _, rfl⟩
  | cons v vs ih =>
    simp only [starListInnerEv]
    split
    · exact ih _
    · exact (h _).bind fun _ _ h1 => (ih _).bind fun _ _ h2 => ⟨evPerm_add h1 h2.1, h2.2⟩

theorem agree_starListEv {k k' : Str → R Ev} (h : ∀ u, Agree (k u) (k' u)) (vs : List Str)
    (fuel : Nat) (s : Str) :
    AgreeBy EvPermAt (starListEv vs k fuel s) (starListEv vs k' fuel s) := by
  induction fuel generalizing s with
  | zero => trivial
  | succ fuel ih =>
    simp only [starListEv]
    refine (agree_starListInnerEv h vs none).bind fun a b hab => ?_
    rw [hab.2]
    split
    · exact ⟨hab.1, rfl⟩
    · split
      · exact ⟨hab.1, rfl⟩
      · exact (ih _).bind fun _ _ h2 => ⟨evPerm_add hab.1 h2.1, h2.2⟩

theorem agree_againEv {k k' : Str → R Ev} (h : ∀ u, Agree (k u) (k' u)) (s : Str) :
    Agree (againEv k s) (againEv k' s) := by
  unfold againEv
  dsimp only
  split
  · exact Agree.refl _
  · exact h _

/-! ## Trees -/

namespace Tree

/-- What `LocateChildTreeItem` looks at. -/
def key (t : Tree) : Item × Bool := (t.item.bare, t.rev)

/-- The same tree up to the order of children and to what `Equal` does not look at. -/
inductive Eqv : Tree → Tree → Prop
  | mk {t t' : Tree} (hk : t.key = t'.key) (ht : t.term = t'.term)
      (hc : ∀ K, (∃ c ∈ t.childs, c.key = K) ↔ ∃ c ∈ t'.childs, c.key = K)
      (h : ∀ c ∈ t.childs, ∀ c' ∈ t'.childs, c.key = c'.key → Eqv c c') : Eqv t t'

/-- No two children have the same key. -/
inductive Neat : Tree → Prop
  | mk {t : Tree} (hd : t.childs.Pairwise fun c d => c.key ≠ d.key)
      (hs : ∀ c ∈ t.childs, c.item.Sized) (h : ∀ c ∈ t.childs, Neat c) : Neat t

theorem pairwise_key {cs : List Tree} (h : cs.Pairwise fun c d => c.key ≠ d.key) {c d : Tree}
    (hc : c ∈ cs) (hd : d ∈ cs) (e : c.key = d.key) : c = d := by
  induction cs with
  | nil => cases hc
  | cons x xs ih =>
    cases h with
    | cons h1 h2 =>
      rcases List.mem_cons.1 hc with rfl | hcx
      · rcases List.mem_cons.1 hd with rfl | hd
        · rfl
        · exact absurd e (h1 d hd)
      · rcases List.mem_cons.1 hd with rfl | hd
        · exact absurd e.symm (h1 c (by assumption))
        · exact ih h2 (by assumption) hd

theorem Neat.eqv {t : Tree} (h : t.Neat) : t.Eqv t := by
  induction h with
  | mk hd hs h ih =>
    refine .mk rfl rfl (fun K => Iff.rfl) ?_
    intro c hc c' hc' e
    cases pairwise_key hd hc hc' e
    exact ih c hc

@[simp] theorem insert_key (ps : List (Item × Bool)) (e : Str × Int) (t : Tree) :
    (t.insert ps e).key = t.key := by
  cases t
  cases ps <;> rfl

/-- The key of a step. -/
def stepKey (p : Item × Bool) : Item × Bool := (p.1.bare, p.2)

theorem leaf_neat (it : Item) (rev : Bool) : (Tree.node it rev none []).Neat :=
  .mk List.Pairwise.nil (fun c hc => by cases hc) (fun c hc => by cases hc)

theorem leaf_eqv {it it' : Item} {rev rev' : Bool} (h : stepKey (it, rev) = stepKey (it', rev')) :
    (Tree.node it rev none []).Eqv (Tree.node it' rev' none []) :=
  .mk h rfl (fun K => Iff.rfl) (fun c hc => by cases hc)

/-! ### One child -/

/-- The child that is changed, or the fresh one. -/
def Cand (it : Item) (rev : Bool) (cs : List Tree) (d : Tree) : Prop :=
  (d ∈ cs ∧ d.key = stepKey (it, rev)) ∨
    (d = .node it rev none [] ∧ ∀ c ∈ cs, c.key ≠ stepKey (it, rev))

theorem found_iff {c : Tree} {it : Item} {rev : Bool} (hc : c.item.Sized) (hi : it.Sized) :
    (c.rev = rev ∧ c.item.equal it = true) ↔ c.key = stepKey (it, rev) := by
  rw [Item.equal_iff hc hi]
  unfold key stepKey
  rw [Prod.mk.injEq]
  exact And.comm

section
variable {it : Item} {rev : Bool} {f : Tree → Tree} {cs : List Tree}

theorem mem_insertChild' (hi : it.Sized) (hs : ∀ c ∈ cs, c.item.Sized)
    (hd : cs.Pairwise fun c d => c.key ≠ d.key) (c : Tree) :
    c ∈ insertChild it rev f cs ↔
      (c ∈ cs ∧ c.key ≠ stepKey (it, rev)) ∨ ∃ d, Cand it rev cs d ∧ c = f d := by
  induction cs with
  | nil =>
    simp only [insertChild, List.mem_singleton, List.not_mem_nil, false_and, false_or, Cand]
    constructor
    · rintro rfl; exact ⟨_, ⟨rfl, fun c hc => by cases hc⟩, rfl⟩
    · rintro ⟨d, ⟨rfl, _⟩, rfl⟩; rfl
  | cons x xs ih =>
    cases hd with
    | cons h1 h2 =>
      have ih := ih (fun c hc => hs c (by simp [hc])) h2
      have hx := hs x (by simp)
      unfold insertChild
      by_cases hf : x.key = stepKey (it, rev)
      · rw [if_pos ((found_iff hx hi).2 hf)]
        have hne : ∀ c ∈ xs, c.key ≠ stepKey (it, rev) := by
          intro c hc e
          exact h1 c hc (hf.trans e.symm)
        constructor
        · intro h
          rcases List.mem_cons.1 h with rfl | h
          · exact Or.inr ⟨x, Or.inl ⟨by simp, hf⟩, rfl⟩
          · exact Or.inl ⟨by simp [h], hne c h⟩
        · rintro (⟨h, hk⟩ | ⟨d, h | h, rfl⟩)
          · rcases List.mem_cons.1 h with rfl | h
            · exact absurd hf hk
            · exact List.mem_cons_of_mem _ h
          · rcases List.mem_cons.1 h.1 with rfl | hm
            · exact List.mem_cons_self
            · exact absurd h.2 (hne d hm)
          · exact absurd hf (h.2 x (by simp))
      · rw [if_neg (fun h => hf ((found_iff hx hi).1 h))]
        constructor
        · intro h
          rcases List.mem_cons.1 h with rfl | h
          · exact Or.inl ⟨by simp, hf⟩
          · rcases ih.1 h with ⟨h, hk⟩ | ⟨d, h' | h', rfl⟩
            · exact Or.inl ⟨by simp [h], hk⟩
            · exact Or.inr ⟨d, Or.inl ⟨by simp [h'.1], h'.2⟩, rfl⟩
            · refine Or.inr ⟨d, Or.inr ⟨h'.1, ?_⟩, rfl⟩
              intro c hc
              rcases List.mem_cons.1 hc with rfl | hc
              · exact hf
              · exact h'.2 c hc
        · rintro (⟨h, hk⟩ | ⟨d, h | h, rfl⟩)
          · rcases List.mem_cons.1 h with rfl | h
            · exact List.mem_cons_self
            · exact List.mem_cons_of_mem _ (ih.2 (Or.inl ⟨h, hk⟩))
          · rcases List.mem_cons.1 h.1 with rfl | hm
            · exact absurd h.2 hf
            · exact List.mem_cons_of_mem _ (ih.2 (Or.inr ⟨d, Or.inl ⟨hm, h.2⟩, rfl⟩))
          · exact List.mem_cons_of_mem _
              (ih.2 (Or.inr ⟨d, Or.inr ⟨h.1, fun c hc => h.2 c (by simp [hc])⟩, rfl⟩))

theorem Cand.key {d : Tree} (h : Cand it rev cs d) : d.key = stepKey (it, rev) := by
  rcases h with h | h
  · exact h.2
  · rw [h.1]; rfl

theorem exists_cand (it : Item) (rev : Bool) (cs : List Tree) : ∃ d, Cand it rev cs d := by
  by_cases h : ∃ c ∈ cs, c.key = stepKey (it, rev)
  · obtain ⟨c, hc, e⟩ := h
    exact ⟨c, Or.inl ⟨hc, e⟩⟩
  · exact ⟨_, Or.inr ⟨rfl, fun c hc e => h ⟨c, hc, e⟩⟩⟩

/-- The keys of the children after an insertion. -/
theorem keys_insertChild (hf : ∀ d, (f d).key = d.key) (hi : it.Sized)
    (hs : ∀ c ∈ cs, c.item.Sized) (hd : cs.Pairwise fun c d => c.key ≠ d.key) (K : Item × Bool) :
    (∃ c ∈ insertChild it rev f cs, c.key = K) ↔
      K = stepKey (it, rev) ∨ ∃ c ∈ cs, c.key = K := by
  constructor
  · rintro ⟨c, hc, rfl⟩
    rcases (mem_insertChild' hi hs hd c).1 hc with h | ⟨d, h, rfl⟩
    · exact Or.inr ⟨c, h.1, rfl⟩
    · rw [hf, h.key]; exact Or.inl rfl
  · rintro (rfl | ⟨c, hc, rfl⟩)
    · obtain ⟨d, h⟩ := exists_cand it rev cs
      exact ⟨f d, (mem_insertChild' hi hs hd _).2 (Or.inr ⟨d, h, rfl⟩), by rw [hf, h.key]⟩
    · by_cases hk : c.key = stepKey (it, rev)
      · exact ⟨f c, (mem_insertChild' hi hs hd _).2 (Or.inr ⟨c, Or.inl ⟨hc, hk⟩, rfl⟩), by rw [hf]⟩
      · exact ⟨c, (mem_insertChild' hi hs hd _).2 (Or.inl ⟨hc, hk⟩), rfl⟩

theorem pairwise_insertChild (hf : ∀ d, (f d).key = d.key) (hi : it.Sized)
    (hs : ∀ c ∈ cs, c.item.Sized) (hd : cs.Pairwise fun c d => c.key ≠ d.key) :
    (insertChild it rev f cs).Pairwise fun c d => c.key ≠ d.key := by
  induction cs with
  | nil => exact List.pairwise_singleton _ _
  | cons x xs ih =>
    cases hd with
    | cons h1 h2 =>
      have hs' : ∀ c ∈ xs, c.item.Sized := fun c hc => hs c (by simp [hc])
      unfold insertChild
      by_cases hx : x.key = stepKey (it, rev)
      · rw [if_pos ((found_iff (hs x (by simp)) hi).2 hx)]
        refine List.Pairwise.cons ?_ h2
        intro c hc
        rw [hf]
        exact h1 c hc
      · rw [if_neg (fun h => hx ((found_iff (hs x (by simp)) hi).1 h))]
        refine List.Pairwise.cons ?_ (ih hs' h2)
        intro c hc e
        rcases (keys_insertChild hf hi hs' h2 x.key).1 ⟨c, hc, e.symm⟩ with h | ⟨d, hd, e'⟩
        · exact hx h
        · exact h1 d hd e'.symm

/-- The child with the key of the insertion. -/
theorem cand_of_key (_hf : ∀ d, (f d).key = d.key) (hi : it.Sized) (hs : ∀ c ∈ cs, c.item.Sized)
    (hd : cs.Pairwise fun c d => c.key ≠ d.key) {c : Tree} (hc : c ∈ insertChild it rev f cs)
    (hk : c.key = stepKey (it, rev)) : ∃ d, Cand it rev cs d ∧ c = f d := by
  rcases (mem_insertChild' hi hs hd c).1 hc with h | h
  · exact absurd hk h.2
  · exact h

/-- The other children. -/
theorem old_of_key (hf : ∀ d, (f d).key = d.key) (hi : it.Sized) (hs : ∀ c ∈ cs, c.item.Sized)
    (hd : cs.Pairwise fun c d => c.key ≠ d.key) {c : Tree} (hc : c ∈ insertChild it rev f cs)
    (hk : c.key ≠ stepKey (it, rev)) : c ∈ cs := by
  rcases (mem_insertChild' hi hs hd c).1 hc with h | ⟨d, h, rfl⟩
  · exact h.1
  · exact absurd (by rw [hf, h.key]) hk

/-- The child that a second insertion with another key changes. -/
theorem cand_other (hf : ∀ d, (f d).key = d.key) (hi : it.Sized) (hs : ∀ c ∈ cs, c.item.Sized)
    (hd : cs.Pairwise fun c d => c.key ≠ d.key) {it2 : Item} {rev2 : Bool}
    (hne : stepKey (it, rev) ≠ stepKey (it2, rev2)) {d : Tree}
    (h : Cand it2 rev2 (insertChild it rev f cs) d) : Cand it2 rev2 cs d := by
  rcases h with ⟨h, e⟩ | ⟨h, e⟩
  · exact Or.inl ⟨old_of_key hf hi hs hd h (by rw [e]; exact hne.symm), e⟩
  · refine Or.inr ⟨h, fun c hc hk => ?_⟩
    obtain ⟨c', hc', e'⟩ := (keys_insertChild hf hi hs hd c.key).2 (Or.inr ⟨c, hc, rfl⟩)
    exact e c' hc' (by rw [e', hk])

/-- The child that a second insertion with the same key changes. -/
theorem cand_again (hf : ∀ d, (f d).key = d.key) (hi : it.Sized) (hs : ∀ c ∈ cs, c.item.Sized)
    (hd : cs.Pairwise fun c d => c.key ≠ d.key) {it2 : Item} {rev2 : Bool}
    (he : stepKey (it, rev) = stepKey (it2, rev2)) {d : Tree}
    (h : Cand it2 rev2 (insertChild it rev f cs) d) : ∃ d', Cand it rev cs d' ∧ d = f d' := by
  rcases h with ⟨h, e⟩ | ⟨h, e⟩
  · exact cand_of_key hf hi hs hd h (by rw [e, he])
  · obtain ⟨c', hc', e'⟩ := (keys_insertChild hf hi hs hd (stepKey (it, rev))).2 (Or.inl rfl)
    exact absurd (by rw [e', he]) (e c' hc')

end

theorem Cand.neat {it : Item} {rev : Bool} {cs : List Tree} (hn : ∀ c ∈ cs, c.Neat) {d : Tree}
    (h : Cand it rev cs d) : d.Neat := by
  rcases h with h | h
  · exact hn d h.1
  · rw [h.1]; exact leaf_neat _ _

theorem Cand.eqv {it it' : Item} {rev rev' : Bool} {cs cs' : List Tree} {d d' : Tree}
    (hk : stepKey (it, rev) = stepKey (it', rev'))
    (hc : ∀ K, (∃ c ∈ cs, c.key = K) ↔ ∃ c ∈ cs', c.key = K)
    (h : ∀ c ∈ cs, ∀ c' ∈ cs', c.key = c'.key → Eqv c c')
    (hd : Cand it rev cs d) (hd' : Cand it' rev' cs' d') : Eqv d d' := by
  rcases hd with ⟨h1, h2⟩ | ⟨h1, h2⟩
  · rcases hd' with ⟨h3, h4⟩ | ⟨h3, h4⟩
    · exact h d h1 d' h3 (by rw [h2, h4, hk])
    · obtain ⟨c, hc1, hc2⟩ := (hc _).1 ⟨d, h1, h2⟩
      exact absurd (hc2.trans hk) (h4 c hc1)
  · rcases hd' with ⟨h3, h4⟩ | ⟨h3, h4⟩
    · obtain ⟨c, hc1, hc2⟩ := (hc _).2 ⟨d', h3, h4⟩
      exact absurd (hc2.trans hk.symm) (h2 c hc1)
    · rw [h1, h3]; exact leaf_eqv hk

/-! ### Insertion -/

theorem insert_sizedItem {it : Item} {rev : Bool} {f : Tree → Tree} (hf : ∀ d, (f d).item = d.item)
    {cs : List Tree} (hi : it.Sized) (hs : ∀ c ∈ cs, c.item.Sized) :
    ∀ c ∈ insertChild it rev f cs, c.item.Sized := by
  induction cs with
  | nil =>
    intro c hc
    rw [insertChild, List.mem_singleton] at hc
    rw [hc, hf]
    exact hi
  | cons x xs ih =>
    intro c hc
    unfold insertChild at hc
    split at hc
    · rcases List.mem_cons.1 hc with rfl | hc
      · rw [hf]; exact hs x (by simp)
      · exact hs c (by simp [hc])
    · rcases List.mem_cons.1 hc with rfl | hc
      · exact hs c (by simp)
      · exact ih (fun c hc => hs c (by simp [hc])) c hc

theorem insert_itemEq (ps : List (Item × Bool)) (e : Str × Int) (t : Tree) :
    (t.insert ps e).item = t.item := by
  cases t
  cases ps <;> rfl

theorem insert_neat (ps : List (Item × Bool)) (e : Str × Int) (t : Tree) (hp : ∀ p ∈ ps, p.1.Sized)
    (ht : t.Neat) : (t.insert ps e).Neat := by
  induction ps generalizing t with
  | nil =>
    obtain ⟨i, r, tm, cs⟩ := t
    cases ht with
    | mk hd hs h => exact .mk hd hs h
  | cons p ps ih =>
    obtain ⟨it, rev⟩ := p
    obtain ⟨i, r, tm, cs⟩ := t
    have hi : it.Sized := hp (it, rev) (by simp)
    have ih := fun t => ih t (fun p h => hp p (by simp [h]))
    cases ht with
    | mk hd hs h =>
      refine .mk (pairwise_insertChild (insert_key ps e) hi hs hd)
        (insert_sizedItem (insert_itemEq ps e) hi hs) ?_
      intro c hc
      rcases (mem_insertChild' hi hs hd c).1 hc with h1 | ⟨d, h1, rfl⟩
      · exact h c h1.1
      · exact ih d (h1.neat h)

/-- Insertion along the same keys keeps the relation. -/
theorem insert_eqv (ps ps' : List (Item × Bool)) (e : Str × Int) (t t' : Tree)
    (hk : ps.map stepKey = ps'.map stepKey) (hp : ∀ p ∈ ps, p.1.Sized) (hp' : ∀ p ∈ ps', p.1.Sized)
    (ht : t.Neat) (ht' : t'.Neat) (h : t.Eqv t') : (t.insert ps e).Eqv (t'.insert ps' e) := by
  induction ps generalizing ps' t t' with
  | nil =>
    cases ps' with
    | cons => cases hk
    | nil =>
      obtain ⟨i, r, tm, cs⟩ := t
      obtain ⟨i', r', tm', cs'⟩ := t'
      cases h with
      | mk h1 h2 h3 h4 => exact .mk h1 rfl h3 h4
  | cons p ps ih =>
    cases ps' with
    | nil => cases hk
    | cons p' ps' =>
      obtain ⟨it, rev⟩ := p
      obtain ⟨it', rev'⟩ := p'
      obtain ⟨i, r, tm, cs⟩ := t
      obtain ⟨i', r', tm', cs'⟩ := t'
      simp only [List.map_cons, List.cons.injEq] at hk
      obtain ⟨hk1, hk2⟩ := hk
      have hi : it.Sized := hp (it, rev) (by simp)
      have hi' : it'.Sized := hp' (it', rev') (by simp)
      have ih := fun t t' => ih ps' t t' hk2 (fun p h => hp p (by simp [h]))
        (fun p h => hp' p (by simp [h]))
      cases ht with
      | mk hd hs hn =>
        cases ht' with
        | mk hd' hs' hn' =>
          cases h with
          | mk h1 h2 h3 h4 =>
            dsimp only [Tree.childs] at hd hs hn hd' hs' hn' h3 h4
            refine .mk h1 h2 ?_ ?_
            · intro K
              show (∃ c ∈ insertChild it rev (Tree.insert ps e) cs, c.key = K) ↔
                ∃ c ∈ insertChild it' rev' (Tree.insert ps' e) cs', c.key = K
              rw [keys_insertChild (insert_key ps e) hi hs hd,
                keys_insertChild (insert_key ps' e) hi' hs' hd', hk1, h3 K]
            · intro c hc c' hc' hcc
              by_cases hK : c.key = stepKey (it, rev)
              · obtain ⟨d, hd1, rfl⟩ := cand_of_key (insert_key ps e) hi hs hd hc hK
                obtain ⟨d', hd2, rfl⟩ := cand_of_key (insert_key ps' e) hi' hs' hd' hc'
                  (by rw [← hcc, hK, hk1])
                exact ih d d' (hd1.neat hn) (hd2.neat hn') (hd1.eqv hk1 h3 h4 hd2)
              · exact h4 c (old_of_key (insert_key ps e) hi hs hd hc hK) c'
                  (old_of_key (insert_key ps' e) hi' hs' hd' hc' (by rw [← hcc, ← hk1]; exact hK)) hcc

/-- Insertions along different keys may be exchanged. -/
theorem insert_comm (ps qs : List (Item × Bool)) (e1 e2 : Str × Int) (t t' : Tree)
    (hk : ps.map stepKey ≠ qs.map stepKey) (hp : ∀ p ∈ ps, p.1.Sized) (hq : ∀ p ∈ qs, p.1.Sized)
    (ht : t.Neat) (ht' : t'.Neat) (h : t.Eqv t') :
    ((t.insert ps e1).insert qs e2).Eqv ((t'.insert qs e2).insert ps e1) := by
  induction ps generalizing qs t t' with
  | nil =>
    cases qs with
    | nil => exact absurd rfl hk
    | cons q qs =>
      obtain ⟨i, r, tm, cs⟩ := t
      obtain ⟨i', r', tm', cs'⟩ := t'
      have key := insert_eqv (q :: qs) (q :: qs) e2 (.node i r (some e1) cs) (.node i' r' (some e1) cs')
        rfl hq hq (by cases ht with | mk h1 h2 h3 => exact .mk h1 h2 h3)
        (by cases ht' with | mk h1 h2 h3 => exact .mk h1 h2 h3)
        (by cases h with | mk h1 h2 h3 h4 => exact .mk h1 rfl h3 h4)
      exact key
  | cons p ps ih =>
    cases qs with
    | nil =>
      obtain ⟨i, r, tm, cs⟩ := t
      obtain ⟨i', r', tm', cs'⟩ := t'
      have key := insert_eqv (p :: ps) (p :: ps) e1 (.node i r (some e2) cs) (.node i' r' (some e2) cs')
        rfl hp hp (by cases ht with | mk h1 h2 h3 => exact .mk h1 h2 h3)
        (by cases ht' with | mk h1 h2 h3 => exact .mk h1 h2 h3)
        (by cases h with | mk h1 h2 h3 h4 => exact .mk h1 rfl h3 h4)
      exact key
    | cons q qs =>
      obtain ⟨a, ra⟩ := p
      obtain ⟨b, rb⟩ := q
      obtain ⟨i, r, tm, cs⟩ := t
      obtain ⟨i', r', tm', cs'⟩ := t'
      have ha : a.Sized := hp (a, ra) (by simp)
      have hb : b.Sized := hq (b, rb) (by simp)
      have hp1 : ∀ p ∈ ps, p.1.Sized := fun p h => hp p (by simp [h])
      have hq1 : ∀ p ∈ qs, p.1.Sized := fun p h => hq p (by simp [h])
      cases ht with
      | mk hd hs hn =>
        cases ht' with
        | mk hd' hs' hn' =>
          cases h with
          | mk h1 h2 h3 h4 =>
            dsimp only [Tree.childs] at hd hs hn hd' hs' hn' h3 h4
            -- the children after one insertion
            have fk := insert_key ps e1
            have gk := insert_key qs e2
            have d1 := pairwise_insertChild (rev := ra) fk ha hs hd
            have s1 := insert_sizedItem (rev := ra) (insert_itemEq ps e1) ha hs
            have d2 := pairwise_insertChild (rev := rb) gk hb hs' hd'
            have s2 := insert_sizedItem (rev := rb) (insert_itemEq qs e2) hb hs'
            refine .mk h1 h2 ?_ ?_
            · intro K
              show (∃ c ∈ insertChild b rb (Tree.insert qs e2)
                  (insertChild a ra (Tree.insert ps e1) cs), c.key = K) ↔
                ∃ c ∈ insertChild a ra (Tree.insert ps e1)
                  (insertChild b rb (Tree.insert qs e2) cs'), c.key = K
              rw [keys_insertChild gk hb s1 d1, keys_insertChild fk ha hs hd,
                keys_insertChild fk ha s2 d2, keys_insertChild gk hb hs' hd', h3 K]
              constructor
              · rintro (h | h | h)
                · exact Or.inr (Or.inl h)
                · exact Or.inl h
                · exact Or.inr (Or.inr h)
              · rintro (h | h | h)
                · exact Or.inr (Or.inl h)
                · exact Or.inl h
                · exact Or.inr (Or.inr h)
            · intro c hc c' hc' hcc
              replace hc : c ∈ insertChild b rb (Tree.insert qs e2)
                (insertChild a ra (Tree.insert ps e1) cs) := hc
              replace hc' : c' ∈ insertChild a ra (Tree.insert ps e1)
                (insertChild b rb (Tree.insert qs e2) cs') := hc'
              by_cases hab : stepKey (a, ra) = stepKey (b, rb)
              · by_cases hK : c.key = stepKey (b, rb)
                · obtain ⟨d, hd1, rfl⟩ := cand_of_key gk hb s1 d1 hc hK
                  obtain ⟨d0, hd0, rfl⟩ := cand_again fk ha hs hd hab hd1
                  obtain ⟨d', hd2, rfl⟩ := cand_of_key fk ha s2 d2 hc' (by rw [← hcc, hK, hab])
                  obtain ⟨d3, hd3, rfl⟩ := cand_again gk hb hs' hd' hab.symm hd2
                  refine ih qs d0 d3 ?_ hp1 hq1 (hd0.neat hn) (hd3.neat hn') (hd0.eqv hab h3 h4 hd3)
                  intro e
                  exact hk (by rw [List.map_cons, List.map_cons, e, hab])
                · have hKa : c.key ≠ stepKey (a, ra) := by rw [hab]; exact hK
                  exact h4 c (old_of_key fk ha hs hd (old_of_key gk hb s1 d1 hc hK) hKa) c'
                    (old_of_key gk hb hs' hd' (old_of_key fk ha s2 d2 hc' (by rw [← hcc]; exact hKa))
                      (by rw [← hcc]; exact hK)) hcc
              · by_cases hK : c.key = stepKey (b, rb)
                · obtain ⟨d, hd1, rfl⟩ := cand_of_key gk hb s1 d1 hc hK
                  have hd1' := cand_other fk ha hs hd hab hd1
                  have hc2 := old_of_key fk ha s2 d2 hc' (by rw [← hcc, hK]; exact fun h => hab h.symm)
                  obtain ⟨d', hd2, rfl⟩ := cand_of_key gk hb hs' hd' hc2 (by rw [← hcc, hK])
                  exact insert_eqv qs qs e2 d d' rfl hq1 hq1 (hd1'.neat hn) (hd2.neat hn')
                    (hd1'.eqv rfl h3 h4 hd2)
                · have hc1 := old_of_key gk hb s1 d1 hc hK
                  by_cases hKa : c.key = stepKey (a, ra)
                  · obtain ⟨d, hd1, rfl⟩ := cand_of_key fk ha hs hd hc1 hKa
                    obtain ⟨d', hd2, rfl⟩ := cand_of_key fk ha s2 d2 hc' (by rw [← hcc, hKa])
                    have hd2' := cand_other gk hb hs' hd' (fun h => hab h.symm) hd2
                    exact insert_eqv ps ps e1 d d' rfl hp1 hp1 (hd1.neat hn) (hd2'.neat hn')
                      (hd1.eqv rfl h3 h4 hd2')
                  · exact h4 c (old_of_key fk ha hs hd hc1 hKa) c'
                      (old_of_key gk hb hs' hd' (old_of_key fk ha s2 d2 hc' (by rw [← hcc]; exact hKa))
                        (by rw [← hcc]; exact hK)) hcc

end Tree

end GoMatcher
