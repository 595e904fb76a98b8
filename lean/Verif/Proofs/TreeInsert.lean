import Verif.Proofs.Canon

/-! # Insertion into the batch tree -/

namespace GoMatcher

/-- Paths with the same directions and item by item the same items. -/
def SameP : List (Item × Bool) → List (Item × Bool) → Prop
  | [], [] => True
  | x :: xs, y :: ys => (Same x.1 y.1 ∧ x.2 = y.2) ∧ SameP xs ys
  | _, _ => False

theorem SameP.refl (xs : List (Item × Bool)) : SameP xs xs := by
  induction xs with
  | nil => trivial
  | cons x xs ih => exact ⟨⟨.refl x.1, rfl⟩, ih⟩

theorem SameP.symm {xs ys : List (Item × Bool)} (h : SameP xs ys) : SameP ys xs := by
  induction xs generalizing ys with
  | nil =>
    cases ys with
    | nil => trivial
    | cons => exact h.elim
  | cons x xs ih =>
    cases ys with
    | nil => exact h.elim
    | cons y ys => exact ⟨⟨h.1.1.symm, h.1.2.symm⟩, ih h.2⟩

theorem SameP.trans {xs ys zs : List (Item × Bool)} (h : SameP xs ys) (h' : SameP ys zs) :
    SameP xs zs := by
  induction xs generalizing ys zs with
  | nil =>
    cases ys with
    | nil => exact h'
    | cons => exact h.elim
  | cons x xs ih =>
    cases ys with
    | nil => exact h.elim
    | cons y ys =>
      cases zs with
      | nil => exact h'.elim
      | cons z zs => exact ⟨⟨h.1.1.trans h'.1.1, h.1.2.trans h'.1.2⟩, ih h.2 h'.2⟩

theorem SameP.its {xs ys : List (Item × Bool)} (h : SameP xs ys) : SameL (its xs) (its ys) := by
  induction xs generalizing ys with
  | nil =>
    cases ys with
    | nil => trivial
    | cons => exact h.elim
  | cons x xs ih =>
    cases ys with
    | nil => exact h.elim
    | cons y ys => exact ⟨h.1.1, ih h.2⟩

theorem SameP.nil_left {ys : List (Item × Bool)} (h : SameP [] ys) : ys = [] := by
  cases ys with
  | nil => rfl
  | cons => exact h.elim

theorem SameP.cons_left {x : Item × Bool} {xs ys : List (Item × Bool)} (h : SameP (x :: xs) ys) :
    ∃ y ys', ys = y :: ys' ∧ Same x.1 y.1 ∧ x.2 = y.2 ∧ SameP xs ys' := by
  cases ys with
  | nil => exact h.elim
  | cons y ys => exact ⟨y, ys, rfl, h.1.1, h.1.2, h.2⟩

theorem SameP.append_left {xs zs ys : List (Item × Bool)} (h : SameP (xs ++ zs) ys) :
    ∃ us vs, ys = us ++ vs ∧ SameP xs us ∧ SameP zs vs := by
  induction xs generalizing ys with
  | nil => exact ⟨[], ys, rfl, trivial, h⟩
  | cons x xs ih =>
    obtain ⟨y, ys, rfl, h1, h2, h3⟩ := SameP.cons_left (x := x) h
    obtain ⟨us, vs, rfl, h4, h5⟩ := ih h3
    exact ⟨y :: us, vs, rfl, ⟨⟨h1, h2⟩, h4⟩, h5⟩

/-- All items below are as the parser reads them. -/
inductive Tree.LocT : Tree → Prop
  | mk {t : Tree} (h : ∀ c ∈ t.childs, Loc c.item) (h2 : ∀ c ∈ t.childs, LocT c) : LocT t

theorem Tree.LocT.child {t c : Tree} (h : t.LocT) (hc : c ∈ t.childs) : Loc c.item ∧ c.LocT := by
  cases h with
  | mk h h2 => exact ⟨h c hc, h2 c hc⟩

theorem Tree.LocT.of {t : Tree} (h : ∀ c ∈ t.childs, Loc c.item ∧ c.LocT) : t.LocT :=
  .mk (fun c hc => (h c hc).1) (fun c hc => (h c hc).2)

theorem Tree.LocT.path {t : Tree} (h : t.LocT) {p : List (Item × Bool)} {e : Str × Int}
    (hp : t.Below p e) : ∀ x ∈ its p, Loc x := by
  induction hp with
  | here => intro x hx; cases hx
  | @child t c p e hc hp ih =>
    obtain ⟨h1, h2⟩ := h.child hc
    intro x hx
    rw [its_cons] at hx
    rcases List.mem_cons.1 hx with rfl | hx
    · exact h1
    · exact ih h2 x hx

@[simp] theorem tinsert_item (ps : List (Item × Bool)) (e : Str × Int) (t : Tree) :
    (t.insert ps e).item = t.item := by
  cases t
  cases ps <;> rfl

@[simp] theorem insert_rev (ps : List (Item × Bool)) (e : Str × Int) (t : Tree) :
    (t.insert ps e).rev = t.rev := by
  cases t
  cases ps <;> rfl

/-- The new children: an old one, the changed one, or a changed fresh one. -/
theorem mem_insertChild {it : Item} {rev : Bool} {f : Tree → Tree} {cs : List Tree} {c : Tree}
    (h : c ∈ insertChild it rev f cs) : c ∈ cs ∨
      (∃ d ∈ cs, d.rev = rev ∧ d.item.equal it = true ∧ c = f d) ∨ c = f (.node it rev none []) := by
  induction cs with
  | nil => exact Or.inr (Or.inr (by simpa [insertChild] using h))
  | cons d cs ih =>
    unfold insertChild at h
    split at h
    · rename_i hd
      rcases List.mem_cons.1 h with rfl | h
      · exact Or.inr (Or.inl ⟨d, by simp, hd.1, hd.2, rfl⟩)
      · exact Or.inl (by simp [h])
    · rcases List.mem_cons.1 h with rfl | h
      · exact Or.inl (by simp)
      · rcases ih h with h | ⟨d', h1, h2⟩ | h
        · exact Or.inl (by simp [h])
        · exact Or.inr (Or.inl ⟨d', by simp [h1], h2⟩)
        · exact Or.inr (Or.inr h)

/-- Old children stay or are changed. -/
theorem insertChild_keeps {it : Item} {rev : Bool} {f : Tree → Tree} {cs : List Tree} {c : Tree}
    (h : c ∈ cs) : c ∈ insertChild it rev f cs ∨
      (c.rev = rev ∧ c.item.equal it = true ∧ f c ∈ insertChild it rev f cs) := by
  induction cs with
  | nil => cases h
  | cons d cs ih =>
    unfold insertChild
    split
    · rename_i hd
      rcases List.mem_cons.1 h with rfl | h
      · exact Or.inr ⟨hd.1, hd.2, by simp⟩
      · exact Or.inl (by simp [h])
    · rcases List.mem_cons.1 h with rfl | h
      · exact Or.inl (by simp)
      · rcases ih h with h | ⟨h1, h2, h3⟩
        · exact Or.inl (by simp [h])
        · exact Or.inr ⟨h1, h2, by simp [h3]⟩

/-- One child is changed or new. -/
theorem insertChild_changed (it : Item) (rev : Bool) (f : Tree → Tree) (cs : List Tree) :
    (∃ d ∈ cs, d.rev = rev ∧ d.item.equal it = true ∧ f d ∈ insertChild it rev f cs) ∨
      f (.node it rev none []) ∈ insertChild it rev f cs := by
  induction cs with
  | nil => exact Or.inr (by simp [insertChild])
  | cons d cs ih =>
    unfold insertChild
    split
    · rename_i hd
      exact Or.inl ⟨d, by simp, hd.1, hd.2, by simp⟩
    · rcases ih with ⟨d', h1, h2, h3, h4⟩ | h
      · exact Or.inl ⟨d', by simp [h1], h2, h3, by simp [h4]⟩
      · exact Or.inr (by simp [h])

theorem locT_leaf (it : Item) (rev : Bool) : (Tree.node it rev none []).LocT :=
  .of (fun c hc => by cases hc)

theorem insert_locT (ps : List (Item × Bool)) (e : Str × Int) (t : Tree) (ht : t.LocT)
    (hp : ∀ x ∈ its ps, Loc x) : (t.insert ps e).LocT := by
  induction ps generalizing t with
  | nil =>
    obtain ⟨i, r, tm, cs⟩ := t
    exact .of (fun c hc => ht.child hc)
  | cons x ps ih =>
    obtain ⟨it, rev⟩ := x
    obtain ⟨i, r, tm, cs⟩ := t
    have hp' : ∀ x ∈ its ps, Loc x := fun x hx => hp x (by simp [hx])
    refine .of (fun c hc => ?_)
    rcases mem_insertChild hc with hc | ⟨d, hd, _, _, rfl⟩ | rfl
    · exact ht.child hc
    · rw [tinsert_item]
      have := ht.child hd
      exact ⟨this.1, ih d this.2 hp'⟩
    · rw [tinsert_item]
      exact ⟨hp it (by simp), ih _ (locT_leaf it rev) hp'⟩

/-- Paths after an insertion. -/
theorem insert_below {ps : List (Item × Bool)} {e : Str × Int} {t : Tree} (ht : t.LocT)
    (hp : ∀ x ∈ its ps, Loc x) {q : List (Item × Bool)} {e' : Str × Int}
    (h : (t.insert ps e).Below q e') : (SameP ps q ∧ e' = e) ∨ t.Below q e' := by
  induction ps generalizing t q with
  | nil =>
    obtain ⟨i, r, tm, cs⟩ := t
    cases h with
    | here h => exact Or.inl ⟨trivial, by injection h with h; exact h.symm⟩
    | child hc h => exact Or.inr (.child hc h)
  | cons x ps ih =>
    obtain ⟨it, rev⟩ := x
    obtain ⟨i, r, tm, cs⟩ := t
    have hp' : ∀ x ∈ its ps, Loc x := fun x hx => hp x (by simp [hx])
    cases h with
    | here h => exact Or.inr (.here h)
    | child hc h =>
      rcases mem_insertChild hc with hc | ⟨d, hd, h1, h2, rfl⟩ | rfl
      · exact Or.inr (.child hc h)
      · have hl := ht.child hd
        rw [tinsert_item, insert_rev]
        rcases ih hl.2 hp' h with ⟨h3, h4⟩ | h3
        · exact Or.inl ⟨⟨⟨(loc_equal hl.1 (hp it (by simp)) h2).symm, h1.symm⟩, h3⟩, h4⟩
        · exact Or.inr (.child hd h3)
      · rw [tinsert_item, insert_rev]
        rcases ih (locT_leaf it rev) hp' h with ⟨h3, h4⟩ | h3
        · exact Or.inl ⟨⟨⟨.refl it, rfl⟩, h3⟩, h4⟩
        · cases h3 with
          | here h => cases h
          | child hc _ => cases hc

/-- The inserted glob is found. -/
theorem insert_finds {ps : List (Item × Bool)} {e : Str × Int} {t : Tree} (ht : t.LocT)
    (hp : ∀ x ∈ its ps, Loc x) : ∃ q, SameP ps q ∧ (t.insert ps e).Below q e := by
  induction ps generalizing t with
  | nil =>
    obtain ⟨i, r, tm, cs⟩ := t
    exact ⟨[], trivial, .here rfl⟩
  | cons x ps ih =>
    obtain ⟨it, rev⟩ := x
    obtain ⟨i, r, tm, cs⟩ := t
    have hp' : ∀ x ∈ its ps, Loc x := fun x hx => hp x (by simp [hx])
    rcases insertChild_changed it rev (Tree.insert ps e) cs with ⟨d, hd, h1, h2, h3⟩ | h3
    · have hl := ht.child (t := .node i r tm cs) hd
      obtain ⟨q, hq, hb⟩ := ih hl.2 hp'
      refine ⟨_, ?_, .child (t := Tree.insert ((it, rev) :: ps) e (.node i r tm cs)) h3 hb⟩
      rw [tinsert_item, insert_rev]
      exact ⟨⟨(loc_equal hl.1 (hp it (by simp)) h2).symm, h1.symm⟩, hq⟩
    · obtain ⟨q, hq, hb⟩ := ih (locT_leaf it rev) hp'
      refine ⟨_, ?_, .child (t := Tree.insert ((it, rev) :: ps) e (.node i r tm cs)) h3 hb⟩
      rw [tinsert_item, insert_rev]
      exact ⟨⟨.refl it, rfl⟩, hq⟩

/-- Other globs are kept. -/
theorem insert_keeps {ps : List (Item × Bool)} {e : Str × Int} {t : Tree} (ht : t.LocT)
    (hp : ∀ x ∈ its ps, Loc x) {q : List (Item × Bool)} {e' : Str × Int} (h : t.Below q e')
    (hne : ¬ SameP ps q) : (t.insert ps e).Below q e' := by
  induction ps generalizing t q with
  | nil =>
    obtain ⟨i, r, tm, cs⟩ := t
    cases h with
    | here h => exact absurd trivial hne
    | child hc h => exact .child (t := Tree.insert [] e (.node i r tm cs)) hc h
  | cons x ps ih =>
    obtain ⟨it, rev⟩ := x
    obtain ⟨i, r, tm, cs⟩ := t
    have hp' : ∀ x ∈ its ps, Loc x := fun x hx => hp x (by simp [hx])
    cases h with
    | here h => exact .here h
    | @child _ c p _ hc h =>
      rcases insertChild_keeps (it := it) (rev := rev) (f := Tree.insert ps e) hc with h1 | ⟨h1, h2, h3⟩
      · exact .child (t := Tree.insert ((it, rev) :: ps) e (.node i r tm cs)) h1 h
      · have hl := ht.child hc
        have hn : ¬ SameP ps p := fun hs =>
          hne ⟨⟨(loc_equal hl.1 (hp it (by simp)) h2).symm, h1.symm⟩, hs⟩
        have := ih hl.2 hp' h hn
        have := Tree.Below.child (t := Tree.insert ((it, rev) :: ps) e (.node i r tm cs)) h3 this
        rw [tinsert_item, insert_rev] at this
        exact this

/-- Every node leads to a report. -/
theorem insert_live {ps : List (Item × Bool)} {e : Str × Int} {t : Tree}
    (h : ∀ c ∈ t.childs, c.Live) : (t.insert ps e).Live := by
  induction ps generalizing t with
  | nil =>
    obtain ⟨i, r, tm, cs⟩ := t
    exact .mk ⟨[], e, .here rfl⟩ h
  | cons x ps ih =>
    obtain ⟨it, rev⟩ := x
    obtain ⟨i, r, tm, cs⟩ := t
    have hfresh : (Tree.insert ps e (.node it rev none [])).Live :=
      ih (fun c hc => by cases hc)
    have hold : ∀ d ∈ cs, (d.insert ps e).Live := fun d hd => ih (fun c hc => (h d hd).child hc)
    refine .mk ?_ (fun c hc => ?_)
    · rcases insertChild_changed it rev (Tree.insert ps e) cs with ⟨d, hd, h1, h2, h3⟩ | h3
      · obtain ⟨q, e', hq⟩ := (hold d hd).path
        exact ⟨_, e', .child (t := Tree.insert ((it, rev) :: ps) e (.node i r tm cs)) h3 hq⟩
      · obtain ⟨q, e', hq⟩ := hfresh.path
        exact ⟨_, e', .child (t := Tree.insert ((it, rev) :: ps) e (.node i r tm cs)) h3 hq⟩
    · rcases mem_insertChild hc with hc | ⟨d, hd, _, _, rfl⟩ | rfl
      · exact h c hc
      · exact hold d hd
      · exact hfresh

/-! ## The tree of a list of globs -/

/-- The root after inserting the globs in order. -/
def treeOf (L : List (Glob × Int)) (t : Tree) : Tree :=
  L.foldl (fun t x => t.insert x.1.steps (x.1.node, x.2)) t

/-- The empty root. -/
def emptyRoot : Tree := .node (.any 0) false none []

structure TreeOk (L : List (Glob × Int)) (t : Tree) : Prop where
  loc : t.LocT
  live : ∀ c ∈ t.childs, c.Live
  sound : ∀ q e, t.Below q e → ∃ x ∈ L, SameP x.1.steps q ∧ e = (x.1.node, x.2)
  found : ∀ L1 x L2, L = L1 ++ x :: L2 → (∀ y ∈ L2, ¬ SameP y.1.steps x.1.steps) →
    ∃ q, SameP x.1.steps q ∧ t.Below q (x.1.node, x.2)

theorem treeOk_nil : TreeOk [] emptyRoot where
  loc := locT_leaf _ _
  live := fun c hc => by cases hc
  sound := by
    intro q e h
    cases h with
    | here h => cases h
    | child hc _ => cases hc
  found := by intro L1 x L2 h; cases L1 <;> cases h

theorem TreeOk.insert {L : List (Glob × Int)} {t : Tree} (h : TreeOk L t) (g : Glob) (i : Int)
    (hl : ∀ x ∈ its g.steps, Loc x) : TreeOk (L ++ [(g, i)]) (t.insert g.steps (g.node, i)) where
  loc := insert_locT _ _ _ h.loc hl
  live := fun c hc => (insert_live h.live).child hc
  sound := by
    intro q e hq
    rcases insert_below h.loc hl hq with ⟨h1, h2⟩ | h1
    · exact ⟨(g, i), by simp, h1, h2⟩
    · obtain ⟨x, hx, h2⟩ := h.sound q e h1
      exact ⟨x, by simp [hx], h2⟩
  found := by
    intro L1 x L2 e hlater
    rcases List.eq_nil_or_concat L2 with rfl | ⟨L2', y, rfl⟩
    · have : L = L1 ∧ (g, i) = x := by
        have := List.append_inj' e rfl
        simpa using this
      obtain ⟨rfl, rfl⟩ := this
      exact insert_finds h.loc hl
    · rw [List.concat_eq_append] at *
      have e' : L ++ [(g, i)] = (L1 ++ x :: L2') ++ [y] := by rw [e]; simp
      have := List.append_inj' e' rfl
      obtain ⟨e1, e2⟩ := this
      injection e2 with e2 _
      obtain ⟨q, hq, hb⟩ := h.found L1 x L2' e1 (fun z hz => hlater z (by simp [hz]))
      refine ⟨q, hq, insert_keeps h.loc hl hb ?_⟩
      intro hs
      exact hlater y (by simp) (by rw [← e2]; exact hs.trans hq.symm)

theorem treeOk_treeOf (L : List (Glob × Int)) (hl : ∀ x ∈ L, ∀ y ∈ its x.1.steps, Loc y) :
    TreeOk L (treeOf L emptyRoot) := by
  suffices key : ∀ (M L0 : List (Glob × Int)) (t : Tree), TreeOk L0 t →
      (∀ x ∈ M, ∀ y ∈ its x.1.steps, Loc y) → TreeOk (L0 ++ M) (treeOf M t) from
    key L [] emptyRoot treeOk_nil hl
  intro M
  induction M with
  | nil => intro L0 t h _; rw [List.append_nil]; exact h
  | cons x M ih =>
    intro L0 t h hM
    have := ih (L0 ++ [x]) _ (h.insert x.1 x.2 (hM x (by simp))) (fun y hy => hM y (by simp [hy]))
    rw [List.append_assoc] at this
    exact this

end GoMatcher
