import Verif.Proofs.TreeOnceChars
import Verif.Proofs.Bare

/-! # An index of a history lies at the end of one path -/

namespace GoMatcher

section
variable {i : Int}

/-- A step without what `Equal` does not look at. -/
def bareStep (p : Item × Bool) : Item × Bool := (p.1.bare, p.2)

theorem equal_bare_solid {a b : Item} (hb : Solid b) (h : a.equal b = true) : a.bare = b.bare := by
  cases b with
  | list _ => exact hb.elim
  | group _ _ _ => exact hb.elim
  | chain _ _ _ => exact hb.elim
  | ranges rs =>
    cases a <;> simp only [Item.equal, Bool.false_eq_true] at h
    rename_i rs'
    obtain ⟨_, _, _, _, _⟩ := rs
    obtain ⟨_, _, _, _, _⟩ := rs'
    simp only [RunesRanges.equal, Bool.and_eq_true, beq_iff_eq] at h
    simp_all [Item.bare]
  | _ =>
    cases a <;> simp only [Item.equal, Bool.false_eq_true] at h
    all_goals (simp only [beq_iff_eq] at h; rw [h])

/-- Of the item everything that matters to a search is compared. -/
def Firm (b : Item) : Prop := ∀ a : Item, a.equal b = true → a.bare = b.bare

theorem firm_solid {b : Item} (hb : Solid b) : Firm b := fun _ h => equal_bare_solid hb h

theorem firm_list (l : StringList) : Firm (.list l) := by
  intro a h
  cases a <;> simp only [Item.equal, Bool.false_eq_true] at h
  simp only [Bool.and_eq_true, beq_iff_eq] at h
  obtain ⟨⟨h1, h2⟩, h3⟩ := h
  simp only [Item.bare, h1, h2, h3]

theorem insertChild_split (it : Item) (rev : Bool) (f : Tree → Tree) (cs : List Tree) :
    ∃ l d r, insertChild it rev f cs = l ++ f d :: r ∧
      ((cs = l ++ d :: r ∧ d.rev = rev ∧ d.item.equal it = true) ∨
       (cs = l ∧ r = [] ∧ d = .node it rev none [])) := by
  induction cs with
  | nil => exact ⟨[], _, [], rfl, .inr ⟨rfl, rfl, rfl⟩⟩
  | cons c cs ih =>
    rw [insertChild]
    split
    · rename_i h
      exact ⟨[], c, cs, rfl, .inl ⟨rfl, h⟩⟩
    · obtain ⟨l, d, r, e, h⟩ := ih
      refine ⟨c :: l, d, r, by rw [e]; rfl, ?_⟩
      rcases h with ⟨rfl, h⟩ | ⟨rfl, h⟩
      · exact .inl ⟨rfl, h⟩
      · exact .inr ⟨rfl, h⟩

theorem quiet_leaf (it : Item) (rev : Bool) : Tree.Quiet i (.node it rev none []) :=
  .mk (by rintro _ ⟨⟩) (by rintro _ ⟨⟩)

/-- A new index lies at the end of its own path. -/
theorem insert_onPath (ps : List (Item × Bool)) (e : Str × Int) (t : Tree) (ht : t.Quiet i)
    (hs : ∀ p ∈ ps, Firm p.1) :
    ∃ qs, (t.insert ps e).OnPath i qs ∧ qs.map bareStep = ps.map bareStep := by
  induction ps generalizing t with
  | nil =>
    obtain ⟨a, b, c, cs⟩ := t
    exact ⟨[], .here ht.child, rfl⟩
  | cons p ps ih =>
    obtain ⟨it, rev⟩ := p
    obtain ⟨a, b, c, cs⟩ := t
    have hs' : ∀ p ∈ ps, Firm p.1 := fun p hp => hs p (by simp [hp])
    obtain ⟨l, d, r, e1, h⟩ := insertChild_split it rev (Tree.insert ps e) cs
    have key : d.Quiet i ∧ (∀ x ∈ l, x.Quiet i) ∧ (∀ x ∈ r, x.Quiet i) ∧ d.rev = rev ∧
        d.item.bare = it.bare := by
      rcases h with ⟨rfl, h1, h2⟩ | ⟨rfl, rfl, rfl⟩
      · exact ⟨ht.child d (by simp [Tree.childs]), fun x hx => ht.child x (by simp [Tree.childs, hx]),
          fun x hx => ht.child x (by simp [Tree.childs, hx]), h1,
          hs (it, rev) (by simp) _ h2⟩
      · exact ⟨quiet_leaf it rev, fun x hx => ht.child x hx, by simp, rfl, rfl⟩
    obtain ⟨k1, k2, k3, k4, k5⟩ := key
    obtain ⟨qs, g1, g2⟩ := ih d k1 hs'
    refine ⟨_, .child (c := Tree.insert ps e d) ht.term e1 k2 k3 g1, ?_⟩
    simp only [List.map_cons, bareStep, tinsert_item, insert_rev, k4, k5]
    rw [show qs.map _ = _ from g2]

theorem insertChild_at {it : Item} {rev : Bool} {f : Tree → Tree} (c : Tree) (l r : List Tree)
    (hf : ∀ d, d.Quiet i → (f d).Quiet i) (hl : ∀ x ∈ l, x.Quiet i) (hr : ∀ x ∈ r, x.Quiet i) :
    ∃ l' c' r', insertChild it rev f (l ++ c :: r) = l' ++ c' :: r' ∧ (c' = c ∨ c' = f c) ∧
      (∀ x ∈ l', x.Quiet i) ∧ ∀ x ∈ r', x.Quiet i := by
  have hr' : ∀ x ∈ insertChild it rev f r, x.Quiet i := by
    intro x hx
    rcases mem_insertChild hx with h | ⟨d, h, _, _, rfl⟩ | rfl
    · exact hr x h
    · exact hf d (hr d h)
    · exact hf _ (quiet_leaf it rev)
  induction l with
  | nil =>
    rw [List.nil_append, insertChild]
    split
    · exact ⟨[], f c, r, rfl, .inr rfl, by simp, hr⟩
    · exact ⟨[], c, _, rfl, .inl rfl, by simp, hr'⟩
  | cons d l ih =>
    rw [List.cons_append, insertChild]
    split
    · refine ⟨f d :: l, c, r, rfl, .inl rfl, fun x hx => ?_, hr⟩
      rcases List.mem_cons.1 hx with rfl | hx
      · exact hf d (hl d (by simp))
      · exact hl x (by simp [hx])
    · obtain ⟨l', c', r', e, h1, h2, h3⟩ := ih fun x hx => hl x (by simp [hx])
      refine ⟨d :: l', c', r', by rw [e]; rfl, h1, fun x hx => ?_, h3⟩
      rcases List.mem_cons.1 hx with rfl | hx
      · exact hl x (by simp)
      · exact h2 x hx

/-- Other indexes do not disturb the path. -/
theorem insert_keeps_path (ps : List (Item × Bool)) (e : Str × Int) (he : e.2 ≠ i) (t : Tree)
    (qs : List (Item × Bool)) (h : t.OnPath i qs) : (t.insert ps e).OnPath i qs := by
  induction ps generalizing t qs with
  | nil =>
    obtain ⟨a, b, tm, cs⟩ := t
    cases h with
    | here hc => exact .here hc
    | child ht hcs hl hr h =>
      refine .child (t := .node a b (some e) cs) ?_ hcs hl hr h
      rintro _ ⟨⟩
      exact he
  | cons p ps ih =>
    obtain ⟨it, rev⟩ := p
    obtain ⟨a, b, tm, cs⟩ := t
    have hf : ∀ d : Tree, d.Quiet i → (d.insert ps e).Quiet i := fun d hd => insert_all hd he
    cases h with
    | here hc =>
      refine .here ?_
      intro x hx
      rcases mem_insertChild hx with h | ⟨d, h, _, _, rfl⟩ | rfl
      · exact hc x h
      · exact hf d (hc d h)
      · exact hf _ (quiet_leaf it rev)
    | @child _ c l r ps' ht hcs hl hr h =>
      have hcs' : cs = l ++ c :: r := hcs
      subst hcs'
      obtain ⟨l', c', r', e1, h1, h2, h3⟩ := insertChild_at (it := it) (rev := rev) c l r hf hl hr
      have hp : c'.item = c.item ∧ c'.rev = c.rev ∧ c'.OnPath i ps' := by
        rcases h1 with rfl | rfl
        · exact ⟨rfl, rfl, h⟩
        · exact ⟨tinsert_item _ _ _, insert_rev _ _ _, ih c ps' h⟩
      obtain ⟨p1, p2, p3⟩ := hp
      rw [← p1, ← p2]
      exact .child (t := .node a b tm (insertChild it rev (Tree.insert ps e) (l ++ c :: r))) ht e1 h2 h3 p3

/-! ## Histories -/

/-- What a call does to the tree and to the list of used indexes. -/
theorem apply_used (t t' : GlobTree) (op : GlobOp) (r : GAddRes) (h : op.apply t = .ok (t', r)) :
    (t' = t ∧ op.accepted r = []) ∨
    ∃ g j q, op.accepted r = [(g, j)] ∧ t.globsIndex.get j = none ∧
      t'.root = t.root.insert g.steps (g.node, j) ∧ t'.globsIndex = t.globsIndex.set j q := by
  cases op with
  | add s j =>
    simp only [GlobOp.apply, GlobTree.add] at h
    split at h
    · cases h
      exact .inl ⟨rfl, by simp [GlobOp.accepted, *]⟩
    rename_i h0
    split at h
    · cases h
      exact .inl ⟨rfl, by simp [GlobOp.accepted]⟩
    split at h
    · cases h
      exact .inl ⟨rfl, by simp [GlobOp.accepted]⟩
    split at h
    · cases h
      exact .inl ⟨rfl, by simp [GlobOp.accepted]⟩
    rename_i h3
    obtain ⟨p, hp, h⟩ := R.bind_eq_ok.1 h
    split at h
    · cases h
      exact .inl ⟨rfl, by simp [GlobOp.accepted]⟩
    rename_i g
    split at h
    · cases h
      exact .inl ⟨rfl, by simp [GlobOp.accepted]⟩
    · cases h
      exact .inr ⟨g, j, g.node, by simp [GlobOp.accepted, h0, hp], h3, rfl, rfl⟩
  | addGlob g j =>
    simp only [GlobOp.apply, R.ok.injEq] at h
    unfold GlobTree.addGlob at h
    split at h
    · cases h; exact .inl ⟨rfl, by simp [GlobOp.accepted]⟩
    split at h
    · cases h; exact .inl ⟨rfl, by simp [GlobOp.accepted]⟩
    split at h
    · cases h; exact .inl ⟨rfl, by simp [GlobOp.accepted]⟩
    split at h
    · cases h; exact .inl ⟨rfl, by simp [GlobOp.accepted]⟩
    · rename_i h4
      cases h
      exact .inr ⟨g, j, [], by simp [GlobOp.accepted], h4, rfl, rfl⟩

/-- The index is unused, or it belongs to one glob and lies at the end of its path. -/
def Placed (i : Int) (t : GlobTree) (L : List (Glob × Int)) : Prop :=
  ((∀ x ∈ L, x.2 ≠ i) ∧ t.root.Quiet i) ∨
  ∃ g, (g, i) ∈ L ∧ (∀ x ∈ L, x.2 = i → x.1 = g) ∧ ((∀ p ∈ g.steps, Firm p.1) →
    ∃ qs, t.root.OnPath i qs ∧ qs.map bareStep = g.steps.map bareStep)

theorem placed_ops (ops : List GlobOp) (t t' : GlobTree) (L L' : List (Glob × Int))
    (h : runGlobOps t L ops = .ok (t', L')) (hu : ∀ x ∈ L, t.globsIndex.get x.2 ≠ none)
    (hp : Placed i t L) : Placed i t' L' := by
  induction ops generalizing t L with
  | nil => cases h; exact hp
  | cons op ops ih =>
    rw [runGlobOps] at h
    obtain ⟨⟨t1, r⟩, h1, h2⟩ := R.bind_eq_ok.1 h
    dsimp only at h2
    rcases apply_used t t1 op r h1 with ⟨rfl, e⟩ | ⟨g, j, q, e, e1, e2, e3⟩
    · rw [e, List.append_nil] at h2
      exact ih _ _ h2 hu hp
    rw [e] at h2
    refine ih _ _ h2 ?_ ?_
    · intro x hx
      rw [e3, GoMap.get_set]
      split
      · simp
      · rename_i hn
        rcases List.mem_append.1 hx with hx | hx
        · exact hu x hx
        · rw [List.mem_singleton.1 hx] at hn
          exact absurd rfl hn
    · by_cases hij : j = i
      · subst hij
        have hL : ∀ x ∈ L, x.2 ≠ j := fun x hx e' => hu x hx (by rw [e']; exact e1)
        rcases hp with ⟨_, hq⟩ | ⟨g', hm, _⟩
        · refine .inr ⟨g, by simp, ?_, fun hs => ?_⟩
          · intro x hx hxi
            rcases List.mem_append.1 hx with hx | hx
            · exact absurd hxi (hL x hx)
            · rw [List.mem_singleton.1 hx]
          · rw [e2]
            exact insert_onPath _ _ _ hq hs
        · exact absurd rfl (hL _ hm)
      · rcases hp with ⟨hL, hq⟩ | ⟨g', hm, h', hs⟩
        · refine .inl ⟨?_, by rw [e2]; exact insert_all hq hij⟩
          intro x hx
          rcases List.mem_append.1 hx with hx | hx
          · exact hL x hx
          · rw [List.mem_singleton.1 hx]; exact hij
        · refine .inr ⟨g', by simp [hm], ?_, fun hg => ?_⟩
          · intro x hx hxi
            rcases List.mem_append.1 hx with hx | hx
            · exact h' x hx hxi
            · rw [List.mem_singleton.1 hx] at hxi
              exact absurd hxi hij
          · obtain ⟨qs, k1, k2⟩ := hs hg
            exact ⟨qs, by rw [e2]; exact insert_keeps_path _ _ hij _ _ k1, k2⟩

/-- The path of an accepted glob without groups. -/
theorem placed_run (ops : List GlobOp) (t : GlobTree) (L : List (Glob × Int))
    (h : runGlobTree ops = .ok (t, L)) (g : Glob) (hg : (g, i) ∈ L) (hs : ∀ p ∈ g.steps, Firm p.1) :
    ∃ qs, t.root.OnPath i qs ∧ qs.map bareStep = g.steps.map bareStep := by
  have := placed_ops (i := i) ops {} t [] L h (by simp) (.inl ⟨by simp, quiet_leaf _ _⟩)
  rcases this with ⟨h1, _⟩ | ⟨g', _, h1, h2⟩
  · exact absurd rfl (h1 _ hg)
  · have e : g = g' := h1 _ hg rfl
    subst e
    exact h2 hs

/-! ## What `Equal` does not look at -/

theorem bare_solid {a b : Item} (h : a.bare = b.bare) (hb : Solid b) : Solid a := by
  cases b <;> first | exact hb.elim | skip
  all_goals (cases a <;> simp only [Item.bare, reduceCtorEq] at h <;> first | trivial | skip)
  simp only [Item.str.injEq] at h
  subst h
  exact hb

theorem bare_star {a : Item} {n : Nat} (h : a.bare = (Item.star n).bare) : a = .star n := by
  cases a <;> simp only [Item.bare, reduceCtorEq] at h
  rw [h]

theorem bare_sem {a b : Item} (h : a.bare = b.bare) (hb : Solid b) (cs : List Char) :
    a.Sem cs ↔ b.Sem cs := by
  cases b <;> first | exact hb.elim | skip
  all_goals (cases a <;> simp only [Item.bare, reduceCtorEq] at h)
  case ranges.ranges rs' rs =>
    obtain ⟨_, _, _, _, _⟩ := rs
    obtain ⟨_, _, _, _, _⟩ := rs'
    simp only [Item.ranges.injEq, RunesRanges.mk.injEq] at h
    obtain ⟨rfl, rfl, -, rfl, rfl⟩ := h
    exact Iff.rfl
  all_goals rw [h]

theorem bare_clean {a b : Item} (h : a.bare = b.bare) (hb : Solid b) (cs : List Char) :
    Clean a cs → Clean b cs := by
  intro hc rs e
  subst e
  cases a <;> simp only [Item.bare, reduceCtorEq] at h
  exact hc _ rfl

theorem bare_done {a b : Item} {v : Nat} (h : a.bare = b.bare) (hb : Solid b) (hd : DoneItem b v) :
    DoneItem a v where
  width x hx := hd.width x ((bare_sem h hb x).1 hx)
  minLen x hx := by
    rw [← Item.bare_minLen, h, Item.bare_minLen]
    exact hd.minLen x ((bare_sem h hb x).1 hx)
  matchAt cs := by
    rw [Item.bare_matchAt h]
    rcases hd.matchAt cs with ⟨x, y, h1, h2, h3⟩ | ⟨h1, h2⟩
    · exact .inl ⟨x, y, h1, (bare_sem h hb x).2 h2, h3⟩
    · exact .inr ⟨fun hc x y e hx => h1 (bare_clean h hb cs hc) x y e ((bare_sem h hb x).1 hx), h2⟩

theorem bare_findItem {a b : Item} {v : Nat} (h : a.bare = b.bare) (hb : Solid b) (hd : FindItem b v) :
    FindItem a v where
  toDoneItem := bare_done h hb hd.toDoneItem
  find cs := by
    rw [Item.bare_find a b h]
    rcases hd.find cs with ⟨p, x, q, h1, h2, h3, h4⟩ | ⟨h1, h2⟩
    · exact .inl ⟨p, x, q, h1, (bare_sem h hb x).2 h2, h3,
        fun p' a' q' e ha => h4 p' a' q' e ((bare_sem h hb a').1 ha)⟩
    · exact .inr ⟨fun hc p x q e hx => h1 (bare_clean h hb cs hc) p x q e ((bare_sem h hb x).1 hx), h2⟩

theorem bare_wide {xs ys : List Item} {w : Nat} (h : xs.map Item.bare = ys.map Item.bare)
    (hs : ∀ y ∈ ys, Solid y) (hw : Wide ys w) : Wide xs w := by
  induction hw generalizing xs with
  | nil =>
    cases xs with
    | nil => exact .nil
    | cons => cases h
  | cons hd _ ih =>
    cases xs with
    | nil => cases h
    | cons x xs =>
      simp only [List.map_cons, List.cons.injEq] at h
      exact .cons (bare_done h.1 (hs _ (by simp)) hd) (ih h.2 fun y hy => hs y (by simp [hy]))

theorem bare_lone {xs ys : List Item} (h : xs.map Item.bare = ys.map Item.bare)
    (hs : ∀ y ∈ ys, Solid y) (hw : Lone ys) : Lone xs := by
  induction hw generalizing xs with
  | nil =>
    cases xs with
    | nil => exact .nil
    | cons => cases h
  | cons hd _ ih =>
    cases xs with
    | nil => cases h
    | cons x xs =>
      simp only [List.map_cons, List.cons.injEq] at h
      exact .cons (bare_done h.1 (hs _ (by simp)) hd) (ih h.2 fun y hy => hs y (by simp [hy]))
  | last n =>
    cases xs with
    | nil => cases h
    | cons x xs =>
      simp only [List.map_cons, List.map_nil, List.cons.injEq, List.map_eq_nil_iff] at h
      rw [h.2, bare_star h.1]
      exact .last n
  | star n hf hr =>
    cases xs with
    | nil => cases h
    | cons x xs =>
      cases xs with
      | nil => simp at h
      | cons y xs =>
        simp only [List.map_cons, List.cons.injEq] at h
        rw [bare_star h.1]
        exact .star n (bare_findItem h.2.1 (hs _ (by simp)) hf)
          (bare_wide h.2.2 (fun y hy => hs y (by simp [hy])) hr)

theorem bare_endStar {xs ys : List Item} (h : xs.map Item.bare = ys.map Item.bare)
    (hw : EndStar ys) : EndStar xs := by
  induction ys generalizing xs with
  | nil =>
    cases xs with
    | nil => trivial
    | cons => cases h
  | cons y ys ih =>
    cases xs with
    | nil => cases h
    | cons x xs =>
      simp only [List.map_cons, List.cons.injEq] at h
      have hy := hw.head
      have ht := ih h.2 hw.tail
      have hx := bare_solid h.1 hy
      cases xs with
      | nil => exact hx
      | cons x' xs =>
        cases ys with
        | nil => cases h.2
        | cons y' ys =>
          refine ⟨hx, fun n e => ?_, ht⟩
          subst e
          exact hw.2.1 n (bare_star h.1.symm)

theorem its_bareStep {qs ps : List (Item × Bool)} (h : qs.map bareStep = ps.map bareStep) :
    (its qs).map Item.bare = (its ps).map Item.bare := by
  have : ∀ l : List (Item × Bool), (its l).map Item.bare = (l.map bareStep).map Prod.fst := by
    intro l
    simp [its, bareStep, List.map_map, Function.comp_def]
  rw [this, this, h]

/-! ## The root -/

theorem quiet_root (fuel : Nat) {c : Tree} (h : c.Quiet i) (s : Str) : AtMost i 0
    (if c.rev then c.matchRev (Tree.matchT fuel) s else Tree.matchT fuel c s) := by
  split
  · refine atMost_only ?_
    unfold Tree.matchRev
    split
    · exact only_noEv
    refine only_bind fun u _ => ?_
    split
    · exact only_bind fun u _ => only_next (only_tree fuel).1 h _
    · exact only_noEv
  · exact quiet_matchT fuel h s

theorem atMost_rev {c : Tree} {w s : Str} (hw : c.item = .str w) {M : TMatcher} {n : Nat}
    (h : ∀ u, s = u ++ w → AtMost i n (c.next M u)) : AtMost i n (c.matchRev M s) := by
  unfold Tree.matchRev
  split
  · exact atMost_noEv n
  rw [hw, Item.matchLast, R.bind_ok]
  by_cases hs : hasSuffix s w = true
  · rw [if_pos hs]
    dsimp only
    refine atMost_bind fun u hu => h u ?_
    obtain ⟨v, rfl⟩ := List.isSuffixOf_iff_suffix.1 hs
    rw [sliceTo, if_pos (by omega)] at hu
    cases hu
    simp
  · rw [if_neg hs]
    exact atMost_noEv n

/-- The steps of a search from the root. -/
theorem once_root (fuel : Nat) {t : Tree} {s : Str} {qs : List (Item × Bool)} (h : t.OnPath i qs)
    (h1 : ∀ (c : Tree) ps, qs = (c.item, false) :: ps → c.OnPath i ps → AtMost i 1 (Tree.matchT fuel c s))
    (h2 : ∀ (c : Tree) ps, qs = (c.item, true) :: ps → c.OnPath i ps →
      AtMost i 1 (c.matchRev (Tree.matchT fuel) s)) :
    AtMost i 1 (t.matches fuel s) := by
  unfold Tree.matches
  refine atMost_childs (k := fun c => if c.rev then c.matchRev (Tree.matchT fuel) s else Tree.matchT fuel c s)
    (fun c hc => quiet_root fuel hc s) h ?_
  intro c ps e hc
  split
  · rename_i hr
    rw [hr] at e
    exact h2 c ps e hc
  · rename_i hr
    rw [Bool.not_eq_true] at hr
    rw [hr] at e
    exact h1 c ps e hc

end

end GoMatcher
