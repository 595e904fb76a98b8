import Verif.Proofs.TreeOrderMatch
import Verif.Proofs.Sized
import Verif.Proofs.GlobTreeHist

/-! # Batch trees filled in different orders -/

namespace GoMatcher

open Tree

/-! ## The steps of a glob and its node text -/

/-- The node text of an accepted glob is written by its parts; a glob without items has no parts. -/
theorem parseGlob_node {s : Str} {g : Glob} (h : parseGlob s = .ok (.ok g)) :
    (g.items = [] → g.pref = [] ∧ g.suff = []) ∧
    (g.items ≠ [] → g.node = g.pref ++ Item.writeItems g.items ++ g.suff) := by
  have fin : ∀ x : Glob, ((finishGlob x).items = [] → (finishGlob x).pref = [] ∧ (finishGlob x).suff = []) ∧
      ((finishGlob x).items ≠ [] → (finishGlob x).node =
        (finishGlob x).pref ++ Item.writeItems (finishGlob x).items ++ (finishGlob x).suff) := by
    intro x
    rw [finishGlob_keeps]
    by_cases h0 : x.items = []
    · refine ⟨fun _ => ?_, fun h => absurd h0 h⟩
      unfold finishGlob
      rw [if_pos (by simp [h0])]
      simp [h0]
    · refine ⟨fun h => absurd h h0, fun _ => ?_⟩
      unfold finishGlob
      rw [if_neg (by simpa using h0)]
      dsimp only
      split
      · split <;> rfl
      · rfl
  unfold parseGlob at h
  split at h
  · simp only [R.ok.injEq, Except.ok.injEq] at h
    rw [← h]
    exact ⟨fun _ => ⟨rfl, rfl⟩, fun h => absurd rfl h⟩
  · obtain ⟨pref, hp, h⟩ := R.bind_eq_ok.1 h
    obtain ⟨body, hb, h⟩ := R.bind_eq_ok.1 h
    dsimp only at h
    split at h
    · split at h
      · cases h
      · obtain ⟨⟨body', suff⟩, hc, h⟩ := R.bind_eq_ok.1 h
        dsimp only at h
        split at h
        · simp only [R.ok.injEq, Except.ok.injEq] at h
          rw [← h]
          exact fin _
        split at h
        · simp only [R.ok.injEq, Except.ok.injEq] at h
          rw [← h]
          exact fin _
        · obtain ⟨r, hr, h⟩ := R.bind_eq_ok.1 h
          split at h
          · cases h
          · simp only [R.ok.injEq, Except.ok.injEq] at h
            rw [← h]
            exact fin _
    · cases h

/-- A result of `Parse`. -/
def Glob.IsParsed (g : Glob) : Prop := ∃ s, parseGlob s = .ok (.ok g)

theorem Glob.IsParsed.steps_nil {g : Glob} (h : g.IsParsed) : g.steps = [] ↔ g.items = [] := by
  obtain ⟨s, h⟩ := h
  obtain ⟨h1, _⟩ := parseGlob_node h
  constructor
  · intro e
    unfold Glob.steps at e
    simp only [List.append_eq_nil_iff, List.map_eq_nil_iff] at e
    exact e.2.2
  · intro e
    obtain ⟨a, b⟩ := h1 e
    simp [Glob.steps, a, b, e]

theorem Glob.IsParsed.steps_sized {g : Glob} (h : g.IsParsed) : ∀ p ∈ g.steps, p.1.Sized := by
  obtain ⟨s, h⟩ := h
  intro p hp
  unfold Glob.steps at hp
  rcases List.mem_append.1 hp with hp | hp
  · split at hp
    · rw [List.mem_singleton.1 hp]; exact .str _
    · cases hp
  rcases List.mem_append.1 hp with hp | hp
  · split at hp
    · rw [List.mem_singleton.1 hp]; exact .str _
    · cases hp
  · obtain ⟨i, hi, rfl⟩ := List.mem_map.1 hp
    exact parseGlob_sized h i hi

theorem its_bare (ps qs : List (Item × Bool)) (h : ps.map stepKey = qs.map stepKey) :
    (its ps).map Item.bare = (its qs).map Item.bare := by
  have e : ∀ l : List (Item × Bool), (its l).map Item.bare = (l.map stepKey).map Prod.fst := by
    intro l
    induction l with
    | nil => rfl
    | cons p l ih => rw [List.map_cons, List.map_cons, ← ih]; rfl
  rw [e, e, h]

/-- The keys of the steps determine the node text. -/
theorem node_of_steps {x y : Glob} (hx : x.IsParsed) (hy : y.IsParsed)
    (h : x.steps.map stepKey = y.steps.map stepKey) (h0 : x.items ≠ []) : x.node = y.node := by
  have h0' : y.items ≠ [] := by
    intro e
    rw [hy.steps_nil.2 e] at h
    exact h0 (hx.steps_nil.1 (List.map_eq_nil_iff.1 h))
  have text : ∀ g : Glob, g.IsParsed → g.items ≠ [] →
      g.node = Item.writeItems (its g.body) ++ g.suff := by
    intro g hg hi
    obtain ⟨s, hs⟩ := hg
    rw [(parseGlob_node hs).2 hi, its_body]
    by_cases hp : g.pref = []
    · rw [if_neg (by simp [hp]), hp]; rfl
    · rw [if_pos hp, List.singleton_append, Item.writeItems, Item.writeString]
  have hrev : ∀ g : Glob, ∀ k ∈ g.body.map stepKey, k.2 = false := by
    intro g k hk
    obtain ⟨p, hp, rfl⟩ := List.mem_map.1 hk
    exact body_rev g p hp
  have body : x.suff = y.suff ∧ x.body.map stepKey = y.body.map stepKey := by
    rw [steps_eq, steps_eq, List.map_append, List.map_append] at h
    by_cases hx1 : x.suff = [] <;> by_cases hy1 : y.suff = []
    · rw [hx1, hy1] at h
      exact ⟨by rw [hx1, hy1], by simpa using h⟩
    · rw [if_neg (by simp [hx1]), if_pos hy1] at h
      have : stepKey (.str y.suff, true) ∈ x.body.map stepKey := by
        have h' : x.body.map stepKey = _ := h
        rw [h']; simp
      exact absurd (hrev x _ this) (by simp [stepKey])
    · rw [if_pos hx1, if_neg (by simp [hy1])] at h
      have : stepKey (.str x.suff, true) ∈ y.body.map stepKey := by
        have h' : _ = y.body.map stepKey := h
        rw [← h']; simp
      exact absurd (hrev y _ this) (by simp [stepKey])
    · rw [if_pos hx1, if_pos hy1] at h
      simp only [List.map_cons, List.map_nil, List.singleton_append, List.cons.injEq] at h
      refine ⟨?_, h.2⟩
      have := h.1
      simp only [stepKey, Item.bare, Prod.mk.injEq, Item.str.injEq, and_true] at this
      exact this
  rw [text x hx h0, text y hy h0', body.1, Item.writeItems_congr (its_bare _ _ body.2)]

/-! ## Roots -/

/-- The tree without the query and index of the root. -/
def Tree.core (t : Tree) : Tree := .node (.any 0) false none t.childs

theorem core_insert_nil (e : Str × Int) (t : Tree) : (t.insert [] e).core = t.core := by
  cases t; rfl

theorem core_insert {ps : List (Item × Bool)} (h : ps ≠ []) (e : Str × Int) (t : Tree) :
    (t.insert ps e).core = t.core.insert ps e := by
  cases t
  cases ps with
  | nil => exact absurd rfl h
  | cons p ps => rfl

/-- Roots with the same globs below them. -/
abbrev RootRel (t t' : Tree) : Prop := TRel t.core t'.core

theorem RootRel.refl {t : Tree} (h : t.core.Neat) : RootRel t t := ⟨h, h, h.eqv⟩

theorem RootRel.agree {t t' : Tree} (h : RootRel t t') (fuel : Nat) (s : Str) :
    Agree (t.matches fuel s) (t'.matches fuel s) := by
  have e : ∀ t : Tree, t.matches fuel s = t.core.matches fuel s := fun t => by cases t; rfl
  rw [e t, e t']
  cases h.eqv with
  | mk _ _ hc he => exact agree_matches fuel h.neat h.neat' hc he s

theorem RootRel.insert {t t' : Tree} (h : RootRel t t') {g : Glob} (hg : g.IsParsed) (e : Str × Int) :
    RootRel (t.insert g.steps e) (t'.insert g.steps e) := by
  by_cases h0 : g.steps = []
  · rw [h0]
    show TRel _ _
    rw [core_insert_nil, core_insert_nil]
    exact h
  · show TRel _ _
    rw [core_insert h0, core_insert h0]
    have hs := hg.steps_sized
    exact ⟨insert_neat _ _ _ hs h.neat, insert_neat _ _ _ hs h.neat',
      insert_eqv _ _ _ _ _ rfl hs hs h.neat h.neat' h.eqv⟩

theorem RootRel.swap {t t' : Tree} (h : RootRel t t') {x y : Glob} (hx : x.IsParsed)
    (hy : y.IsParsed) (hn : x.node ≠ y.node) (e f : Str × Int) :
    RootRel ((t.insert x.steps e).insert y.steps f) ((t'.insert y.steps f).insert x.steps e) := by
  by_cases hx0 : x.steps = []
  · show TRel _ _
    rw [hx0, core_insert_nil]
    by_cases hy0 : y.steps = []
    · rw [hy0, core_insert_nil, core_insert_nil, core_insert_nil]; exact h
    · rw [core_insert hy0, core_insert_nil, ← core_insert hy0]
      exact h.insert hy f
  · by_cases hy0 : y.steps = []
    · show TRel _ _
      rw [hy0, core_insert_nil, core_insert hx0 _ (t'.insert [] f), core_insert_nil, ← core_insert hx0]
      exact h.insert hx e
    · show TRel _ _
      rw [core_insert hy0, core_insert hx0, core_insert hx0, core_insert hy0]
      have sx := hx.steps_sized
      have sy := hy.steps_sized
      refine ⟨insert_neat _ _ _ sy (insert_neat _ _ _ sx h.neat),
        insert_neat _ _ _ sx (insert_neat _ _ _ sy h.neat'),
        insert_comm _ _ _ _ _ _ (fun e => hn ?_) sx sy h.neat h.neat' h.eqv⟩
      exact node_of_steps hx hy e (fun e => hx0 (hx.steps_nil.2 e))

/-! ## Adding without checks -/

/-- What an accepted `Add` does to the tree. -/
def GlobTree.put (t : GlobTree) (x : Glob × Int) : GlobTree :=
  { root := t.insert x.1 x.2
    globs := if x.1.node ≠ x.1.glob then (t.globs.set x.1.glob x.2).set x.1.node x.2
      else t.globs.set x.1.glob x.2
    globsIndex := t.globsIndex.set x.2 x.1.node }

theorem put_globs (t : GlobTree) (x : Glob × Int) (k : Str) :
    (t.put x).globs.get k = if k = x.1.glob ∨ k = x.1.node then some x.2 else t.globs.get k := by
  unfold GlobTree.put
  dsimp only
  by_cases h : x.1.node = x.1.glob
  · rw [if_neg (by simp [h]), GoMap.get_set, h]
    by_cases hk : k = x.1.glob
    · simp [hk]
    · simp [hk, Ne.symm hk]
  · rw [if_pos h, GoMap.get_set, GoMap.get_set]
    by_cases hk : k = x.1.glob
    · simp [hk]
    · by_cases hn : k = x.1.node
      · simp [hn]
      · simp [hk, hn, Ne.symm hk, Ne.symm hn]

theorem put_index (t : GlobTree) (x : Glob × Int) (k : Int) :
    (t.put x).globsIndex.get k = if k = x.2 then some x.1.node else t.globsIndex.get k := by
  unfold GlobTree.put
  dsimp only
  rw [GoMap.get_set]
  by_cases hk : k = x.2
  · simp [hk]
  · simp [hk, Ne.symm hk]

/-- Two additions that do not get in each other's way. -/
structure Apart (x y : Glob × Int) : Prop where
  index : x.2 ≠ y.2
  text : x.1.glob ≠ y.1.glob
  textNode : x.1.glob ≠ y.1.node
  nodeText : x.1.node ≠ y.1.glob
  node : x.1.node ≠ y.1.node

theorem Apart.symm {x y : Glob × Int} (h : Apart x y) : Apart y x :=
  ⟨h.index.symm, h.text.symm, h.nodeText.symm, h.textNode.symm, h.node.symm⟩

/-- The same tables. -/
structure SameTables (t t' : GlobTree) : Prop where
  globs : ∀ k, t.globs.get k = t'.globs.get k
  index : ∀ k, t.globsIndex.get k = t'.globsIndex.get k

theorem SameTables.put {t t' : GlobTree} (h : SameTables t t') (x : Glob × Int) :
    SameTables (t.put x) (t'.put x) :=
  ⟨fun k => by rw [put_globs, put_globs, h.globs], fun k => by rw [put_index, put_index, h.index]⟩

theorem SameTables.swap {t t' : GlobTree} (h : SameTables t t') {x y : Glob × Int} (a : Apart x y) :
    SameTables ((t.put x).put y) ((t'.put y).put x) := by
  constructor
  · intro k
    rw [put_globs, put_globs, put_globs, put_globs, h.globs]
    by_cases h1 : k = x.1.glob ∨ k = x.1.node <;> by_cases h2 : k = y.1.glob ∨ k = y.1.node
    · rcases h1 with h1 | h1 <;> rcases h2 with h2 | h2
      · exact absurd (h1.symm.trans h2) a.text
      · exact absurd (h1.symm.trans h2) a.textNode
      · exact absurd (h1.symm.trans h2) a.nodeText
      · exact absurd (h1.symm.trans h2) a.node
    all_goals simp [h1, h2]
  · intro k
    rw [put_index, put_index, put_index, put_index, h.index]
    by_cases h1 : k = x.2 <;> by_cases h2 : k = y.2
    · exact absurd (h1.symm.trans h2) a.index
    all_goals simp only [h1, h2, if_true, if_false]
    · have := a.index
      simp [this]
    · have := a.index.symm
      simp [this]

/-- Trees that answer alike. -/
structure TreeAlike (t t' : GlobTree) : Prop where
  tables : SameTables t t'
  matches' : ∀ fuel s, Agree (t.matches fuel s) (t'.matches fuel s)

theorem TreeAlike.trans {t t' t'' : GlobTree} (h : TreeAlike t t') (h' : TreeAlike t' t'') : TreeAlike t t'' :=
  ⟨⟨fun k => (h.tables.globs k).trans (h'.tables.globs k),
    fun k => (h.tables.index k).trans (h'.tables.index k)⟩,
    fun fuel s => (h.matches' fuel s).trans (h'.matches' fuel s)⟩

theorem foldl_put {L : List (Glob × Int)} (hp : ∀ x ∈ L, x.1.IsParsed) {t t' : GlobTree}
    (ht : SameTables t t') (hr : RootRel t.root t'.root) :
    SameTables (L.foldl GlobTree.put t) (L.foldl GlobTree.put t') ∧
      RootRel (L.foldl GlobTree.put t).root (L.foldl GlobTree.put t').root := by
  induction L generalizing t t' with
  | nil => exact ⟨ht, hr⟩
  | cons x L ih =>
    exact ih (fun y hy => hp y (by simp [hy])) (ht.put x) (hr.insert (hp x (by simp)) _)

/-- The order of additions that keep apart does not matter. -/
theorem foldl_put_perm {L L' : List (Glob × Int)} (h : L.Perm L') (hp : ∀ x ∈ L, x.1.IsParsed)
    (ha : L.Pairwise Apart) {t t' : GlobTree} (ht : SameTables t t') (hr : RootRel t.root t'.root) :
    TreeAlike (L.foldl GlobTree.put t) (L'.foldl GlobTree.put t') := by
  induction h generalizing t t' with
  | nil => exact ⟨ht, hr.agree⟩
  | cons x _ ih =>
    cases ha with
    | cons _ ha =>
      exact ih (fun y hy => hp y (by simp [hy])) ha (ht.put x) (hr.insert (hp x (by simp)) _)
  | swap x y l =>
    cases ha with
    | cons h1 _ =>
      have a : Apart y x := h1 x (by simp)
      have := foldl_put (L := l) (fun z hz => hp z (by simp [hz])) (ht.swap a)
        (hr.swap (hp y (by simp)) (hp x (by simp)) a.node (y.1.node, y.2) (x.1.node, x.2))
      exact ⟨this.1, this.2.agree⟩
  | trans h1 h2 ih1 ih2 =>
    have e1 := ih1 hp ha ht hr
    have e2 := ih2 (fun x hx => hp x (h1.mem_iff.2 hx))
      ((h1.pairwise_iff Apart.symm).1 ha) (t := t') (t' := t') ⟨fun _ => rfl, fun _ => rfl⟩
      (RootRel.refl hr.neat')
    exact e1.trans e2

end GoMatcher
