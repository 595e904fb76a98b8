import Verif.Props.C08_C09_GlobTree
import Verif.Props.C13_Exact

/-! # C57: the order of `Add` calls on a tree of dotted globs -/

namespace GoMatcher

namespace C57

/-- The calls `Add(s, i)` one after another; `none` if one of them reports an error. -/
def addAll : GGlobTree → List (Str × Int) → Option GGlobTree
  | t, [] => some t
  | t, (s, i) :: l =>
    match t.add s i with
    | .ok (t', r) => if r.err = none then addAll t' l else none
    | _ => none

/-! ## Which lists of calls go through -/

/-- An accepted call: text, parsed glob, index. -/
structure Adding where
  text : Str
  glob : GGlob
  index : Int

/-- What an accepted `Add` does to the tree. -/
def put (t : GGlobTree) (a : Adding) : GGlobTree :=
  { root := addGGlob t.root a.glob a.index
    globs := (t.globs.set a.text a.index).set a.glob.node a.index
    globsIndex := t.globsIndex.set a.index a.glob.node }

theorem put_globs (t : GGlobTree) (a : Adding) (k : Str) :
    (put t a).globs.get k = if k = a.text ∨ k = a.glob.node then some a.index else t.globs.get k := by
  unfold put
  dsimp only
  rw [GoMap.get_set, GoMap.get_set]
  by_cases hn : k = a.glob.node
  · simp [hn]
  · by_cases hk : k = a.text
    · simp [hk]
    · simp [hk, hn, Ne.symm hk, Ne.symm hn]

theorem put_index (t : GGlobTree) (a : Adding) (k : Int) :
    (put t a).globsIndex.get k = if k = a.index then some a.glob.node else t.globsIndex.get k := by
  unfold put
  dsimp only
  rw [GoMap.get_set]
  by_cases hk : k = a.index
  · simp [hk]
  · simp [hk, Ne.symm hk]

/-- Two additions that do not get in each other's way. -/
structure Apart (x y : Adding) : Prop where
  index : x.index ≠ y.index
  text : x.text ≠ y.text
  textNode : x.text ≠ y.glob.node
  nodeText : x.glob.node ≠ y.text
  node : x.glob.node ≠ y.glob.node

theorem Apart.symm {x y : Adding} (h : Apart x y) : Apart y x :=
  ⟨h.index.symm, h.text.symm, h.nodeText.symm, h.textNode.symm, h.node.symm⟩

/-- The call on its own. -/
def Fine (t : GGlobTree) (x : Str × Int) : Prop :=
  x.1 = [] ∨ (0 ≤ x.2 ∧ t.globs.get x.1 = none ∧ t.globsIndex.get x.2 = none ∧
    ∃ g, parseGGlob x.1 = .ok (.ok g) ∧ t.globs.get g.node = none)

/-- What the call adds. -/
def added (x : Str × Int) : Option Adding :=
  if x.1 = [] then none
  else match parseGGlob x.1 with
    | .ok (.ok g) => some ⟨x.1, g, x.2⟩
    | _ => none

/-- Two calls. -/
def Beside (x y : Str × Int) : Prop := ∀ a ∈ added x, ∀ b ∈ added y, Apart a b

theorem Beside.symm {x y : Str × Int} (h : Beside x y) : Beside y x :=
  fun a ha b hb => (h b hb a ha).symm

theorem add_empty (t : GGlobTree) (i : Int) : t.add [] i = .ok (t, {}) := by
  unfold GGlobTree.add
  rw [if_pos rfl]

theorem add_fine {t : GGlobTree} {s : Str} {i : Int} (h : Fine t (s, i)) (h0 : s ≠ []) :
    ∃ a r, added (s, i) = some a ∧ t.add s i = .ok (put t a, r) ∧ r.err = none := by
  rcases h with h | ⟨h1, h2, h3, g, h4, h5⟩
  · exact absurd h h0
  · dsimp only at h1 h2 h3 h4
    refine ⟨⟨s, g, i⟩, { normalized := g.node, n := i }, by simp [added, h0, h4], ?_, rfl⟩
    unfold GGlobTree.add
    rw [if_neg h0, if_neg (by omega), h2]
    dsimp only
    rw [h3]
    dsimp only
    rw [h4, R.bind_ok]
    dsimp only
    rw [h5]
    rfl

theorem fine_of_add {t t' : GGlobTree} {s : Str} {i : Int} {r : AddRes}
    (h : t.add s i = .ok (t', r)) (hr : r.err = none) : Fine t (s, i) := by
  by_cases h0 : s = []
  · exact .inl h0
  · exact .inr ((C15.add_error t s i h0 t' r h).2.2.2.2.1 hr)

theorem added_of_fine {t : GGlobTree} {x : Str × Int} (h : Fine t x) (h0 : x.1 ≠ []) :
    ∃ g, parseGGlob x.1 = .ok (.ok g) ∧ added x = some ⟨x.1, g, x.2⟩ := by
  rcases h with h | ⟨_, _, _, g, h4, _⟩
  · exact absurd h h0
  · exact ⟨g, h4, by simp [added, h0, h4]⟩

theorem fine_put {t : GGlobTree} {x y : Str × Int} {a : Adding} (hx : Fine t x)
    (ha : added x = some a) : Fine (put t a) y ↔ Fine t y ∧ Beside x y := by
  have hx0 : x.1 ≠ [] := by
    intro e
    simp [added, e] at ha
  obtain ⟨g, hg, hax⟩ := added_of_fine hx hx0
  rw [ha] at hax
  obtain rfl : a = ⟨x.1, g, x.2⟩ := by simpa using hax
  by_cases hy0 : y.1 = []
  · constructor
    · intro _
      refine ⟨.inl hy0, ?_⟩
      intro a _ b hb
      simp [added, hy0] at hb
    · intro _; exact .inl hy0
  have look : ∀ k, (put t ⟨x.1, g, x.2⟩).globs.get k = none ↔ t.globs.get k = none ∧ k ≠ x.1 ∧ k ≠ g.node := by
    intro k
    rw [put_globs]
    dsimp only
    by_cases hk : k = x.1 ∨ k = g.node
    · rw [if_pos hk]
      constructor
      · rintro ⟨⟩
      · rintro ⟨_, h1, h2⟩
        rcases hk with hk | hk
        · exact absurd hk h1
        · exact absurd hk h2
    · rw [if_neg hk]
      exact ⟨fun h => ⟨h, fun e => hk (.inl e), fun e => hk (.inr e)⟩, fun h => h.1⟩
  have idx : ∀ k, (put t ⟨x.1, g, x.2⟩).globsIndex.get k = none ↔ t.globsIndex.get k = none ∧ k ≠ x.2 := by
    intro k
    rw [put_index]
    dsimp only
    by_cases hk : k = x.2
    · rw [if_pos hk]; simp [hk]
    · rw [if_neg hk]; simp [hk]
  constructor
  · rintro (h | ⟨h1, h2, h3, f, h4, h5⟩)
    · exact absurd h hy0
    obtain ⟨k1, k2, k3⟩ := (look _).1 h2
    obtain ⟨k4, k5⟩ := (idx _).1 h3
    obtain ⟨k6, k7, k8⟩ := (look _).1 h5
    refine ⟨.inr ⟨h1, k1, k4, f, h4, k6⟩, ?_⟩
    intro a' ha' b hb
    rw [ha] at ha'
    cases ha'
    have hb' : added y = some ⟨y.1, f, y.2⟩ := by simp [added, hy0, h4]
    rw [hb'] at hb
    cases hb
    exact ⟨Ne.symm k5, Ne.symm k2, Ne.symm k7, Ne.symm k3, Ne.symm k8⟩
  · rintro ⟨h | ⟨h1, h2, h3, f, h4, h5⟩, hb⟩
    · exact absurd h hy0
    have hb' : added y = some ⟨y.1, f, y.2⟩ := by simp [added, hy0, h4]
    have ap : Apart ⟨x.1, g, x.2⟩ ⟨y.1, f, y.2⟩ := hb _ (by rw [ha]; simp) _ (by rw [hb']; simp)
    exact .inr ⟨h1, (look _).2 ⟨h2, Ne.symm ap.text, Ne.symm ap.nodeText⟩,
      (idx _).2 ⟨h3, Ne.symm ap.index⟩, f, h4,
      (look _).2 ⟨h5, Ne.symm ap.textNode, Ne.symm ap.node⟩⟩

/-- The calls go through if each does on its own and no two get in each other's way; the tree is
then filled with what they add. -/
theorem addAll_iff (l : List (Str × Int)) (t t' : GGlobTree) :
    addAll t l = some t' ↔
      ((∀ x ∈ l, Fine t x) ∧ l.Pairwise Beside) ∧ t' = (l.filterMap added).foldl put t := by
  induction l generalizing t with
  | nil => simp [addAll, eq_comm]
  | cons x l ih =>
    obtain ⟨s, i⟩ := x
    by_cases h0 : s = []
    · subst h0
      have hb : ∀ y, Beside ([], i) y := fun y a ha => by simp [added] at ha
      have ha : added ([], i) = none := by simp [added]
      rw [addAll, add_empty]
      simp only [if_true]
      rw [ih, List.filterMap_cons_none ha]
      simp only [List.mem_cons, forall_eq_or_imp, List.pairwise_cons]
      constructor
      · rintro ⟨⟨h1, h2⟩, h3⟩; exact ⟨⟨⟨.inl rfl, h1⟩, fun y _ => hb y, h2⟩, h3⟩
      · rintro ⟨⟨⟨_, h1⟩, _, h2⟩, h3⟩; exact ⟨⟨h1, h2⟩, h3⟩
    · constructor
      · intro h
        rw [addAll] at h
        split at h
        · rename_i t1 r hadd
          split at h
          · rename_i hr
            have hf := fine_of_add hadd hr
            obtain ⟨a, r', ha, hadd', _⟩ := add_fine hf h0
            rw [hadd] at hadd'
            cases hadd'
            obtain ⟨⟨k1, k2⟩, k3⟩ := (ih _).1 h
            rw [List.filterMap_cons_some ha, List.foldl_cons]
            refine ⟨⟨?_, List.pairwise_cons.2 ⟨fun y hy => ((fine_put hf ha).1 (k1 y hy)).2, k2⟩⟩, k3⟩
            intro y hy
            rcases List.mem_cons.1 hy with rfl | hy
            · exact hf
            · exact ((fine_put hf ha).1 (k1 y hy)).1
          · cases h
        · cases h
      · rintro ⟨⟨h1, h2⟩, h3⟩
        have hf := h1 (s, i) (by simp)
        obtain ⟨a, r, ha, hadd, hr⟩ := add_fine hf h0
        rw [addAll, hadd]
        dsimp only
        rw [if_pos hr]
        rw [List.filterMap_cons_some ha, List.foldl_cons] at h3
        obtain ⟨h4, h5⟩ := List.pairwise_cons.1 h2
        exact (ih _).2 ⟨⟨fun y hy => (fine_put hf ha).2 ⟨h1 y (by simp [hy]), h4 y hy⟩, h5⟩, h3⟩

theorem pairwise_added {l : List (Str × Int)} (h : l.Pairwise Beside) :
    (l.filterMap added).Pairwise Apart := by
  induction l with
  | nil => exact List.Pairwise.nil
  | cons x l ih =>
    obtain ⟨h1, h2⟩ := List.pairwise_cons.1 h
    cases ha : added x with
    | none => rw [List.filterMap_cons_none ha]; exact ih h2
    | some a =>
      rw [List.filterMap_cons_some ha]
      refine List.pairwise_cons.2 ⟨?_, ih h2⟩
      intro b hb
      obtain ⟨y, hy, e⟩ := List.mem_filterMap.1 hb
      exact h1 y hy a (by rw [ha]; simp) b (by rw [e]; simp)

/-- Entries in the tables after the additions. -/
theorem foldl_globs (l : List Adding) (h : l.Pairwise Apart) (t : GGlobTree) (k : Str) (i : Int) :
    (l.foldl put t).globs.get k = some i ↔
      (∃ a ∈ l, (k = a.text ∨ k = a.glob.node) ∧ i = a.index) ∨
        (∀ a ∈ l, ¬(k = a.text ∨ k = a.glob.node)) ∧ t.globs.get k = some i := by
  induction l generalizing t with
  | nil => simp
  | cons a l ih =>
    obtain ⟨h1, h2⟩ := List.pairwise_cons.1 h
    rw [List.foldl_cons, ih h2, put_globs]
    simp only [List.mem_cons, exists_eq_or_imp, forall_eq_or_imp]
    by_cases hk : k = a.text ∨ k = a.glob.node
    · have hno : ∀ b ∈ l, ¬(k = b.text ∨ k = b.glob.node) := by
        intro b hb hkb
        have ap := h1 b hb
        rcases hk with hk | hk <;> rcases hkb with hkb | hkb
        · exact ap.text (hk.symm.trans hkb)
        · exact ap.textNode (hk.symm.trans hkb)
        · exact ap.nodeText (hk.symm.trans hkb)
        · exact ap.node (hk.symm.trans hkb)
      rw [if_pos hk]
      constructor
      · rintro (⟨b, hb, hkb, _⟩ | ⟨_, e⟩)
        · exact absurd hkb (hno b hb)
        · exact .inl (.inl ⟨hk, (Option.some.inj e).symm⟩)
      · rintro ((⟨_, e⟩ | ⟨b, hb, hkb, _⟩) | ⟨⟨h, _⟩, _⟩)
        · exact .inr ⟨hno, by rw [e]⟩
        · exact absurd hkb (hno b hb)
        · exact absurd hk h
    · rw [if_neg hk]
      constructor
      · rintro (h | ⟨h3, h4⟩)
        · exact .inl (.inr h)
        · exact .inr ⟨⟨hk, h3⟩, h4⟩
      · rintro ((⟨h, _⟩ | h) | ⟨⟨_, h3⟩, h4⟩)
        · exact absurd h hk
        · exact .inl h
        · exact .inr ⟨h3, h4⟩

theorem foldl_index (l : List Adding) (h : l.Pairwise Apart) (t : GGlobTree) (k : Int) (s : Str) :
    (l.foldl put t).globsIndex.get k = some s ↔
      (∃ a ∈ l, k = a.index ∧ s = a.glob.node) ∨
        (∀ a ∈ l, k ≠ a.index) ∧ t.globsIndex.get k = some s := by
  induction l generalizing t with
  | nil => simp
  | cons a l ih =>
    obtain ⟨h1, h2⟩ := List.pairwise_cons.1 h
    rw [List.foldl_cons, ih h2, put_index]
    simp only [List.mem_cons, exists_eq_or_imp, forall_eq_or_imp]
    by_cases hk : k = a.index
    · have hno : ∀ b ∈ l, k ≠ b.index := fun b hb e => (h1 b hb).index (hk.symm.trans e)
      rw [if_pos hk]
      constructor
      · rintro (⟨b, hb, hkb, _⟩ | ⟨_, e⟩)
        · exact absurd hkb (hno b hb)
        · exact .inl (.inl ⟨hk, (Option.some.inj e).symm⟩)
      · rintro ((⟨_, e⟩ | ⟨b, hb, hkb, _⟩) | ⟨⟨h, _⟩, _⟩)
        · exact .inr ⟨hno, by rw [e]⟩
        · exact absurd hkb (hno b hb)
        · exact absurd hk h
    · rw [if_neg hk]
      constructor
      · rintro (h | ⟨h3, h4⟩)
        · exact .inl (.inr h)
        · exact .inr ⟨⟨hk, h3⟩, h4⟩
      · rintro ((⟨h, _⟩ | h) | ⟨⟨_, h3⟩, h4⟩)
        · exact absurd h hk
        · exact .inl h
        · exact .inr ⟨h3, h4⟩

theorem same_tables {l l' : List (Str × Int)} (h : l.Perm l') {t t' : GGlobTree}
    (ht : addAll {} l = some t) (ht' : addAll {} l' = some t') :
    (∀ k, t.globs.get k = t'.globs.get k) ∧ ∀ k, t.globsIndex.get k = t'.globsIndex.get k := by
  obtain ⟨⟨_, h2⟩, rfl⟩ := (addAll_iff _ _ _).1 ht
  obtain ⟨⟨_, h2'⟩, rfl⟩ := (addAll_iff _ _ _).1 ht'
  have hm : ∀ a, a ∈ l.filterMap added ↔ a ∈ l'.filterMap added := fun a => (h.filterMap added).mem_iff
  constructor
  · intro k
    apply Option.ext
    intro i
    rw [foldl_globs _ (pairwise_added h2), foldl_globs _ (pairwise_added h2')]
    simp only [hm]
  · intro k
    apply Option.ext
    intro i
    rw [foldl_index _ (pairwise_added h2), foldl_index _ (pairwise_added h2')]
    simp only [hm]

/-! ## The property -/

/-- If some `Add` calls on an empty tree all go through, they go through in any other order. -/
theorem order_accepted (l l' : List (Str × Int)) (h : l.Perm l') (t : GGlobTree)
    (ht : addAll {} l = some t) : ∃ t', addAll {} l' = some t' := by
  obtain ⟨⟨h1, h2⟩, _⟩ := (addAll_iff _ _ _).1 ht
  exact ⟨_, (addAll_iff _ _ _).2 ⟨⟨fun x hx => h1 x (h.mem_iff.2 hx),
    (h.pairwise_iff Beside.symm).1 h2⟩, rfl⟩⟩

/-- A further `Add` on either tree reports the same text, index and error. -/
theorem order_later (l l' : List (Str × Int)) (h : l.Perm l') (t t' : GGlobTree)
    (ht : addAll {} l = some t) (ht' : addAll {} l' = some t') (s : Str) (i : Int)
    (u u' : GGlobTree) (r r' : AddRes) (hu : t.add s i = .ok (u, r)) (hu' : t'.add s i = .ok (u', r')) :
    r = r' := by
  obtain ⟨hg, hi⟩ := same_tables h ht ht'
  unfold GGlobTree.add at hu hu'
  rw [← hg, ← hi] at hu'
  by_cases h0 : s = []
  · rw [if_pos h0] at hu hu'; cases hu; cases hu'; rfl
  rw [if_neg h0] at hu hu'
  by_cases h1 : i < 0
  · rw [if_pos h1] at hu hu'; cases hu; cases hu'; rfl
  rw [if_neg h1] at hu hu'
  cases e1 : t.globs.get s with
  | some n => rw [e1] at hu hu'; cases hu; cases hu'; rfl
  | none =>
    rw [e1] at hu hu'
    dsimp only at hu hu'
    cases e2 : t.globsIndex.get i with
    | some q => rw [e2] at hu hu'; cases hu; cases hu'; rfl
    | none =>
      rw [e2] at hu hu'
      dsimp only at hu hu'
      obtain ⟨pr, hpr⟩ := parseGGlob_total s
      rw [hpr, R.bind_ok] at hu hu'
      cases pr with
      | error e => cases hu; cases hu'; rfl
      | ok g =>
        dsimp only at hu hu'
        rw [← hg] at hu'
        cases e3 : t.globs.get g.node with
        | some n => rw [e3] at hu hu'; cases hu; cases hu'; rfl
        | none => rw [e3] at hu hu'; cases hu; cases hu'; rfl

/-- The globs and indexes of the accepted calls. -/
def entries (l : List (Str × Int)) : List (GGlob × Int) :=
  (l.filterMap added).map fun a => (a.glob, a.index)

theorem addAll_run (l : List (Str × Int)) (t t' : GGlobTree) (L : List (GGlob × Int))
    (h : addAll t l = some t') :
    runOps t L (l.map fun x => .add x.1 x.2) = .ok (t', L ++ entries l) := by
  induction l generalizing t L with
  | nil => cases h; simp [runOps, entries]
  | cons x l ih =>
    rw [addAll] at h
    split at h
    · rename_i t1 r hadd
      split at h
      · rename_i hr
        rw [List.map_cons, runOps]
        simp only [GOp.apply]
        rw [hadd, R.bind_ok]
        dsimp only
        rw [ih _ _ h, List.append_assoc]
        congr 3
        have hf := fine_of_add hadd hr
        unfold entries
        by_cases h0 : x.1 = []
        · have ha : added x = none := by simp [added, h0]
          rw [List.filterMap_cons_none ha]
          simp [GOp.accepted, h0]
        · obtain ⟨g, hg, ha⟩ := added_of_fine hf h0
          rw [List.filterMap_cons_some ha]
          simp [GOp.accepted, h0, hr, hg]
      · cases h
    · cases h

/-! ## What is reported -/

/-- Wild parts of accepted globs that have the same normal form are written the same. -/
def Spelled (L : List (GGlob × Int)) : Prop :=
  ∀ x ∈ L, ∀ y ∈ L, ∀ a ∈ x.1.parts, ∀ b ∈ y.1.parts, a.items.length ≠ 0 → b.items.length ≠ 0 →
    a.node = b.node → a.glob = b.glob

theorem loop_parsed (w s : Str) (gs : List Glob) (h : ggParseLoop w s = .ok (.ok gs)) :
    ∀ a ∈ gs, parseGlob a.glob = .ok (.ok a) := by
  by_cases hs : s = []
  · subst hs
    rw [ggParseLoop] at h
    cases h
    simp
  · obtain ⟨hl, hz⟩ := (ggParseLoop_ok w s gs hs).1 h
    intro a ha
    obtain ⟨k, hk, rfl⟩ := List.getElem_of_mem ha
    have hk' : k < (dropEmptyEnd (splitByte s 46)).length := by omega
    have := (hz (gs[k], (dropEmptyEnd (splitByte s 46))[k]) (by
      rw [← List.getElem_zip (h := by simp; omega)]
      exact List.getElem_mem _)).2
    dsimp only at this
    rw [parseGlob_glob this]
    exact this

theorem part_parsed {s : Str} {g : GGlob} (hs : parseGGlob s = .ok (.ok g)) :
    ∀ a ∈ g.parts, parseGlob a.glob = .ok (.ok a) :=
  loop_parsed _ _ _ (parseGGlob_ok hs).1

theorem entries_parsed {l : List (Str × Int)} {x : GGlob × Int} (h : x ∈ entries l) :
    ∀ a ∈ x.1.parts, parseGlob a.glob = .ok (.ok a) := by
  unfold entries at h
  obtain ⟨a, ha, rfl⟩ := List.mem_map.1 h
  obtain ⟨y, _, hy⟩ := List.mem_filterMap.1 ha
  unfold added at hy
  split at hy
  · cases hy
  · split at hy
    · rename_i g hg
      cases hy
      exact part_parsed hg
    · cases hy

/-- The part in the tree is then the part itself. -/
theorem own_part {L : List (GGlob × Int)} (hs : Spelled L)
    (hp : ∀ x ∈ L, ∀ a ∈ x.1.parts, parseGlob a.glob = .ok (.ok a)) {x : GGlob × Int} (hx : x ∈ L) {k : Nat}
    {a : Glob} (ha : x.1.parts[k]? = some a) (h0 : a.items.length ≠ 0) : C13.partInTree L x.1 k = some a := by
  unfold C13.partInTree
  cases hf : L.find? fun y => y.1.parts.length = x.1.parts.length ∧
      (y.1.parts.take (k + 1)).map C13.kind = (x.1.parts.take (k + 1)).map C13.kind with
  | none =>
    have := List.find?_eq_none.1 hf x hx
    simp at this
  | some y =>
    have hy1 := List.mem_of_find?_eq_some hf
    have hy2 := List.find?_some hf
    simp only [decide_eq_true_eq] at hy2
    obtain ⟨hl, hk⟩ := hy2
    obtain ⟨hk1, ha'⟩ := List.getElem?_eq_some_iff.1 ha
    have hyk : y.1.parts[k]? = some (y.1.parts[k]'(by omega)) := List.getElem?_eq_getElem _
    have hkk := congrArg (fun l => l[k]?) hk
    simp only [List.getElem?_map, List.getElem?_take_of_lt (Nat.lt_succ_self k), hyk, ha, Option.map_some,
      Option.some.injEq] at hkk
    generalize y.1.parts[k]'(by omega) = b at hyk hkk
    unfold C13.kind at hkk
    simp only [Prod.mk.injEq, decide_eq_decide] at hkk
    have hb := List.mem_of_getElem? hyk
    have ham := List.mem_of_getElem? ha
    have he := hs x hx y hy1 a ham b hb h0 (fun h => h0 (hkk.1.1 h)) hkk.2.symm
    have h1 := hp x hx a ham
    rw [he, hp y hy1 b hb] at h1
    cases h1
    exact hyk

/-- Part `k` of `x`, on its own, fits. -/
def Fits (a : Glob) (p : Str) : Prop :=
  if a.items.length = 0 then a.node = p else a.matches p = .ok true

theorem step_fits {L : List (GGlob × Int)} (hs : Spelled L)
    (hp : ∀ x ∈ L, ∀ a ∈ x.1.parts, parseGlob a.glob = .ok (.ok a)) {x : GGlob × Int} (hx : x ∈ L) {k : Nat}
    {a : Glob} (ha : x.1.parts[k]? = some a) (p : Str) :
    (if a.items.length = 0 then a.node = p else
      ∃ b, C13.partInTree L x.1 k = some b ∧ b.matches p = .ok true) ↔ Fits a p := by
  unfold Fits
  by_cases h0 : a.items.length = 0
  · rw [if_pos h0, if_pos h0]
  · rw [if_neg h0, if_neg h0, own_part hs hp hx ha h0]
    simp

theorem reported_own {L : List (GGlob × Int)} (hs : Spelled L)
    (hp : ∀ x ∈ L, ∀ a ∈ x.1.parts, parseGlob a.glob = .ok (.ok a)) {x : GGlob × Int} (hx : x ∈ L)
    (ps : List Str) : C13.Reported L x.1 ps ↔ x.1.parts.length = ps.length ∧
      ∀ (k : Nat) (a : Glob) (p : Str), x.1.parts[k]? = some a → ps[k]? = some p → Fits a p := by
  unfold C13.Reported
  refine and_congr_right fun _ => forall_congr' fun k => forall_congr' fun a => forall_congr' fun p => ?_
  exact imp_congr_right fun ha => imp_congr_right fun _ => step_fits hs hp hx ha p

theorem answers_own {L : List (GGlob × Int)} (hs : Spelled L)
    (hp : ∀ x ∈ L, ∀ a ∈ x.1.parts, parseGlob a.glob = .ok (.ok a)) (ps : List Str) :
    C13.Answers L ps ↔ ∀ x ∈ L, x.1.parts.length = ps.length → ∀ (k : Nat) (a : Glob) (p : Str),
      (∀ (j : Nat) (b : Glob) (q : Str), j < k → x.1.parts[j]? = some b → ps[j]? = some q → Fits b q) →
      x.1.parts[k]? = some a → ps[k]? = some p → a.items.length ≠ 0 → ∃ v, a.matches p = .ok v := by
  unfold C13.Answers C13.Passed
  constructor
  · intro h x hx hl k a p hf ha hq h0
    obtain ⟨b, v, hb, hv⟩ := h x hx k a p ⟨hl, fun j b q hj hb hq =>
      (step_fits hs hp hx hb q).2 (hf j b q hj hb hq)⟩ ha hq h0
    rw [own_part hs hp hx ha h0] at hb
    cases hb
    exact ⟨v, hv⟩
  · rintro h x hx k a p ⟨hl, hf⟩ ha hq h0
    obtain ⟨v, hv⟩ := h x hx hl k a p (fun j b q hj hb hq =>
      (step_fits hs hp hx hb q).1 (hf j b q hj hb hq)) ha hq h0
    exact ⟨a, v, own_part hs hp hx ha h0, hv⟩

theorem answersStart_own {L : List (GGlob × Int)} (hs : Spelled L)
    (hp : ∀ x ∈ L, ∀ a ∈ x.1.parts, parseGlob a.glob = .ok (.ok a)) (ps : List Str) :
    C13.AnswersStart L ps ↔ ∀ x ∈ L, x.1.parts.length = ps.length → ∀ (k : Nat) (a : Glob) (p : Str),
      (∀ q ∈ ps.take (k + 1), q ≠ []) →
      (∀ (j : Nat) (b : Glob) (q : Str), j < k → x.1.parts[j]? = some b → ps[j]? = some q → Fits b q) →
      x.1.parts[k]? = some a → ps[k]? = some p → a.items.length ≠ 0 → ∃ v, a.matches p = .ok v := by
  unfold C13.AnswersStart C13.Passed
  constructor
  · intro h x hx hl k a p hn hf ha hq h0
    obtain ⟨b, v, hb, hv⟩ := h x hx k a p hn ⟨hl, fun j b q hj hb hq =>
      (step_fits hs hp hx hb q).2 (hf j b q hj hb hq)⟩ ha hq h0
    rw [own_part hs hp hx ha h0] at hb
    cases hb
    exact ⟨v, hv⟩
  · rintro h x hx k a p hn ⟨hl, hf⟩ ha hq h0
    obtain ⟨v, hv⟩ := h x hx hl k a p hn (fun j b q hj hb hq =>
      (step_fits hs hp hx hb q).1 (hf j b q hj hb hq)) ha hq h0
    exact ⟨a, v, own_part hs hp hx ha h0, hv⟩

theorem spelled_perm {L L' : List (GGlob × Int)} (h : L.Perm L') (hs : Spelled L) : Spelled L' :=
  fun x hx y hy => hs x (h.mem_iff.2 hx) y (h.mem_iff.2 hy)

theorem entries_perm {l l' : List (Str × Int)} (h : l.Perm l') : (entries l).Perm (entries l') :=
  (h.filterMap _).map _

theorem ops_parsed (l : List (Str × Int)) : ∀ op ∈ l.map fun x => GOp.add x.1 x.2, op.Parsed := by
  intro op h
  obtain ⟨x, _, rfl⟩ := List.mem_map.1 h
  trivial

theorem run_of_addAll {l : List (Str × Int)} {t : GGlobTree} (h : addAll {} l = some t) :
    runTree (l.map fun x => .add x.1 x.2) = .ok (t, entries l) := by
  have := addAll_run l {} t [] h
  rwa [List.nil_append] at this

open Classical in
/-- The same calls in another order: if wild parts with the same normal form are always written the
same, `MatchByParts` returns for the same parts and reports the same, in some order.  Full statement:
without that hypothesis, which is not true of the code (`order_wrong`). -/
theorem order_byParts_partial (l l' : List (Str × Int)) (h : l.Perm l') (t t' : GGlobTree)
    (ht : addAll {} l = some t) (ht' : addAll {} l' = some t') (hs : Spelled (entries l)) (ps : List Str)
    (hps : ps ≠ []) :
    ((∃ r, t.matchByParts ps = .ok r) ↔ ∃ r', t'.matchByParts ps = .ok r') ∧
    ∀ r r', t.matchByParts ps = .ok r → t'.matchByParts ps = .ok r' → r'.2 = r.2 ∧ r'.1.Perm r.1 := by
  have hE := entries_perm h
  have hs' := spelled_perm hE hs
  have hp : ∀ x ∈ entries l, ∀ a ∈ x.1.parts, parseGlob a.glob = .ok (.ok a) := fun x hx => entries_parsed hx
  have hp' : ∀ x ∈ entries l', ∀ a ∈ x.1.parts, parseGlob a.glob = .ok (.ok a) := fun x hx => entries_parsed hx
  constructor
  · obtain ⟨t1, L1, e1, h1⟩ := C13.byParts_returns_iff _ (ops_parsed l)
    obtain ⟨t2, L2, e2, h2⟩ := C13.byParts_returns_iff _ (ops_parsed l')
    rw [run_of_addAll ht] at e1
    rw [run_of_addAll ht'] at e2
    cases e1; cases e2
    rw [h1 ps hps, h2 ps hps, answers_own hs hp, answers_own hs' hp']
    simp only [hE.mem_iff]
  · intro r r' hr hr'
    obtain ⟨t1, L1, e1, h1⟩ := C13.byParts_exact _ (ops_parsed l)
    obtain ⟨t2, L2, e2, h2⟩ := C13.byParts_exact _ (ops_parsed l')
    rw [run_of_addAll ht] at e1
    rw [run_of_addAll ht'] at e2
    cases e1; cases e2
    obtain ⟨a1, a2⟩ := h1 ps r hps hr
    obtain ⟨b1, b2⟩ := h2 ps r' hps hr'
    have hperm : r'.1.Perm r.1 := by
      refine b2.trans (List.Perm.trans (List.Perm.map _ ?_) a2.symm)
      have hcongr : (entries l').filter (fun x => C13.Reported (entries l') x.1 ps) =
          (entries l').filter fun x => C13.Reported (entries l) x.1 ps := by
        apply List.filter_congr
        intro x hx
        rw [decide_eq_decide, reported_own hs' hp' hx, reported_own hs hp (hE.mem_iff.2 hx)]
      rw [hcongr]
      exact hE.symm.filter _
    exact ⟨by rw [a1, b1, hperm.length_eq], hperm⟩

open Classical in
/-- The same for `Match`, all paths.  Full statement: for all lists of calls, which is not true of the code
(`order_wrong`). -/
theorem order_match_partial (l l' : List (Str × Int)) (h : l.Perm l') (t t' : GGlobTree)
    (ht : addAll {} l = some t) (ht' : addAll {} l' = some t') (hs : Spelled (entries l)) (path : Str) :
    ((∃ r, t.matches path = .ok r) ↔ ∃ r', t'.matches path = .ok r') ∧
    ∀ r r', t.matches path = .ok r → t'.matches path = .ok r' → r'.2 = r.2 ∧ r'.1.Perm r.1 := by
  have hE := entries_perm h
  have hs' := spelled_perm hE hs
  have hp : ∀ x ∈ entries l, ∀ a ∈ x.1.parts, parseGlob a.glob = .ok (.ok a) := fun x hx => entries_parsed hx
  have hp' : ∀ x ∈ entries l', ∀ a ∈ x.1.parts, parseGlob a.glob = .ok (.ok a) := fun x hx => entries_parsed hx
  constructor
  · by_cases h0 : path = []
    · subst h0; exact ⟨fun _ => ⟨_, rfl⟩, fun _ => ⟨_, rfl⟩⟩
    obtain ⟨t1, L1, e1, h1⟩ := C13.match_returns_iff _ (ops_parsed l)
    obtain ⟨t2, L2, e2, h2⟩ := C13.match_returns_iff _ (ops_parsed l')
    rw [run_of_addAll ht] at e1
    rw [run_of_addAll ht'] at e2
    cases e1; cases e2
    rw [h1 path h0, h2 path h0, answersStart_own hs hp, answersStart_own hs' hp']
    simp only [hE.mem_iff]
  · intro r r' hr hr'
    obtain ⟨t1, L1, e1, h1⟩ := C13.match_exact _ (ops_parsed l)
    obtain ⟨t2, L2, e2, h2⟩ := C13.match_exact _ (ops_parsed l')
    rw [run_of_addAll ht] at e1
    rw [run_of_addAll ht'] at e2
    cases e1; cases e2
    obtain ⟨a1, a2⟩ := h1 path r hr
    obtain ⟨b1, b2⟩ := h2 path r' hr'
    have hperm : r'.1.Perm r.1 := by
      refine b2.trans (List.Perm.trans (List.Perm.map _ ?_) a2.symm)
      have hcongr : (entries l').filter (fun x => path ≠ [] ∧ (∀ p ∈ pathSplit path, p ≠ []) ∧
            C13.Reported (entries l') x.1 (pathSplit path)) =
          (entries l').filter fun x => path ≠ [] ∧ (∀ p ∈ pathSplit path, p ≠ []) ∧
            C13.Reported (entries l) x.1 (pathSplit path) := by
        apply List.filter_congr
        intro x hx
        rw [decide_eq_decide, reported_own hs' hp' hx, reported_own hs hp (hE.mem_iff.2 hx)]
      rw [hcongr]
      exact hE.symm.filter _
    exact ⟨by rw [a1, b1, hperm.length_eq], hperm⟩

/-! ## Examples -/

/-- The calls, then `Match`. -/
def matchAll (l : List (Str × Int)) (path : Str) : Option (Events × Nat) :=
  match addAll {} l with
  | none => none
  | some t => match t.matches path with
    | .ok r => some r
    | _ => none

/-- The full statement is not true of the code: both orders are accepted, but the second one reports
`{a*,b?}.e` for `ax.e` and the first one does not. -/
theorem order_wrong :
    matchAll [(b!"{a[*],b?}.c", 1), (b!"{a*,b?}.e", 2)] (b!"ax.e") = some ([], 0) ∧
    matchAll [(b!"{a*,b?}.e", 2), (b!"{a[*],b?}.c", 1)] (b!"ax.e") = some ([(b!"{a*,b?}.e", 2)], 1) := by
  decide +kernel

example : matchAll [(b!"a*.c", 1), (b!"a*.?", 2), (b!"a.c", 3)] (b!"ax.c") =
    some ([(b!"a*.c", 1), (b!"a*.?", 2)], 2) := by decide +kernel

example : matchAll [(b!"a.c", 3), (b!"a*.?", 2), (b!"a*.c", 1)] (b!"ax.c") =
    some ([(b!"a*.c", 1), (b!"a*.?", 2)], 2) := by decide +kernel

/-- The list of the example meets `Spelled`. -/
example : Spelled (entries [(b!"a*.c", 1), (b!"a*.?", 2), (b!"a.c", 3)]) := by
  have : ((entries [(b!"a*.c", 1), (b!"a*.?", 2), (b!"a.c", 3)]).all fun x =>
      (entries [(b!"a*.c", 1), (b!"a*.?", 2), (b!"a.c", 3)]).all fun y => x.1.parts.all fun a =>
      y.1.parts.all fun b => decide (a.node = b.node → a.glob = b.glob)) = true := by decide +kernel
  simp only [List.all_eq_true, decide_eq_true_eq] at this
  exact fun x hx y hy a ha b hb _ _ => this x hx y hy a ha b hb

end C57

end GoMatcher
