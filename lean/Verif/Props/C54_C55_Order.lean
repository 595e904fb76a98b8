import Verif.Proofs.TreePerm
import Verif.Proofs.TreeOnly
import Verif.Props.C08_C09_GlobTree
import Verif.Model.Store

/-! # C54: the order of `Add` calls does not matter
# C55: a batch tree reports only globs that were added -/

namespace GoMatcher

namespace C54

/-- The calls `Add(s, i)` one after another; `none` if one of them reports an error. -/
def addAll : GlobTree → List (Str × Int) → Option GlobTree
  | t, [] => some t
  | t, (s, i) :: l =>
    match t.add s i with
    | .ok (t', r) => if r.err = none then addAll t' l else none
    | _ => none

/-! ## Which lists of calls go through -/

/-- The call on its own. -/
def Fine (t : GlobTree) (x : Str × Int) : Prop :=
  x.1 = [] ∨ (0 ≤ x.2 ∧ t.globs.get x.1 = none ∧ t.globsIndex.get x.2 = none ∧
    ∃ g, parseGlob x.1 = .ok (.ok g) ∧ t.globs.get g.node = none)

/-- What the call adds. -/
def added (x : Str × Int) : Option (Glob × Int) :=
  if x.1 = [] then none
  else match parseGlob x.1 with
    | .ok (.ok g) => some (g, x.2)
    | _ => none

/-- Two calls. -/
def Beside (x y : Str × Int) : Prop := ∀ a ∈ added x, ∀ b ∈ added y, Apart a b

theorem Beside.symm {x y : Str × Int} (h : Beside x y) : Beside y x :=
  fun a ha b hb => (h b hb a ha).symm

theorem added_parsed {x : Str × Int} {a : Glob × Int} (h : added x = some a) : a.1.IsParsed := by
  unfold added at h
  split at h
  · cases h
  · split at h
    · rename_i g hg
      cases h
      exact ⟨_, hg⟩
    · cases h

theorem add_empty (t : GlobTree) (i : Int) : t.add [] i = .ok (t, {}) := by
  unfold GlobTree.add
  rw [if_pos rfl]

theorem add_fine {t : GlobTree} {s : Str} {i : Int} (h : Fine t (s, i)) (h0 : s ≠ []) :
    ∃ a r, added (s, i) = some a ∧ t.add s i = .ok (t.put a, r) ∧ r.err = none := by
  rcases h with h | ⟨h1, h2, h3, g, h4, h5⟩
  · exact absurd h h0
  · dsimp only at h1 h2 h3 h4
    refine ⟨(g, i), { normalized := g.node, n := i }, by simp [added, h0, h4], ?_, rfl⟩
    unfold GlobTree.add
    rw [if_neg h0, if_neg (by omega), h2]
    dsimp only
    rw [h3]
    dsimp only
    rw [h4, R.bind_ok]
    dsimp only
    rw [h5]
    rfl

theorem fine_of_add {t t' : GlobTree} {s : Str} {i : Int} {r : GAddRes}
    (h : t.add s i = .ok (t', r)) (hr : r.err = none) : Fine t (s, i) := by
  by_cases h0 : s = []
  · exact .inl h0
  refine .inr ?_
  unfold GlobTree.add at h
  rw [if_neg h0] at h
  by_cases h1 : i < 0
  · rw [if_pos h1] at h; cases h; cases hr
  rw [if_neg h1] at h
  cases h2 : t.globs.get s with
  | some n => rw [h2] at h; cases h; cases hr
  | none =>
    rw [h2] at h
    dsimp only at h
    cases h3 : t.globsIndex.get i with
    | some q => rw [h3] at h; cases h; cases hr
    | none =>
      rw [h3] at h
      dsimp only at h
      obtain ⟨pr, hpr⟩ := parseGlob_total s
      rw [hpr, R.bind_ok] at h
      cases pr with
      | error e => cases h; cases hr
      | ok g =>
        dsimp only at h
        cases h4 : t.globs.get g.node with
        | some n => rw [h4] at h; cases h; cases hr
        | none => exact ⟨by dsimp only; omega, by first | exact h2 | rfl, by first | exact h3 | rfl, g, hpr, h4⟩

theorem added_of_fine {t : GlobTree} {x : Str × Int} (h : Fine t x) (h0 : x.1 ≠ []) :
    ∃ g, parseGlob x.1 = .ok (.ok g) ∧ added x = some (g, x.2) := by
  rcases h with h | ⟨_, _, _, g, h4, _⟩
  · exact absurd h h0
  · exact ⟨g, h4, by simp [added, h0, h4]⟩

theorem fine_put {t : GlobTree} {x y : Str × Int} {a : Glob × Int} (hx : Fine t x)
    (ha : added x = some a) : Fine (t.put a) y ↔ Fine t y ∧ Beside x y := by
  have hx0 : x.1 ≠ [] := by
    intro e
    simp [added, e] at ha
  obtain ⟨g, hg, hax⟩ := added_of_fine hx hx0
  rw [ha] at hax
  obtain rfl : a = (g, x.2) := by simpa using hax
  have hgx : g.glob = x.1 := parseGlob_glob hg
  by_cases hy0 : y.1 = []
  · constructor
    · intro _
      refine ⟨.inl hy0, ?_⟩
      intro a _ b hb
      simp [added, hy0] at hb
    · intro _; exact .inl hy0
  have look : ∀ k, (t.put (g, x.2)).globs.get k = none ↔ t.globs.get k = none ∧ k ≠ g.glob ∧ k ≠ g.node := by
    intro k
    rw [put_globs]
    dsimp only
    by_cases hk : k = g.glob ∨ k = g.node
    · rw [if_pos hk]
      constructor
      · rintro ⟨⟩
      · rintro ⟨_, h1, h2⟩
        rcases hk with hk | hk
        · exact absurd hk h1
        · exact absurd hk h2
    · rw [if_neg hk]
      exact ⟨fun h => ⟨h, fun e => hk (.inl e), fun e => hk (.inr e)⟩, fun h => h.1⟩
  have idx : ∀ k, (t.put (g, x.2)).globsIndex.get k = none ↔ t.globsIndex.get k = none ∧ k ≠ x.2 := by
    intro k
    rw [put_index]
    dsimp only
    by_cases hk : k = x.2
    · rw [if_pos hk]; simp [hk]
    · rw [if_neg hk]; simp [hk]
  constructor
  · rintro (h | ⟨h1, h2, h3, f, h4, h5⟩)
    · exact absurd h hy0
    obtain ⟨k1, k2, k3⟩ := (look _).1 h2
    obtain ⟨k4, k5⟩ := (idx _).1 h3
    obtain ⟨k6, k7, k8⟩ := (look _).1 h5
    refine ⟨.inr ⟨h1, k1, k4, f, h4, k6⟩, ?_⟩
    intro a' ha' b hb
    rw [ha] at ha'
    cases ha'
    have hb' : added y = some (f, y.2) := by simp [added, hy0, h4]
    rw [hb'] at hb
    cases hb
    have hf : f.glob = y.1 := parseGlob_glob h4
    exact ⟨Ne.symm k5, by rw [hf]; exact Ne.symm k2, Ne.symm k7, by rw [hf]; exact Ne.symm k3,
      Ne.symm k8⟩
  · rintro ⟨h | ⟨h1, h2, h3, f, h4, h5⟩, hb⟩
    · exact absurd h hy0
    have hb' : added y = some (f, y.2) := by simp [added, hy0, h4]
    have ap : Apart (g, x.2) (f, y.2) := hb _ (by rw [ha]; simp) _ (by rw [hb']; simp)
    have hf : f.glob = y.1 := parseGlob_glob h4
    refine .inr ⟨h1, (look _).2 ⟨h2, ?_, ?_⟩, (idx _).2 ⟨h3, Ne.symm ap.index⟩, f, h4,
      (look _).2 ⟨h5, Ne.symm ap.textNode, Ne.symm ap.node⟩⟩
    · rw [← hf]; exact Ne.symm ap.text
    · rw [← hf]; exact Ne.symm ap.nodeText

/-- The calls go through if each does on its own and no two get in each other's way; the tree is
then filled with what they add. -/
theorem addAll_iff (l : List (Str × Int)) (t t' : GlobTree) :
    addAll t l = some t' ↔
      ((∀ x ∈ l, Fine t x) ∧ l.Pairwise Beside) ∧ t' = (l.filterMap added).foldl GlobTree.put t := by
  induction l generalizing t with
  | nil => simp [addAll, eq_comm]
  | cons x l ih =>
    obtain ⟨s, i⟩ := x
    by_cases h0 : s = []
    · subst h0
      have hb : ∀ y, Beside ([], i) y := fun y a ha => by simp [added] at ha
      have ha : added ([], i) = none := by simp [added]
      rw [addAll, add_empty]
      simp only [if_true]
      rw [ih, List.filterMap_cons_none ha]
      simp only [List.mem_cons, forall_eq_or_imp, List.pairwise_cons]
      constructor
      · rintro ⟨⟨h1, h2⟩, h3⟩; exact ⟨⟨⟨.inl rfl, h1⟩, fun y _ => hb y, h2⟩, h3⟩
      · rintro ⟨⟨⟨_, h1⟩, _, h2⟩, h3⟩; exact ⟨⟨h1, h2⟩, h3⟩
    · constructor
      · intro h
        rw [addAll] at h
        split at h
        · rename_i t1 r hadd
          split at h
          · rename_i hr
            have hf := fine_of_add hadd hr
            obtain ⟨a, r', ha, hadd', _⟩ := add_fine hf h0
            rw [hadd] at hadd'
            cases hadd'
            obtain ⟨⟨k1, k2⟩, k3⟩ := (ih _).1 h
            rw [List.filterMap_cons_some ha, List.foldl_cons]
            refine ⟨⟨?_, List.pairwise_cons.2 ⟨fun y hy => ((fine_put hf ha).1 (k1 y hy)).2, k2⟩⟩, k3⟩
            intro y hy
            rcases List.mem_cons.1 hy with rfl | hy
            · exact hf
            · exact ((fine_put hf ha).1 (k1 y hy)).1
          · cases h
        · cases h
      · rintro ⟨⟨h1, h2⟩, h3⟩
        have hf := h1 (s, i) (by simp)
        obtain ⟨a, r, ha, hadd, hr⟩ := add_fine hf h0
        rw [addAll, hadd]
        dsimp only
        rw [if_pos hr]
        rw [List.filterMap_cons_some ha, List.foldl_cons] at h3
        obtain ⟨h4, h5⟩ := List.pairwise_cons.1 h2
        exact (ih _).2 ⟨⟨fun y hy => (fine_put hf ha).2 ⟨h1 y (by simp [hy]), h4 y hy⟩, h5⟩, h3⟩

theorem pairwise_added {l : List (Str × Int)} (h : l.Pairwise Beside) :
    (l.filterMap added).Pairwise Apart := by
  induction l with
  | nil => exact List.Pairwise.nil
  | cons x l ih =>
    obtain ⟨h1, h2⟩ := List.pairwise_cons.1 h
    cases ha : added x with
    | none => rw [List.filterMap_cons_none ha]; exact ih h2
    | some a =>
      rw [List.filterMap_cons_some ha]
      refine List.pairwise_cons.2 ⟨?_, ih h2⟩
      intro b hb
      obtain ⟨y, hy, e⟩ := List.mem_filterMap.1 hb
      exact h1 y hy a (by rw [ha]; simp) b (by rw [e]; simp)

theorem alike {l l' : List (Str × Int)} (h : l.Perm l') {t : GlobTree}
    (ht : addAll {} l = some t) : ∃ t', addAll {} l' = some t' ∧ TreeAlike t t' := by
  obtain ⟨⟨h1, h2⟩, h3⟩ := (addAll_iff _ _ _).1 ht
  refine ⟨_, (addAll_iff _ _ _).2 ⟨⟨fun x hx => h1 x (h.mem_iff.2 hx),
    (h.pairwise_iff Beside.symm).1 h2⟩, rfl⟩, ?_⟩
  rw [h3]
  refine foldl_put_perm (h.filterMap added) ?_ (pairwise_added h2) ⟨fun _ => rfl, fun _ => rfl⟩
    (RootRel.refl (Tree.leaf_neat _ _))
  intro a ha
  obtain ⟨x, _, e⟩ := List.mem_filterMap.1 ha
  exact added_parsed e

/-! ## The property -/

/-- If some `Add` calls on an empty tree all go through, they go through in any other order. -/
theorem order_accepted (l l' : List (Str × Int)) (h : l.Perm l') (t : GlobTree)
    (ht : addAll {} l = some t) : ∃ t', addAll {} l' = some t' := by
  obtain ⟨t', h1, _⟩ := alike h ht
  exact ⟨t', h1⟩

/-- Both trees give the same answers: `Match` returns on one of them if and only if it returns on the
other, with the same counter and the same calls of `Store` in some order. -/
theorem order_match (l l' : List (Str × Int)) (h : l.Perm l') (t t' : GlobTree)
    (ht : addAll {} l = some t) (ht' : addAll {} l' = some t') (s : Str) (r : Ev)
    (hr : t.Returns s r) : ∃ r', t'.Returns s r' ∧ r'.2 = r.2 ∧ r'.1.Perm r.1 := by
  obtain ⟨t1, h1, h2⟩ := alike h ht
  rw [ht'] at h1
  cases h1
  obtain ⟨fuel, hr⟩ := hr
  have := h2.matches' fuel s
  rw [hr] at this
  cases hm : t'.matches fuel s with
  | ok r' =>
    rw [hm] at this
    exact ⟨r', ⟨fuel, hm⟩, this.2.symm, this.1.symm⟩
  | panic => rw [hm] at this; exact this.elim
  | timeout => rw [hm] at this; exact this.elim

/-- A further `Add` on either tree reports the same text, index and error. -/
theorem order_later (l l' : List (Str × Int)) (h : l.Perm l') (t t' : GlobTree)
    (ht : addAll {} l = some t) (ht' : addAll {} l' = some t') (s : Str) (i : Int)
    (u u' : GlobTree) (r r' : GAddRes) (hu : t.add s i = .ok (u, r)) (hu' : t'.add s i = .ok (u', r')) :
    r = r' := by
  obtain ⟨t1, h1, h2⟩ := alike h ht
  rw [ht'] at h1
  cases h1
  have hg := h2.tables.globs
  have hi := h2.tables.index
  unfold GlobTree.add at hu hu'
  rw [← hg, ← hi] at hu'
  by_cases h0 : s = []
  · rw [if_pos h0] at hu hu'; cases hu; cases hu'; rfl
  rw [if_neg h0] at hu hu'
  by_cases h1 : i < 0
  · rw [if_pos h1] at hu hu'; cases hu; cases hu'; rfl
  rw [if_neg h1] at hu hu'
  cases e1 : t.globs.get s with
  | some n => rw [e1] at hu hu'; cases hu; cases hu'; rfl
  | none =>
    rw [e1] at hu hu'
    dsimp only at hu hu'
    cases e2 : t.globsIndex.get i with
    | some q => rw [e2] at hu hu'; cases hu; cases hu'; rfl
    | none =>
      rw [e2] at hu hu'
      dsimp only at hu hu'
      obtain ⟨pr, hpr⟩ := parseGlob_total s
      rw [hpr, R.bind_ok] at hu hu'
      cases pr with
      | error e => cases hu; cases hu'; rfl
      | ok g =>
        dsimp only at hu hu'
        rw [← hg] at hu'
        cases e3 : t.globs.get g.node with
        | some n => rw [e3] at hu hu'; cases hu; cases hu'; rfl
        | none => rw [e3] at hu hu'; cases hu; cases hu'; rfl

end C54

/-! ## What can be reported -/

namespace C55

theorem apply_root (t t' : GlobTree) (op : GlobOp) (r : GAddRes) (h : op.apply t = .ok (t', r)) :
    t'.root = t.root ∨
      ∃ x ∈ op.accepted r, t'.root = t.root.insert x.1.steps (x.1.node, x.2) := by
  cases op with
  | add s i =>
    simp only [GlobOp.apply] at h
    by_cases h0 : s = []
    · rw [h0, C54.add_empty] at h; cases h; exact .inl rfl
    obtain ⟨t1, r1, h1, h2⟩ := globApply_cases t (.add s i) trivial
    simp only [GlobOp.apply] at h1
    rw [h] at h1
    cases h1
    rcases h2 with ⟨rfl, _⟩ | ⟨g, j, e, _, _, e3, _⟩
    · exact .inl rfl
    · exact .inr ⟨(g, j), by rw [e]; simp, e3⟩
  | addGlob g i =>
    simp only [GlobOp.apply, R.ok.injEq] at h
    unfold GlobTree.addGlob at h
    split at h
    · cases h; exact .inl rfl
    split at h
    · cases h; exact .inl rfl
    split at h
    · cases h; exact .inl rfl
    split at h
    · cases h; exact .inl rfl
    · cases h
      exact .inr ⟨(g, i), by simp [GlobOp.accepted], rfl⟩

theorem runGlobOps_all {P : Str × Int → Prop} (ops : List GlobOp) (t t' : GlobTree)
    (L L' : List (Glob × Int)) (h : runGlobOps t L ops = .ok (t', L'))
    (hP : ∀ x ∈ L', P (x.1.node, x.2)) (ht : t.root.All P) : t'.root.All P ∧ ∀ x ∈ L, x ∈ L' := by
  induction ops generalizing t L with
  | nil => cases h; exact ⟨ht, fun x hx => hx⟩
  | cons op ops ih =>
    rw [runGlobOps] at h
    obtain ⟨⟨t1, r⟩, h1, h2⟩ := R.bind_eq_ok.1 h
    dsimp only at h2
    have sub : ∀ (ops : List GlobOp) (t : GlobTree) (L : List (Glob × Int)),
        runGlobOps t L ops = .ok (t', L') → ∀ x ∈ L, x ∈ L' := by
      intro ops
      induction ops with
      | nil => intro t L h x hx; cases h; exact hx
      | cons op ops ih =>
        intro t L h x hx
        rw [runGlobOps] at h
        obtain ⟨_, _, h2⟩ := R.bind_eq_ok.1 h
        exact ih _ _ h2 x (List.mem_append_left _ hx)
    have hm := sub ops t1 _ h2
    refine ⟨(ih t1 _ h2 ?_).1, fun x hx => hm x (List.mem_append_left _ hx)⟩
    rcases apply_root t t1 op r h1 with e | ⟨x, hx, e⟩
    · rw [e]; exact ht
    · rw [e]; exact insert_all ht (hP x (hm x (List.mem_append_right _ hx)))

/-- After any calls of `Add` and `AddGlob`, with any texts and any globs, `Match` on any subject only
reports node texts and indexes of calls that were accepted, each with the index of its own call. -/
theorem reported_added (ops : List GlobOp) (t : GlobTree) (L : List (Glob × Int))
    (h : runGlobTree ops = .ok (t, L)) (s : Str) (r : Ev) (hr : t.Returns s r) :
    ∀ e ∈ r.1, ∃ x ∈ L, e = (x.1.node, x.2) := by
  obtain ⟨fuel, hr⟩ := hr
  have ha := (runGlobOps_all (P := fun e => ∃ x ∈ L, e = (x.1.node, x.2)) ops {} t [] L h
    (fun x hx => ⟨x, hx, rfl⟩) (.mk (by rintro _ ⟨⟩) (by rintro _ ⟨⟩))).1
  exact only_matches fuel ha s r hr

theorem accepted_index (t t' : GlobTree) (op : GlobOp) (r : GAddRes) (h : op.apply t = .ok (t', r)) :
    ∀ x ∈ op.accepted r, 0 ≤ x.2 := by
  intro x hx
  cases op with
  | add s i =>
    simp only [GlobOp.apply] at h
    simp only [GlobOp.accepted] at hx
    split at hx
    · cases hx
    · rename_i hc
      rcases C54.fine_of_add h (by cases hr : r.err with
        | none => rfl
        | some e => exact absurd (.inl (by rw [hr]; rfl)) hc) with hf | hf
      · exact absurd (.inr hf) hc
      · split at hx
        · rw [List.mem_singleton.1 hx]; exact hf.1
        · cases hx
  | addGlob g i =>
    simp only [GlobOp.apply, R.ok.injEq] at h
    simp only [GlobOp.accepted] at hx
    split at hx
    · cases hx
    · rename_i hc
      rw [List.mem_singleton.1 hx]
      unfold GlobTree.addGlob at h
      split at h
      · cases h; exact absurd rfl hc
      · dsimp only; omega

/-- No reported index is negative. -/
theorem reported_index (ops : List GlobOp) (t : GlobTree) (L : List (Glob × Int))
    (h : runGlobTree ops = .ok (t, L)) (s : Str) (r : Ev) (hr : t.Returns s r) :
    ∀ e ∈ r.1, 0 ≤ e.2 := by
  have key : ∀ (ops : List GlobOp) (t0 : GlobTree) (L0 : List (Glob × Int)),
      runGlobOps t0 L0 ops = .ok (t, L) → (∀ x ∈ L0, 0 ≤ x.2) → ∀ x ∈ L, 0 ≤ x.2 := by
    intro ops
    induction ops with
    | nil => intro t0 L0 h h0; cases h; exact h0
    | cons op ops ih =>
      intro t0 L0 h h0
      rw [runGlobOps] at h
      obtain ⟨⟨t1, r⟩, h1, h2⟩ := R.bind_eq_ok.1 h
      refine ih _ _ h2 fun x hx => ?_
      rcases List.mem_append.1 hx with hx | hx
      · exact h0 x hx
      · exact accepted_index t0 t1 op r h1 x hx
  intro e he
  obtain ⟨x, hx, rfl⟩ := reported_added ops t L h s r hr e he
  exact key ops {} [] h (by simp) x hx

/-- Two calls are accepted, the third is not; only the accepted ones are reported. -/
example : runGlobTree [.add (b!"a*") 2, .add (b!"*b") 9, .add (b!"[a]*") 4] >>=
    (fun x => x.1.matches 100 (b!"ab")) = .ok ([(b!"a*", 2), (b!"*b", 9)], 2) := by decide +kernel

end C55

namespace C54

theorem addAll_run (l : List (Str × Int)) (t t' : GlobTree) (L : List (Glob × Int))
    (h : addAll t l = some t') :
    ∃ L', runGlobOps t L (l.map fun x => .add x.1 x.2) = .ok (t', L') := by
  induction l generalizing t L with
  | nil => cases h; exact ⟨L, rfl⟩
  | cons x l ih =>
    rw [addAll] at h
    split at h
    · rename_i t1 r hadd
      split at h
      · obtain ⟨L', h'⟩ := ih t1 (L ++ (GlobOp.add x.1 x.2).accepted r) h
        refine ⟨L', ?_⟩
        rw [List.map_cons, runGlobOps]
        simp only [GlobOp.apply]
        rw [hadd, R.bind_ok]
        exact h'
      · cases h
    · cases h

theorem minStore_perm {l l' : List (Str × Int)} (h : l.Perm l') (hp : ∀ c ∈ l, 0 ≤ c.2)
    (m : MinStore) : l.foldl (fun m c => m.store c.1 c.2) m = l'.foldl (fun m c => m.store c.1 c.2) m := by
  induction h generalizing m with
  | nil => rfl
  | cons x _ ih => exact ih (fun c hc => hp c (by simp [hc])) _
  | swap x y l =>
    simp only [List.foldl_cons]
    congr 1
    have h1 := hp x (by simp)
    have h2 := hp y (by simp)
    have e : ∀ (m : MinStore) (q : Str) (i : Int), ∃ k, m.store q i = ⟨k⟩ ∧
        ((m.min < 0 ∧ k = i) ∨ (0 ≤ m.min ∧ m.min > i ∧ k = i) ∨ (0 ≤ m.min ∧ m.min ≤ i ∧ k = m.min)) := by
      intro m q i
      obtain ⟨n⟩ := m
      unfold MinStore.store
      dsimp only
      split
      · exact ⟨i, rfl, by omega⟩
      · exact ⟨n, rfl, by omega⟩
    obtain ⟨a, ha, ha'⟩ := e m x.1 x.2
    obtain ⟨b, hb, hb'⟩ := e m y.1 y.2
    obtain ⟨c, hc, hc'⟩ := e ⟨a⟩ y.1 y.2
    obtain ⟨d, hd, hd'⟩ := e ⟨b⟩ x.1 x.2
    rw [ha, hb, hc, hd]
    dsimp only at hc' hd'
    congr 1
    omega
  | trans h1 _ ih1 ih2 =>
    rw [ih1 hp m]
    exact ih2 (fun c hc => hp c (h1.mem_iff.2 hc)) m

/-- A store that keeps the smallest index ends with the same index. -/
theorem order_min (l l' : List (Str × Int)) (h : l.Perm l') (t t' : GlobTree)
    (ht : addAll {} l = some t) (ht' : addAll {} l' = some t') (s : Str) (r r' : Ev)
    (hr : t.Returns s r) (hr' : t'.Returns s r') (m : MinStore) :
    r.1.foldl (fun m c => m.store c.1 c.2) m = r'.1.foldl (fun m c => m.store c.1 c.2) m := by
  obtain ⟨r1, h1, _, h3⟩ := order_match l l' h t t' ht ht' s r hr
  rw [hr'.unique h1]
  obtain ⟨L, hL⟩ := addAll_run l {} t [] ht
  exact minStore_perm h3.symm (C55.reported_index _ t L hL s r hr) m

/-! ## Examples -/

/-- Four globs that share prefixes, suffixes and items. -/
def exAdds : List (Str × Int) := [(b!"a*c", 3), (b!"a?", 0), (b!"[a-b]*c", 7), (b!"{a,b}c", 5)]

/-- The calls all go through, and both orders report the same globs, in different orders. -/
example : ((addAll {} exAdds).map fun t => t.matches 100 (b!"ac")) =
    some (.ok ([(b!"a*c", 3), (b!"[a-b]*c", 7), (b!"{a,b}c", 5), (b!"a?", 0)], 4)) := by decide +kernel

example : ((addAll {} exAdds.reverse).map fun t => t.matches 100 (b!"ac")) =
    some (.ok ([(b!"{a,b}c", 5), (b!"[a-b]*c", 7), (b!"a*c", 3), (b!"a?", 0)], 4)) := by decide +kernel

example : exAdds.Perm exAdds.reverse := (List.reverse_perm _).symm

/-- When a call is refused the order does matter: two ways to write the same glob. -/
theorem refused_order :
    addAll {} [(b!"[a]*", 0), (b!"a*", 1)] = none ∧
    (runGlobTree [.add (b!"[a]*") 0, .add (b!"a*") 1] >>= fun x => x.1.matches 100 (b!"ab")) =
      .ok ([(b!"a*", 0)], 1) ∧
    (runGlobTree [.add (b!"a*") 1, .add (b!"[a]*") 0] >>= fun x => x.1.matches 100 (b!"ab")) =
      .ok ([(b!"a*", 1)], 1) := by decide +kernel

/-- Two calls of `AddGlob` with parsed globs, then `Match`. -/
def twoGlobs (x y : Str) (i j : Int) (s : Str) : R Ev :=
  match parseGlob x, parseGlob y with
  | .ok (.ok g), .ok (.ok h) => runGlobTree [.addGlob g i, .addGlob h j] >>= fun t => t.1.matches 100 s
  | _, _ => .panic

/-- `AddGlob` does not record node texts, so it takes two spellings of one glob; the later call is
reported. -/
theorem addGlob_order :
    twoGlobs (b!"[a]*") (b!"{a}*") 0 1 (b!"ab") = .ok ([(b!"a*", 1)], 1) ∧
    twoGlobs (b!"{a}*") (b!"[a]*") 1 0 (b!"ab") = .ok ([(b!"a*", 0)], 1) := by decide +kernel

end C54

end GoMatcher
