import Verif.Props.C08_C09_GlobTree

/-! # C10: the books of the batch matcher for globs -/

namespace GoMatcher

namespace C10

/-- `Add` answers on every input, and a refused call (or the empty string) changes nothing. -/
theorem add_refused (t : GlobTree) (s : Str) (i : Int) :
    ∃ t' r, t.add s i = .ok (t', r) ∧ (r.err ≠ none ∨ s = [] → t' = t) := by
  simp only [GlobTree.add]
  by_cases h0 : s = []
  · rw [if_pos h0]; exact ⟨_, _, rfl, fun _ => rfl⟩
  rw [if_neg h0]
  by_cases h1 : i < 0
  · rw [if_pos h1]; exact ⟨_, _, rfl, fun _ => rfl⟩
  rw [if_neg h1]
  cases h2 : t.globs.get s with
  | some n => exact ⟨_, _, rfl, fun _ => rfl⟩
  | none =>
    dsimp only
    cases h3 : t.globsIndex.get i with
    | some q => exact ⟨_, _, rfl, fun _ => rfl⟩
    | none =>
      dsimp only
      obtain ⟨pr, hpr⟩ := parseGlob_total s
      rw [hpr, R.bind_ok]
      cases pr with
      | error e => exact ⟨_, _, rfl, fun _ => rfl⟩
      | ok g =>
        dsimp only
        cases h4 : t.globs.get g.node with
        | some n => exact ⟨_, _, rfl, fun _ => rfl⟩
        | none => exact ⟨_, _, rfl, fun h => by simp [h0] at h⟩

/-- Which error `Add` reports for a non-empty string, in the order of the tests. -/
theorem add_error (t : GlobTree) (s : Str) (i : Int) (hs : s ≠ []) (t' : GlobTree) (r : GAddRes)
    (h : t.add s i = .ok (t', r)) :
    (r.err = some .indexInvalid ↔ i < 0) ∧
    (r.err = some .indexDup ↔ 0 ≤ i ∧ t.globs.get s = none ∧ t.globsIndex.get i ≠ none) ∧
    (∀ e, r.err = some (.parse e) ↔ 0 ≤ i ∧ t.globs.get s = none ∧ t.globsIndex.get i = none ∧
      parseGlob s = .ok (.error e)) ∧
    (r.err = some .globExist ↔ 0 ≤ i ∧ (t.globs.get s ≠ none ∨ t.globsIndex.get i = none ∧
      ∃ g, parseGlob s = .ok (.ok g) ∧ t.globs.get g.node ≠ none)) ∧
    (r.err = none ↔ 0 ≤ i ∧ t.globs.get s = none ∧ t.globsIndex.get i = none ∧
      ∃ g, parseGlob s = .ok (.ok g) ∧ t.globs.get g.node = none) := by
  simp only [GlobTree.add] at h
  rw [if_neg hs] at h
  by_cases h1 : i < 0
  · rw [if_pos h1] at h
    simp only [R.ok.injEq, Prod.mk.injEq] at h
    have : ¬ 0 ≤ i := by omega
    simp [← h.2, h1, this]
  rw [if_neg h1] at h
  have h1' : 0 ≤ i := by omega
  cases h2 : t.globs.get s with
  | some n =>
    rw [h2] at h
    simp only [R.ok.injEq, Prod.mk.injEq] at h
    simp [← h.2, h1, h1']
  | none =>
    rw [h2] at h
    dsimp only at h
    cases h3 : t.globsIndex.get i with
    | some q =>
      rw [h3] at h
      simp only [R.ok.injEq, Prod.mk.injEq] at h
      simp [← h.2, h1, h1']
    | none =>
      rw [h3] at h
      dsimp only at h
      obtain ⟨pr, hpr⟩ := parseGlob_total s
      rw [hpr, R.bind_ok] at h
      cases pr with
      | error e =>
        simp only [R.ok.injEq, Prod.mk.injEq] at h
        simp [← h.2, h1, h1', hpr]
      | ok g =>
        dsimp only at h
        cases h4 : t.globs.get g.node with
        | some n =>
          rw [h4] at h
          simp only [R.ok.injEq, Prod.mk.injEq] at h
          simp [← h.2, h1, h1', hpr, h4]
        | none =>
          rw [h4] at h
          simp only [R.ok.injEq, Prod.mk.injEq] at h
          simp [← h.2, h1, h1', hpr, h4]

/-- An accepted `Add` binds the index and the normal form to each other, records the written
form too, and leaves all other bindings alone. -/
theorem add_accepted (t : GlobTree) (s : Str) (i : Int) (hs : s ≠ []) (t' : GlobTree) (r : GAddRes)
    (h : t.add s i = .ok (t', r)) (he : r.err = none) :
    ∃ g, parseGlob s = .ok (.ok g) ∧ r.normalized = g.node ∧ r.n = i ∧
      t'.globs.get s = some i ∧ t'.globs.get g.node = some i ∧
      t'.globsIndex.get i = some g.node ∧
      (∀ q, q ≠ s → q ≠ g.node → t'.globs.get q = t.globs.get q) ∧
      (∀ j, j ≠ i → t'.globsIndex.get j = t.globsIndex.get j) := by
  obtain ⟨g1, g2, g3, g, g4, g5⟩ := (add_error t s i hs t' r h).2.2.2.2.1 he
  simp only [GlobTree.add] at h
  rw [if_neg hs, if_neg (by omega), g2] at h
  dsimp only at h
  rw [g3] at h
  dsimp only at h
  rw [g4, R.bind_ok] at h
  dsimp only at h
  rw [g5] at h
  simp only [R.ok.injEq, Prod.mk.injEq] at h
  obtain ⟨rfl, rfl⟩ := h
  refine ⟨g, g4, rfl, rfl, ?_, ?_, ?_, ?_, ?_⟩
  · have := parseGlob_glob g4
    split <;> simp only [GoMap.get_set, this] <;> (repeat' split) <;> first | rfl | contradiction
  · split
    · simp only [GoMap.get_set]; simp
    · rename_i h; rw [Decidable.not_not] at h; simp [GoMap.get_set, h]
  · simp only [GoMap.get_set]; simp
  · intro q h1 h2
    have := parseGlob_glob g4
    split <;> simp only [GoMap.get_set, this] <;> (repeat' split) <;> first | rfl | simp_all
  · intro j hj
    simp only [GoMap.get_set]
    rw [if_neg (fun h => hj h.symm)]

/-- `AddGlob`: a refused call changes nothing, and the errors are those of the tests. -/
theorem addGlob_refused (t : GlobTree) (g : Glob) (i : Int) :
    ((t.addGlob g i).2.err ≠ none → (t.addGlob g i).1 = t) ∧
    ((t.addGlob g i).2.err = some .indexInvalid ↔ i < 0) ∧
    ((t.addGlob g i).2.err = some .globExist ↔ 0 ≤ i ∧
      (t.globs.get g.glob ≠ none ∨ t.globs.get g.node ≠ none)) ∧
    ((t.addGlob g i).2.err = some .indexDup ↔ 0 ≤ i ∧ t.globs.get g.glob = none ∧
      t.globs.get g.node = none ∧ t.globsIndex.get i ≠ none) := by
  unfold GlobTree.addGlob
  by_cases h1 : i < 0
  · have : ¬ 0 ≤ i := by omega
    simp [h1, this]
  · have h1' : 0 ≤ i := by omega
    rw [if_neg h1]
    cases h2 : t.globs.get g.glob with
    | some n => simp [h1, h1']
    | none =>
      cases h3 : t.globs.get g.node with
      | some n => simp [h1, h1']
      | none =>
        cases h4 : t.globsIndex.get i with
        | some q => simp [h1, h1']
        | none => simp [h1]

/-- Full statement (not true of the code): an accepted `AddGlob` binds the index and the
normal form to each other, like `Add`.  Only the written form is bound to the index; the index
is bound to the empty string instead of the normal form, see `addGlob_wrong`. -/
theorem addGlob_accepted_partial (t : GlobTree) (g : Glob) (i : Int) (hn : g.glob ≠ [])
    (he : (t.addGlob g i).2.err = none) :
    (t.addGlob g i).1.globs.get g.glob = some i ∧ (t.addGlob g i).2.n = i ∧
    (∀ q, q ≠ g.glob → q ≠ [] → (t.addGlob g i).1.globs.get q = t.globs.get q) ∧
    (∀ j, j ≠ i → (t.addGlob g i).1.globsIndex.get j = t.globsIndex.get j) ∧
    (t.addGlob g i).1.globsIndex.get i = some [] := by
  unfold GlobTree.addGlob at he ⊢
  by_cases h1 : i < 0
  · simp [h1] at he
  · rw [if_neg h1] at he ⊢
    cases h2 : t.globs.get g.glob with
    | some n => simp [h2] at he
    | none =>
      cases h3 : t.globs.get g.node with
      | some n => simp [h2, h3] at he
      | none =>
        cases h4 : t.globsIndex.get i with
        | some q => simp [h2, h3, h4] at he
        | none =>
          dsimp only
          rw [if_pos (fun h => hn h.symm)]
          refine ⟨?_, rfl, ?_, ?_, ?_⟩
          · simp only [GoMap.get_set]
            rw [if_neg (fun h => hn h.symm), if_pos trivial]
          · intro q h5 h6
            simp only [GoMap.get_set]
            rw [if_neg (fun h => h6 h.symm), if_neg (fun h => h5 h.symm)]
          · intro j hj
            simp only [GoMap.get_set]
            rw [if_neg (fun h => hj h.symm)]
          · simp only [GoMap.get_set]; simp

/-- `AddGlob` of `{b,a}?` with index 0 records the empty string for the index, and does not
record the normal form `{a,b}?`.  A later `Add("{a,b}?", 1)` is accepted and replaces the first
glob in the tree: index 0 is never reported again. -/
theorem addGlob_wrong : ∃ g, parseGlob (b!"{b,a}?") = .ok (.ok g) ∧ g.node = b!"{a,b}?" ∧
    (({} : GlobTree).addGlob g 0).2.err = none ∧ (({} : GlobTree).addGlob g 0).2.normalized = [] ∧
    (({} : GlobTree).addGlob g 0).1.globsIndex.get 0 = some [] ∧
    (({} : GlobTree).addGlob g 0).1.globs.get (b!"{a,b}?") = none ∧
    runMatch [.addGlob g 0] 60 (b!"ax") = .ok ([(b!"{a,b}?", 0)], 1) ∧
    ∃ t L, runGlobTree [.addGlob g 0, .add (b!"{a,b}?") 1] = .ok (t, L) ∧ L.length = 2 ∧
      t.Returns (b!"ax") ([(b!"{a,b}?", 1)], 1) :=
  ⟨_, rfl, rfl, rfl, rfl, rfl, rfl, rfl, _, _, rfl, rfl, 60, rfl⟩

/-- An index is never bound again, whatever is called later. -/
theorem index_stable (ops : List GlobOp) (t t' : GlobTree) (L L' : List (Glob × Int)) (j : Int) (q : Str)
    (h : runGlobOps t L ops = .ok (t', L')) (hj : t.globsIndex.get j = some q) :
    t'.globsIndex.get j = some q := by
  induction ops generalizing t L with
  | nil =>
    simp only [runGlobOps, R.ok.injEq, Prod.mk.injEq] at h
    rw [← h.1]; exact hj
  | cons op ops ih =>
    rw [runGlobOps] at h
    cases op with
    | add s i =>
      obtain ⟨t1, r, e1, e2⟩ := add_refused t s i
      simp only [GlobOp.apply, e1, R.bind_ok] at h
      refine ih _ _ h ?_
      by_cases hr : r.err ≠ none ∨ s = []
      · rw [e2 hr]; exact hj
      · simp only [not_or, Decidable.not_not] at hr
        have h1 := (add_error t s i hr.2 _ _ e1).2.2.2.2.1 hr.1
        obtain ⟨g, _, _, _, _, _, _, _, h2⟩ := add_accepted t s i hr.2 _ _ e1 hr.1
        rw [h2 j, hj]
        rintro rfl
        rw [h1.2.2.1] at hj
        simp at hj
    | addGlob g i =>
      simp only [GlobOp.apply, R.bind_ok] at h
      refine ih _ _ h ?_
      unfold GlobTree.addGlob
      split
      · exact hj
      split
      · exact hj
      split
      · exact hj
      split
      · exact hj
      · rename_i h4
        dsimp only
        rw [GoMap.get_set]
        split
        · rename_i e; subst e; rw [h4] at hj; simp at hj
        · exact hj

/-- The books of a tree filled by `Add` alone: every index in use is bound to the normal form of
the accepted glob with this index, and this normal form to the index. -/
theorem books_partial (ops : List GlobOp) (hadd : ∀ op ∈ ops, ∃ s i, op = .add s i) :
    ∃ t L, runGlobTree ops = .ok (t, L) ∧
      (∀ j q, t.globsIndex.get j = some q ↔ ∃ g, (g, j) ∈ L ∧ g.node = q) ∧
      (∀ x ∈ L, t.globs.get x.1.node = some x.2) := by
  suffices key : ∀ (ops : List GlobOp) (t : GlobTree) (L : List (Glob × Int)),
      (∀ op ∈ ops, ∃ s i, op = .add s i) →
      (∀ j q, t.globsIndex.get j = some q ↔ ∃ g, (g, j) ∈ L ∧ g.node = q) →
      (∀ x ∈ L, t.globs.get x.1.node = some x.2) →
      ∃ t' L', runGlobOps t L ops = .ok (t', L') ∧
      (∀ j q, t'.globsIndex.get j = some q ↔ ∃ g, (g, j) ∈ L' ∧ g.node = q) ∧
      (∀ x ∈ L', t'.globs.get x.1.node = some x.2) from
    key ops {} [] hadd (by simp [GoMap.get]) (by simp)
  intro ops
  induction ops with
  | nil => intro t L _ h1 h2; exact ⟨t, L, rfl, h1, h2⟩
  | cons op ops ih =>
    intro t L ho h1 h2
    obtain ⟨s, i, rfl⟩ := ho op (by simp)
    obtain ⟨t1, r, e1, e2⟩ := add_refused t s i
    simp only [runGlobOps, GlobOp.apply, e1, R.bind_ok]
    by_cases hr : r.err ≠ none ∨ s = []
    · rw [e2 hr]
      have : GlobOp.accepted r (.add s i) = [] := by
        simp only [GlobOp.accepted]
        rw [if_pos]
        rcases hr with h | h
        · left; cases hh : r.err <;> simp_all
        · right; exact h
      rw [this, List.append_nil]
      exact ih t L (fun op h => ho op (by simp [h])) h1 h2
    · simp only [not_or, Decidable.not_not] at hr
      obtain ⟨k1, k2, k3, g', k4, k5⟩ := (add_error t s i hr.2 _ _ e1).2.2.2.2.1 hr.1
      obtain ⟨g, a1, _, _, _, a5, a6, a7, a8⟩ := add_accepted t s i hr.2 _ _ e1 hr.1
      rw [a1] at k4
      simp only [R.ok.injEq, Except.ok.injEq] at k4
      subst k4
      have : GlobOp.accepted r (.add s i) = [(g, i)] := by
        simp [GlobOp.accepted, hr.1, hr.2, a1]
      rw [this]
      apply ih _ _ (fun op h => ho op (by simp [h]))
      · intro j q
        by_cases hj : j = i
        · subst hj
          rw [a6]
          constructor
          · intro h; simp only [Option.some.injEq] at h; exact ⟨g, by simp, h⟩
          · rintro ⟨g2, hg2, rfl⟩
            rcases List.mem_append.1 hg2 with h | h
            · have := (h1 j g2.node).2 ⟨g2, h, rfl⟩
              rw [k3] at this; simp at this
            · simp only [List.mem_singleton, Prod.mk.injEq] at h
              rw [h.1]
        · rw [a8 j hj, h1]
          constructor
          · rintro ⟨g2, hg2, e⟩; exact ⟨g2, by simp [hg2], e⟩
          · rintro ⟨g2, hg2, e⟩
            rcases List.mem_append.1 hg2 with h | h
            · exact ⟨g2, h, e⟩
            · simp only [List.mem_singleton, Prod.mk.injEq] at h
              exact absurd h.2 hj
      · intro x hx
        rcases List.mem_append.1 hx with h | h
        · have hk := h2 x h
          rw [a7, hk]
          · intro e; rw [e, k2] at hk; simp at hk
          · intro e; rw [e, k5] at hk; simp at hk
        · rw [List.mem_singleton.1 h]; exact a5

example : ∃ t L, runGlobTree [.add (b!"a{c,b}") 4, .add (b!"a{b,c}") 5, .add (b!"x") 4,
      .add (b!"b[") 6, .add (b!"y*") (-1), .add (b!"y*") 0] = .ok (t, L) ∧
    t.globsIndex.get 4 = some (b!"a{b,c}") ∧ t.globsIndex.get 0 = some (b!"y*") := by
  obtain ⟨t, L, h, _⟩ := books_partial [.add (b!"a{c,b}") 4, .add (b!"a{b,c}") 5,
    .add (b!"x") 4, .add (b!"b[") 6, .add (b!"y*") (-1), .add (b!"y*") 0] (by simp)
  refine ⟨t, L, h, ?_⟩
  have hc : (do
    let (t, L) ← runGlobTree [.add (b!"a{c,b}") 4, .add (b!"a{b,c}") 5,
      .add (b!"x") 4, .add (b!"b[") 6, .add (b!"y*") (-1), .add (b!"y*") 0]
    .ok (t.globsIndex.get 4 = some (b!"a{b,c}") && t.globsIndex.get 0 = some (b!"y*") &&
      L.length = 2) : R Bool) = .ok true := by decide +kernel
  rw [h] at hc
  simp at hc
  exact hc.1

end C10

end GoMatcher
