import Verif.Proofs.GTreeHist
import Verif.Props.C11_C12_GGlob

/-! # C13, C14, C15: the batch matcher for dotted globs -/

namespace GoMatcher

/-- The parts of the path are non-empty, as many as the glob has, and matched one by one. -/
def partsMatch (g : GGlob) (path : Str) : Bool :=
  path ≠ [] && g.parts.length = (pathSplit path).length &&
    (g.parts.zip (pathSplit path)).all fun x => x.2 ≠ [] && x.1.matches x.2 = .ok true

/-- All calls from an empty tree. -/
abbrev runTree (ops : List GOp) : R (GGlobTree × List (GGlob × Int)) := runOps {} [] ops

theorem runTree_inv (ops : List GOp) (hp : ∀ op ∈ ops, op.Parsed) :
    ∃ t L, runTree ops = .ok (t, L) ∧ TreeInv t L := runOps_inv ops hp {} [] treeInv_empty

theorem matches_at (t : GGlobTree) (path : Str) (h : path ≠ []) :
    t.matches path = (t.at (pathSplit path).length).matchItems (trimDot path) := by
  unfold GGlobTree.matches GGlobTree.at
  rw [if_neg h, pathLevel_eq]
  dsimp only
  cases t.root.get (pathSplit path).length with
  | some r => rfl
  | none =>
    simp only [Option.getD_none, GTree.leaf, GTree.matchItems, mapItems, childItems]
    split <;> rfl

theorem byParts_at (t : GGlobTree) (ps : List Str) (h : ps ≠ []) :
    t.matchByParts ps = (t.at ps.length).matchByParts ps := by
  unfold GGlobTree.matchByParts GGlobTree.at
  rw [if_neg (by simpa using h)]
  cases t.root.get ps.length with
  | some r => rfl
  | none =>
    cases ps with
    | nil => exact absurd rfl h
    | cons p ps => simp [GTree.leaf, GTree.matchByParts, mapParts, childParts, addEv]

theorem acc_partsMatch {N : Str → Str → Bool} (gs : List Glob) (ps : List Str)
    (h : ∀ a ∈ gs, ∀ p ∈ ps, p ≠ [] → a.matches p =
      .ok (if a.items.length = 0 then decide (a.node = p) else N a.node p)) (hne : ∀ p ∈ ps, p ≠ []) :
    GTree.acc N gs ps = (decide (gs.length = ps.length) &&
      (gs.zip ps).all fun x => x.2 ≠ [] && x.1.matches x.2 = .ok true) := by
  induction gs generalizing ps with
  | nil => cases ps <;> simp [GTree.acc]
  | cons g gs ih =>
    cases ps with
    | nil => simp [GTree.acc]
    | cons p ps =>
      have hp := hne p (by simp)
      have h1 := h g (by simp) p (by simp) hp
      rw [GTree.acc, ih ps (fun a ha p hp => h a (by simp [ha]) p (by simp [hp]))
        (fun p hp => hne p (by simp [hp]))]
      simp only [List.length_cons, Nat.add_right_cancel_iff, List.zip_cons_cons, List.all_cons, h1,
        R.ok.injEq]
      by_cases hl : gs.length = ps.length <;> by_cases h0 : g.items.length = 0 <;>
        simp [hl, h0, hp]

/-- Two part globs agree on the path: they answer, and with equal node texts they answer the
same; a literal part answers by comparing its text. -/
structure Faithful (L : List (GGlob × Int)) (path : Str) : Prop where
  answers : ∀ x ∈ L, ∀ a ∈ x.1.parts, ∀ p ∈ pathSplit path, p ≠ [] → ∃ b, a.matches p = .ok b
  literal : ∀ x ∈ L, ∀ a ∈ x.1.parts, a.items.length = 0 → ∀ p ∈ pathSplit path, p ≠ [] →
    a.matches p = .ok (decide (a.node = p))
  same : ∀ x ∈ L, ∀ y ∈ L, ∀ a ∈ x.1.parts, ∀ b ∈ y.1.parts, a.items.length ≠ 0 →
    b.items.length ≠ 0 → a.node = b.node → ∀ p ∈ pathSplit path, p ≠ [] → a.matches p = b.matches p

namespace C13

/-- Full statement (not true of the code): without the hypothesis `Faithful`.  The tree shares
children with equal node text and looks literal parts up by their text, so the answer of a
part glob must be determined by its node text; it is not for `a[*]` and `a*`, see
`same_node_wrong`. -/
theorem match_exact_partial (ops : List GOp) (hp : ∀ op ∈ ops, op.Parsed) :
    ∃ t L, runTree ops = .ok (t, L) ∧ ∀ path, Faithful L path →
      ∃ evs, t.matches path = .ok (evs, evs.length) ∧
        evs.Perm ((L.filter fun x => partsMatch x.1 path).map fun x => (x.1.node, x.2)) := by
  obtain ⟨t, L, hr, hI⟩ := runTree_inv ops hp
  refine ⟨t, L, hr, fun path hf => ?_⟩
  by_cases h0 : path = []
  · subst h0
    refine ⟨[], rfl, ?_⟩
    rw [List.filter_eq_nil_iff.2]
    · simp
    · intro x _; simp [partsMatch]
  have hsp : pathSplit path = splitByte (trimDot path) 46 := by rw [pathSplit_eq, if_neg h0]
  rw [matches_at t path h0]
  by_cases hne : ∀ p ∈ pathSplit path, p ≠ []
  · classical
    let N : Str → Str → Bool := fun n p => decide (∃ x ∈ L, ∃ a ∈ x.1.parts,
      a.items.length ≠ 0 ∧ a.node = n ∧ a.matches p = .ok true)
    have hN : ∀ x ∈ L, ∀ a ∈ x.1.parts, ∀ p ∈ pathSplit path, p ≠ [] → a.matches p =
        .ok (if a.items.length = 0 then decide (a.node = p) else N a.node p) := by
      intro x hx a ha p hpp hp0
      by_cases hi : a.items.length = 0
      · rw [if_pos hi]; exact hf.literal x hx a ha hi p hpp hp0
      · rw [if_neg hi]
        obtain ⟨b, hb⟩ := hf.answers x hx a ha p hpp hp0
        rw [hb]
        congr 1
        cases b with
        | true => exact (decide_eq_true ⟨x, hx, a, ha, hi, rfl, hb⟩).symm
        | false =>
          refine (decide_eq_false ?_).symm
          rintro ⟨y, hy, c, hc, hci, hcn, hcm⟩
          have := hf.same x hx y hy a ha c hc hi hci hcn.symm p hpp hp0
          rw [hb, hcm] at this
          simp at this
    refine ⟨GTree.ev N (pathSplit path) (t.at (pathSplit path).length), ?_, ?_⟩
    · rw [matchItems_split _ _ _ (hI.wf _) (by rw [hsp]) (by rw [← hsp]; exact hne), ← hsp]
      apply matchByParts_ev _ _ _ (hI.wf _)
      · rintro g ⟨x, hx, hg, hi⟩ p hp'
        have := hN x hx g hg p hp' (hne p hp')
        rwa [if_neg hi] at this
      · rw [hsp]; exact splitByte_ne_nil _ _
    · refine (hI.ev N _ _ rfl).trans ?_
      have : (L.filter fun x => GTree.acc N x.1.parts (pathSplit path)) =
          L.filter fun x => partsMatch x.1 path := by
        apply List.filter_congr
        intro x hx
        rw [acc_partsMatch _ _ (hN x hx) hne]
        simp [partsMatch, h0]
      rw [this]
      exact List.Perm.refl _
  · have he : [] ∈ pathSplit path := by
      apply Classical.byContradiction
      intro h
      apply hne
      rintro p hp rfl
      exact h hp
    refine ⟨[], ?_, ?_⟩
    · rw [matchItems_empty _ _ _ (hI.wf _) (by rw [hsp]) (by rw [← hsp]; exact he)]
      · rfl
      · rintro g ⟨x, hx, hg, _⟩ p hp' hp0
        rw [← hsp] at hp'
        exact hf.answers x hx g hg p hp' hp0
    · rw [List.filter_eq_nil_iff.2]
      · simp
      · intro x hx h
        simp only [partsMatch, Bool.and_eq_true, decide_eq_true_eq, List.all_eq_true] at h
        obtain ⟨i, hi, e⟩ := List.mem_iff_getElem.1 he
        have := h.2 (x.1.parts[i]'(by omega), (pathSplit path)[i]) (by
          rw [List.mem_iff_getElem]
          exact ⟨i, by simp only [List.length_zip]; omega, by simp⟩)
        exact this.1 e

/-- The index of every accepted glob is reported at most once per occurrence in the history:
accepted globs have pairwise different node texts. -/
theorem accepted_nodes_distinct (ops : List GOp) (hp : ∀ op ∈ ops, op.Parsed) (t : GGlobTree)
    (L : List (GGlob × Int)) (h : runTree ops = .ok (t, L)) :
    L.Pairwise fun x y => x.1.node ≠ y.1.node := by
  suffices key : ∀ (ops : List GOp) (t0 : GGlobTree) (L0 : List (GGlob × Int)),
      (∀ op ∈ ops, op.Parsed) → TreeInv t0 L0 → L0.Pairwise (fun x y => x.1.node ≠ y.1.node) →
      runOps t0 L0 ops = .ok (t, L) → L.Pairwise fun x y => x.1.node ≠ y.1.node from
    key ops {} [] hp treeInv_empty List.Pairwise.nil h
  intro ops
  induction ops with
  | nil =>
    intro t0 L0 _ _ hL hr
    simp only [runOps, R.ok.injEq, Prod.mk.injEq] at hr
    rw [← hr.2]; exact hL
  | cons op ops ih =>
    intro t0 L0 hp' hI hL hr
    obtain ⟨t', r, h1, h2⟩ := apply_cases t0 op (hp' op (by simp))
    rw [runOps, h1, R.bind_ok] at hr
    dsimp only at hr
    rcases h2 with ⟨rfl, e⟩ | ⟨g, i, e, e1, e2, e3, e4, e5⟩
    · rw [e, List.append_nil] at hr
      exact ih _ _ (fun op h => hp' op (by simp [h])) hI hL hr
    · rw [e] at hr
      refine ih _ _ (fun op h => hp' op (by simp [h])) (treeInv_add hI e1 e2 e3 e4 e5) ?_ hr
      rw [List.pairwise_append]
      refine ⟨hL, by simp, ?_⟩
      intro x hx y hy hxy
      rw [List.mem_singleton] at hy
      subst hy
      have := hI.known x hx
      rw [hxy, e2] at this
      simp at this

/-- The reported calls of a run, as far as it succeeds. -/
def report (ops : List GOp) (path : Str) : Option (Events × Nat) :=
  match runTree ops with
  | .ok (t, _) =>
    match t.matches path with
    | .ok r => some r
    | _ => none
  | _ => none

-- A mixed tree: the literal child, two wild children, and a longer glob.
example : report [.add (b!"a.b*") 1, .add (b!"*.bc") 2, .add (b!"a.bc") 3, .add (b!"a.bc.d") 4,
    .add (b!"a.[bc]*") 5] (b!"a.bc.") =
    some ([(b!"a.bc", 3), (b!"a.b*", 1), (b!"a.[b-c]*", 5), (b!"*.bc", 2)], 4) := by decide +kernel

/-- The code violates the full claim: `{a[*],b?}` and `{a*,b?}` have the same node text, so the
second glob is matched by the matcher of the first one. -/
theorem same_node_wrong :
    report [.add (b!"{a*,b?}.e") 2] (b!"ax.e") = some ([(b!"{a*,b?}.e", 2)], 1) ∧
    report [.add (b!"{a[*],b?}.c") 1, .add (b!"{a*,b?}.e") 2] (b!"ax.e") = some ([], 0) := by
  decide +kernel

/-- The literal part `[*]` alone matches everything (see C01), in the tree only `*`. -/
theorem literal_star_wrong :
    ggMatchText (b!"[*].e*") (b!"x.e") = .ok (.ok true) ∧
    report [.add (b!"[*].e*") 1] (b!"x.e") = some ([], 0) := by
  decide +kernel

end C13

namespace C14

/-- On every reachable tree the two matchers make the same calls in the same order and return
the same count, for every path without empty parts. -/
theorem match_eq_byParts (ops : List GOp) (hp : ∀ op ∈ ops, op.Parsed) :
    ∃ t L, runTree ops = .ok (t, L) ∧ ∀ path, (∀ p ∈ pathSplit path, p ≠ []) →
      t.matches path = t.matchByParts (pathSplit path) := by
  obtain ⟨t, L, hr, hI⟩ := runTree_inv ops hp
  refine ⟨t, L, hr, fun path hne => ?_⟩
  by_cases h0 : path = []
  · subst h0; rfl
  have hsp : pathSplit path = splitByte (trimDot path) 46 := by rw [pathSplit_eq, if_neg h0]
  rw [matches_at t path h0, byParts_at t _ (by rw [hsp]; exact splitByte_ne_nil _ _),
    matchItems_split _ _ _ (hI.wf _) (by rw [hsp]) (by rw [← hsp]; exact hne), ← hsp]

example : (∀ p ∈ pathSplit (b!"a.bc."), p ≠ []) ∧ pathSplit (b!"a.bc.") = [b!"a", b!"bc"] := by
  decide

/-- With an empty part they differ: `Match` reports nothing, `MatchByParts` lets `*` match the
empty part. -/
theorem empty_part_wrong : (do
    let (t, _) ← runTree [.add (b!"a.*") 1]
    let x ← t.matches (b!"a..")
    let y ← t.matchByParts (pathSplit (b!"a.."))
    .ok (x, y) : R _) = .ok (([], 0), ([(b!"a.*", 1)], 1)) := by decide +kernel

end C14

namespace C15

/-- `Add` answers on every input, and a refused call (or the empty string) changes nothing. -/
theorem add_refused (t : GGlobTree) (s : Str) (i : Int) :
    ∃ t' r, t.add s i = .ok (t', r) ∧ (r.err ≠ none ∨ s = [] → t' = t) := by
  simp only [GGlobTree.add]
  by_cases h0 : s = []
  · rw [if_pos h0]; exact ⟨_, _, rfl, fun _ => rfl⟩
  rw [if_neg h0]
  by_cases h1 : i < 0
  · rw [if_pos h1]; exact ⟨_, _, rfl, fun _ => rfl⟩
  rw [if_neg h1]
  cases h2 : t.globs.get s with
  | some n => exact ⟨_, _, rfl, fun _ => rfl⟩
  | none =>
    dsimp only
    cases h3 : t.globsIndex.get i with
    | some q => exact ⟨_, _, rfl, fun _ => rfl⟩
    | none =>
      dsimp only
      obtain ⟨pr, hpr⟩ := parseGGlob_total s
      rw [hpr, R.bind_ok]
      cases pr with
      | error e => exact ⟨_, _, rfl, fun _ => rfl⟩
      | ok g =>
        dsimp only
        cases h4 : t.globs.get g.node with
        | some n => exact ⟨_, _, rfl, fun _ => rfl⟩
        | none => exact ⟨_, _, rfl, fun h => by simp [h0] at h⟩

/-- Which error `Add` reports for a non-empty string, in the order of the tests. -/
theorem add_error (t : GGlobTree) (s : Str) (i : Int) (hs : s ≠ []) (t' : GGlobTree) (r : AddRes)
    (h : t.add s i = .ok (t', r)) :
    (r.err = some .indexInvalid ↔ i < 0) ∧
    (r.err = some .indexDup ↔ 0 ≤ i ∧ t.globs.get s = none ∧ t.globsIndex.get i ≠ none) ∧
    (∀ e, r.err = some (.parse e) ↔ 0 ≤ i ∧ t.globs.get s = none ∧ t.globsIndex.get i = none ∧
      parseGGlob s = .ok (.error e)) ∧
    (r.err = some .globExist ↔ 0 ≤ i ∧ (t.globs.get s ≠ none ∨ t.globsIndex.get i = none ∧
      ∃ g, parseGGlob s = .ok (.ok g) ∧ t.globs.get g.node ≠ none)) ∧
    (r.err = none ↔ 0 ≤ i ∧ t.globs.get s = none ∧ t.globsIndex.get i = none ∧
      ∃ g, parseGGlob s = .ok (.ok g) ∧ t.globs.get g.node = none) := by
  simp only [GGlobTree.add] at h
  rw [if_neg hs] at h
  by_cases h1 : i < 0
  · rw [if_pos h1] at h
    simp only [R.ok.injEq, Prod.mk.injEq] at h
    have : ¬ 0 ≤ i := by omega
    simp [← h.2, h1, this]
  rw [if_neg h1] at h
  have h1' : 0 ≤ i := by omega
  cases h2 : t.globs.get s with
  | some n =>
    rw [h2] at h
    simp only [R.ok.injEq, Prod.mk.injEq] at h
    simp [← h.2, h1, h1']
  | none =>
    rw [h2] at h
    dsimp only at h
    cases h3 : t.globsIndex.get i with
    | some q =>
      rw [h3] at h
      simp only [R.ok.injEq, Prod.mk.injEq] at h
      simp [← h.2, h1, h1']
    | none =>
      rw [h3] at h
      dsimp only at h
      obtain ⟨pr, hpr⟩ := parseGGlob_total s
      rw [hpr, R.bind_ok] at h
      cases pr with
      | error e =>
        simp only [R.ok.injEq, Prod.mk.injEq] at h
        simp [← h.2, h1, h1', hpr]
      | ok g =>
        dsimp only at h
        cases h4 : t.globs.get g.node with
        | some n =>
          rw [h4] at h
          simp only [R.ok.injEq, Prod.mk.injEq] at h
          simp [← h.2, h1, h1', hpr, h4]
        | none =>
          rw [h4] at h
          simp only [R.ok.injEq, Prod.mk.injEq] at h
          simp [← h.2, h1, h1', hpr, h4]

/-- An accepted `Add` binds the index and the normal form to each other, records the written
form too, and leaves all other bindings alone. -/
theorem add_accepted (t : GGlobTree) (s : Str) (i : Int) (hs : s ≠ []) (t' : GGlobTree) (r : AddRes)
    (h : t.add s i = .ok (t', r)) (he : r.err = none) :
    ∃ g, parseGGlob s = .ok (.ok g) ∧ r.normalized = g.node ∧ r.n = i ∧
      t'.globs.get s = some i ∧ t'.globs.get g.node = some i ∧
      t'.globsIndex.get i = some g.node ∧
      (∀ q, q ≠ s → q ≠ g.node → t'.globs.get q = t.globs.get q) ∧
      (∀ j, j ≠ i → t'.globsIndex.get j = t.globsIndex.get j) := by
  obtain ⟨g1, g2, g3, g, g4, g5⟩ := (add_error t s i hs t' r h).2.2.2.2.1 he
  simp only [GGlobTree.add] at h
  rw [if_neg hs, if_neg (by omega), g2] at h
  dsimp only at h
  rw [g3] at h
  dsimp only at h
  rw [g4, R.bind_ok] at h
  dsimp only at h
  rw [g5] at h
  simp only [R.ok.injEq, Prod.mk.injEq] at h
  obtain ⟨rfl, rfl⟩ := h
  refine ⟨g, g4, rfl, rfl, ?_, ?_, ?_, ?_, ?_⟩
  · simp only [GoMap.get_set]
    split <;> simp
  · simp only [GoMap.get_set]; simp
  · simp only [GoMap.get_set]; simp
  · intro q h1 h2
    simp only [GoMap.get_set]
    rw [if_neg (fun h => h2 h.symm), if_neg (fun h => h1 h.symm)]
  · intro j hj
    simp only [GoMap.get_set]
    rw [if_neg (fun h => hj h.symm)]

/-- `AddGlob`: a refused call changes nothing, and the errors are those of the tests. -/
theorem addGlob_refused (t : GGlobTree) (g : GGlob) (i : Int) :
    ((t.addGlob g i).2.err ≠ none → (t.addGlob g i).1 = t) ∧
    ((t.addGlob g i).2.err = some .indexInvalid ↔ i < 0) ∧
    ((t.addGlob g i).2.err = some .globExist ↔ 0 ≤ i ∧
      (t.globs.get g.glob ≠ none ∨ t.globs.get g.node ≠ none)) ∧
    ((t.addGlob g i).2.err = some .indexDup ↔ 0 ≤ i ∧ t.globs.get g.glob = none ∧
      t.globs.get g.node = none ∧ t.globsIndex.get i ≠ none) := by
  unfold GGlobTree.addGlob
  by_cases h1 : i < 0
  · have : ¬ 0 ≤ i := by omega
    simp [h1, this]
  · have h1' : 0 ≤ i := by omega
    rw [if_neg h1]
    cases h2 : t.globs.get g.glob with
    | some n => simp [h1, h1']
    | none =>
      cases h3 : t.globs.get g.node with
      | some n => simp [h1, h1']
      | none =>
        cases h4 : t.globsIndex.get i with
        | some q => simp [h1, h1']
        | none => simp [h1]

/-- Full statement (not true of the code): an accepted `AddGlob` binds the index and the
normal form to each other, like `Add`.  Only one direction holds: the index is bound to
the empty string instead of the normal form, see `addGlob_wrong`. -/
theorem addGlob_accepted_partial (t : GGlobTree) (g : GGlob) (i : Int) (hn : g.node ≠ [])
    (he : (t.addGlob g i).2.err = none) :
    (t.addGlob g i).1.globs.get g.node = some i ∧ (t.addGlob g i).2.n = i ∧
    (∀ q, q ≠ g.node → q ≠ [] → (t.addGlob g i).1.globs.get q = t.globs.get q) ∧
    (∀ j, j ≠ i → (t.addGlob g i).1.globsIndex.get j = t.globsIndex.get j) ∧
    (t.addGlob g i).1.globsIndex.get i ≠ none := by
  unfold GGlobTree.addGlob at he ⊢
  by_cases h1 : i < 0
  · simp [h1] at he
  · rw [if_neg h1] at he ⊢
    cases h2 : t.globs.get g.glob with
    | some n => simp [h2] at he
    | none =>
      cases h3 : t.globs.get g.node with
      | some n => simp [h2, h3] at he
      | none =>
        cases h4 : t.globsIndex.get i with
        | some q => simp [h2, h3, h4] at he
        | none =>
          dsimp only
          rw [if_pos (fun h => hn h.symm)]
          refine ⟨?_, rfl, ?_, ?_, ?_⟩
          · simp only [GoMap.get_set]
            rw [if_neg (fun h => hn h.symm), if_pos trivial]
          · intro q h5 h6
            simp only [GoMap.get_set]
            rw [if_neg (fun h => h6 h.symm), if_neg (fun h => h5 h.symm)]
          · intro j hj
            simp only [GoMap.get_set]
            rw [if_neg (fun h => hj h.symm)]
          · simp only [GoMap.get_set]; simp

/-- `AddGlob` records the empty string for the index and returns it. -/
theorem addGlob_wrong : parsedWith (b!"a*") (fun g =>
    let r := ({} : GGlobTree).addGlob g 7
    r.2.err = none && r.2.normalized = [] && r.1.globsIndex.get 7 = some [] &&
      r.1.globs.get [] = some 7) = true := by decide +kernel

/-- An index is never bound again, whatever is called later. -/
theorem index_stable (ops : List GOp) (t t' : GGlobTree) (L L' : List (GGlob × Int)) (j : Int) (q : Str)
    (h : runOps t L ops = .ok (t', L')) (hj : t.globsIndex.get j = some q) :
    t'.globsIndex.get j = some q := by
  induction ops generalizing t L with
  | nil =>
    simp only [runOps, R.ok.injEq, Prod.mk.injEq] at h
    rw [← h.1]; exact hj
  | cons op ops ih =>
    rw [runOps] at h
    cases op with
    | add s i =>
      obtain ⟨t1, r, e1, e2⟩ := add_refused t s i
      simp only [GOp.apply, e1, R.bind_ok] at h
      refine ih _ _ h ?_
      by_cases hr : r.err ≠ none ∨ s = []
      · rw [e2 hr]; exact hj
      · simp only [not_or, Decidable.not_not] at hr
        have h1 := (add_error t s i hr.2 _ _ e1).2.2.2.2.1 hr.1
        obtain ⟨g, _, _, _, _, _, _, _, h2⟩ := add_accepted t s i hr.2 _ _ e1 hr.1
        rw [h2 j, hj]
        rintro rfl
        rw [h1.2.2.1] at hj
        simp at hj
    | addGlob g i =>
      simp only [GOp.apply, R.bind_ok] at h
      refine ih _ _ h ?_
      unfold GGlobTree.addGlob
      split
      · exact hj
      split
      · exact hj
      split
      · exact hj
      split
      · exact hj
      · rename_i h4
        dsimp only
        rw [GoMap.get_set]
        split
        · rename_i e; subst e; rw [h4] at hj; simp at hj
        · exact hj

/-- The books of a tree filled by `Add` alone: every index in use is bound to the normal form of
the accepted glob with this index, and this normal form to the index. -/
theorem books_partial (ops : List GOp) (hadd : ∀ op ∈ ops, ∃ s i, op = .add s i) :
    ∃ t L, runTree ops = .ok (t, L) ∧
      (∀ j q, t.globsIndex.get j = some q ↔ ∃ g, (g, j) ∈ L ∧ g.node = q) ∧
      (∀ x ∈ L, t.globs.get x.1.node = some x.2) := by
  suffices key : ∀ (ops : List GOp) (t : GGlobTree) (L : List (GGlob × Int)),
      (∀ op ∈ ops, ∃ s i, op = .add s i) →
      (∀ j q, t.globsIndex.get j = some q ↔ ∃ g, (g, j) ∈ L ∧ g.node = q) →
      (∀ x ∈ L, t.globs.get x.1.node = some x.2) →
      ∃ t' L', runOps t L ops = .ok (t', L') ∧
      (∀ j q, t'.globsIndex.get j = some q ↔ ∃ g, (g, j) ∈ L' ∧ g.node = q) ∧
      (∀ x ∈ L', t'.globs.get x.1.node = some x.2) from
    key ops {} [] hadd (by simp [GoMap.get]) (by simp)
  intro ops
  induction ops with
  | nil => intro t L _ h1 h2; exact ⟨t, L, rfl, h1, h2⟩
  | cons op ops ih =>
    intro t L ho h1 h2
    obtain ⟨s, i, rfl⟩ := ho op (by simp)
    obtain ⟨t1, r, e1, e2⟩ := add_refused t s i
    simp only [runOps, GOp.apply, e1, R.bind_ok]
    by_cases hr : r.err ≠ none ∨ s = []
    · rw [e2 hr]
      have : GOp.accepted r (.add s i) = [] := by
        simp only [GOp.accepted]
        rw [if_pos]
        rcases hr with h | h
        · left; cases hh : r.err <;> simp_all
        · right; exact h
      rw [this, List.append_nil]
      exact ih t L (fun op h => ho op (by simp [h])) h1 h2
    · simp only [not_or, Decidable.not_not] at hr
      obtain ⟨k1, k2, k3, g', k4, k5⟩ := (add_error t s i hr.2 _ _ e1).2.2.2.2.1 hr.1
      obtain ⟨g, a1, _, _, _, a5, a6, a7, a8⟩ := add_accepted t s i hr.2 _ _ e1 hr.1
      rw [a1] at k4
      simp only [R.ok.injEq, Except.ok.injEq] at k4
      subst k4
      have : GOp.accepted r (.add s i) = [(g, i)] := by
        simp [GOp.accepted, hr.1, hr.2, a1]
      rw [this]
      apply ih _ _ (fun op h => ho op (by simp [h]))
      · intro j q
        by_cases hj : j = i
        · subst hj
          rw [a6]
          constructor
          · intro h; simp only [Option.some.injEq] at h; exact ⟨g, by simp, h⟩
          · rintro ⟨g2, hg2, rfl⟩
            rcases List.mem_append.1 hg2 with h | h
            · have := (h1 j g2.node).2 ⟨g2, h, rfl⟩
              rw [k3] at this; simp at this
            · simp only [List.mem_singleton, Prod.mk.injEq] at h
              rw [h.1]
        · rw [a8 j hj, h1]
          constructor
          · rintro ⟨g2, hg2, e⟩; exact ⟨g2, by simp [hg2], e⟩
          · rintro ⟨g2, hg2, e⟩
            rcases List.mem_append.1 hg2 with h | h
            · exact ⟨g2, h, e⟩
            · simp only [List.mem_singleton, Prod.mk.injEq] at h
              exact absurd h.2 hj
      · intro x hx
        rcases List.mem_append.1 hx with h | h
        · have hk := h2 x h
          rw [a7, hk]
          · intro e; rw [e, k2] at hk; simp at hk
          · intro e; rw [e, k5] at hk; simp at hk
        · rw [List.mem_singleton.1 h]; exact a5

example : ∃ t L, runTree [.add (b!"a.{c,b}") 4, .add (b!"a.{b,c}.") 5, .add (b!"x") 4,
      .add (b!"b[") 6, .add (b!"y*") (-1), .add (b!"y*") 0] = .ok (t, L) ∧
    t.globsIndex.get 4 = some (b!"a.{b,c}") ∧ t.globsIndex.get 0 = some (b!"y*") := by
  obtain ⟨t, L, h, _⟩ := books_partial [.add (b!"a.{c,b}") 4, .add (b!"a.{b,c}.") 5,
    .add (b!"x") 4, .add (b!"b[") 6, .add (b!"y*") (-1), .add (b!"y*") 0] (by simp)
  refine ⟨t, L, h, ?_⟩
  have hc : (do
    let (t, L) ← runTree [.add (b!"a.{c,b}") 4, .add (b!"a.{b,c}.") 5,
      .add (b!"x") 4, .add (b!"b[") 6, .add (b!"y*") (-1), .add (b!"y*") 0]
    .ok (t.globsIndex.get 4 = some (b!"a.{b,c}") && t.globsIndex.get 0 = some (b!"y*") &&
      L.length = 2) : R Bool) = .ok true := by decide +kernel
  rw [h] at hc
  simp at hc
  exact hc.1

end C15

end GoMatcher
