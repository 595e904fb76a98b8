import Verif.Proofs.GlobTreeRoot

/-! # Histories of `GlobTree` -/

namespace GoMatcher

/-- A call of `Add` or `AddGlob`. -/
inductive GlobOp where
  | add (s : Str) (index : Int)
  | addGlob (g : Glob) (index : Int)

def GlobOp.apply (t : GlobTree) : GlobOp → R (GlobTree × GAddRes)
  | .add s i => t.add s i
  | .addGlob g i => .ok (t.addGlob g i)

/-- The glob and the index of a call that reported no error.  `Add("")` reports no error and
adds nothing. -/
def GlobOp.accepted (r : GAddRes) : GlobOp → List (Glob × Int)
  | .add s i =>
    if r.err.isSome ∨ s = [] then []
    else match parseGlob s with
      | .ok (.ok g) => [(g, i)]
      | _ => []
  | .addGlob g i => if r.err.isSome then [] else [(g, i)]

/-- Runs the calls; collects the accepted globs in order. -/
def runGlobOps (t : GlobTree) (L : List (Glob × Int)) : List GlobOp → R (GlobTree × List (Glob × Int))
  | [] => .ok (t, L)
  | op :: ops => do
    let r ← op.apply t
    runGlobOps r.1 (L ++ op.accepted r.2) ops

/-- All calls from an empty tree. -/
abbrev runGlobTree (ops : List GlobOp) : R (GlobTree × List (Glob × Int)) := runGlobOps {} [] ops

/-- `AddGlob` is only called with results of `Parse`. -/
def GlobOp.Parsed : GlobOp → Prop
  | .add _ _ => True
  | .addGlob g _ => ∃ s, parseGlob s = .ok (.ok g)

/-- `AddGlob` is only called with globs that are written in normal form. -/
def GlobOp.Normal : GlobOp → Prop
  | .add _ _ => True
  | .addGlob g _ => g.glob = g.node

/-- What one call does: nothing, or an insertion of a glob whose node was unknown. -/
theorem globApply_cases (t : GlobTree) (op : GlobOp) (hp : op.Parsed) :
    ∃ t' r, op.apply t = .ok (t', r) ∧
      ((t' = t ∧ op.accepted r = []) ∨
       ∃ g i, op.accepted r = [(g, i)] ∧ (∃ s, parseGlob s = .ok (.ok g)) ∧
         t.globs.get g.node = none ∧ t'.root = t.root.insert g.steps (g.node, i) ∧
         (op.Normal → (t'.globs.get g.node).isSome = true) ∧
         ∀ s, (t.globs.get s).isSome = true → (t'.globs.get s).isSome = true) := by
  cases op with
  | add s i =>
    simp only [GlobOp.apply, GlobTree.add]
    by_cases h0 : s = []
    · rw [if_pos h0]
      exact ⟨_, _, rfl, .inl ⟨rfl, by simp [GlobOp.accepted, h0]⟩⟩
    rw [if_neg h0]
    by_cases h1 : i < 0
    · rw [if_pos h1]
      exact ⟨_, _, rfl, .inl ⟨rfl, by simp [GlobOp.accepted]⟩⟩
    rw [if_neg h1]
    cases h2 : t.globs.get s with
    | some n => exact ⟨_, _, rfl, .inl ⟨rfl, by simp [GlobOp.accepted]⟩⟩
    | none =>
      dsimp only
      cases h3 : t.globsIndex.get i with
      | some q => exact ⟨_, _, rfl, .inl ⟨rfl, by simp [GlobOp.accepted]⟩⟩
      | none =>
        dsimp only
        obtain ⟨pr, hpr⟩ := parseGlob_total s
        rw [hpr, R.bind_ok]
        cases pr with
        | error e => exact ⟨_, _, rfl, .inl ⟨rfl, by simp [GlobOp.accepted]⟩⟩
        | ok g =>
          dsimp only
          cases h4 : t.globs.get g.node with
          | some n => exact ⟨_, _, rfl, .inl ⟨rfl, by simp [GlobOp.accepted]⟩⟩
          | none =>
            refine ⟨_, _, rfl, .inr ⟨g, i, ?_, ⟨s, hpr⟩, h4, rfl, fun _ => ?_, ?_⟩⟩
            · simp [GlobOp.accepted, h0, hpr]
            · dsimp only
              by_cases e : g.node = g.glob
              · rw [if_neg (by simp [e]), e]
                simp [GoMap.get_set]
              · rw [if_pos e]
                simp [GoMap.get_set]
            · intro s' hs'
              dsimp only
              split <;> simp only [GoMap.get_set] <;> (repeat' split) <;> first | rfl | exact hs'
  | addGlob g i =>
    simp only [GlobOp.apply, GlobTree.addGlob]
    by_cases h1 : i < 0
    · rw [if_pos h1]
      exact ⟨_, _, rfl, .inl ⟨rfl, by simp [GlobOp.accepted]⟩⟩
    rw [if_neg h1]
    cases h2 : t.globs.get g.glob with
    | some n => exact ⟨_, _, rfl, .inl ⟨rfl, by simp [GlobOp.accepted]⟩⟩
    | none =>
      dsimp only
      cases h4 : t.globs.get g.node with
      | some n => exact ⟨_, _, rfl, .inl ⟨rfl, by simp [GlobOp.accepted]⟩⟩
      | none =>
        dsimp only
        cases h3 : t.globsIndex.get i with
        | some q => exact ⟨_, _, rfl, .inl ⟨rfl, by simp [GlobOp.accepted]⟩⟩
        | none =>
          refine ⟨_, _, rfl, .inr ⟨g, i, ?_, hp, h4, rfl, fun hn => ?_, ?_⟩⟩
          · simp [GlobOp.accepted]
          · have hn' : g.glob = g.node := hn
            dsimp only
            rw [← hn']
            split <;> simp [GoMap.get_set]
          · intro s' hs'
            dsimp only
            split <;> simp only [GoMap.get_set] <;> (repeat' split) <;> first | rfl | exact hs'

/-- A history answers, and builds the tree of the accepted globs. -/
theorem runGlobOps_spec (ops : List GlobOp) (hp : ∀ op ∈ ops, op.Parsed) (t0 : GlobTree)
    (L0 : List (Glob × Int)) : ∃ t M, runGlobOps t0 L0 ops = .ok (t, L0 ++ M) ∧
      t.root = treeOf M t0.root ∧ (∀ x ∈ M, ∃ s, parseGlob s = .ok (.ok x.1)) ∧
      ((∀ op ∈ ops, op.Normal) → (∀ x ∈ M, t0.globs.get x.1.node = none) ∧
        M.Pairwise fun x y => x.1.node ≠ y.1.node) := by
  induction ops generalizing t0 L0 with
  | nil => exact ⟨t0, [], by simp [runGlobOps], rfl, by simp, by simp⟩
  | cons op ops ih =>
    obtain ⟨t', r, h1, h2⟩ := globApply_cases t0 op (hp op (by simp))
    obtain ⟨t, M, k1, k2, k3, k4⟩ := ih (fun op h => hp op (by simp [h])) t' (L0 ++ op.accepted r)
    rw [runGlobOps, h1, R.bind_ok]
    dsimp only
    rcases h2 with ⟨rfl, e⟩ | ⟨g, i, e, e1, e2, e3, e4, e5⟩
    · rw [e, List.append_nil] at k1 ⊢
      exact ⟨t, M, k1, k2, k3, fun hn => k4 (fun op h => hn op (by simp [h]))⟩
    · rw [e] at k1 ⊢
      refine ⟨t, (g, i) :: M, by rw [k1]; simp, by rw [k2, e3]; rfl, ?_, ?_⟩
      · intro x hx
        rcases List.mem_cons.1 hx with rfl | hx
        · exact e1
        · exact k3 x hx
      · intro hn
        obtain ⟨k5, k6⟩ := k4 (fun op h => hn op (by simp [h]))
        constructor
        · intro x hx
          rcases List.mem_cons.1 hx with rfl | hx
          · exact e2
          · have := k5 x hx
            cases hg : t0.globs.get x.1.node with
            | none => rfl
            | some n =>
              have h := e5 x.1.node (by rw [hg]; rfl)
              rw [this] at h
              cases h
        · refine List.Pairwise.cons ?_ k6
          intro y hy hxy
          have h := e4 (hn op (by simp))
          dsimp only at hxy
          rw [hxy, k5 y hy] at h
          cases h

theorem runGlobTree_spec (ops : List GlobOp) (hp : ∀ op ∈ ops, op.Parsed) :
    ∃ t L, runGlobTree ops = .ok (t, L) ∧ t.root = treeOf L emptyRoot ∧
      (∀ x ∈ L, ∃ s, parseGlob s = .ok (.ok x.1)) ∧
      ((∀ op ∈ ops, op.Normal) → L.Pairwise fun x y => x.1.node ≠ y.1.node) := by
  obtain ⟨t, M, h1, h2, h3, h4⟩ := runGlobOps_spec ops hp {} []
  exact ⟨t, M, h1, h2, h3, fun h => (h4 h).2⟩

end GoMatcher
