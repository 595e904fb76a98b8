import Verif.Proofs.GTree

/-! # Histories of `GGlobTree` -/

namespace GoMatcher

open GTree

/-- A call of `Add` or `AddGlob`. -/
inductive GOp where
  | add (s : Str) (index : Int)
  | addGlob (g : GGlob) (index : Int)

def GOp.apply (t : GGlobTree) : GOp → R (GGlobTree × AddRes)
  | .add s i => t.add s i
  | .addGlob g i => .ok (t.addGlob g i)

/-- The glob and the index of a call that reported no error.  `Add("")` reports no error and
adds nothing. -/
def GOp.accepted (r : AddRes) : GOp → List (GGlob × Int)
  | .add s i =>
    if r.err.isSome ∨ s = [] then []
    else match parseGGlob s with
      | .ok (.ok g) => [(g, i)]
      | _ => []
  | .addGlob g i => if r.err.isSome then [] else [(g, i)]

/-- Runs the calls; collects the accepted globs in order. -/
def runOps (t : GGlobTree) (L : List (GGlob × Int)) : List GOp → R (GGlobTree × List (GGlob × Int))
  | [] => .ok (t, L)
  | op :: ops => do
    let r ← op.apply t
    runOps r.1 (L ++ op.accepted r.2) ops

/-- `AddGlob` is only called with results of `Parse`. -/
def GOp.Parsed : GOp → Prop
  | .add _ _ => True
  | .addGlob g _ => ∃ s, parseGGlob s = .ok (.ok g)

/-- The tree for `n` parts. -/
def GGlobTree.at (t : GGlobTree) (n : Nat) : GTree := (t.root.get n).getD (GTree.leaf none)

/-- The stored entry of an accepted glob. -/
def entry (x : GGlob × Int) : Str × Int := (x.1.node, x.2)

/-- What one call does: nothing, or an insertion of a glob whose node was unknown. -/
theorem apply_cases (t : GGlobTree) (op : GOp) (hp : op.Parsed) :
    ∃ t' r, op.apply t = .ok (t', r) ∧
      ((t' = t ∧ op.accepted r = []) ∨
       ∃ g i, op.accepted r = [(g, i)] ∧ (∃ s, parseGGlob s = .ok (.ok g)) ∧
         t.globs.get g.node = none ∧ t'.root = addGGlob t.root g i ∧
         (t'.globs.get g.node).isSome = true ∧
         ∀ s, (t.globs.get s).isSome = true → (t'.globs.get s).isSome = true) := by
  cases op with
  | add s i =>
    simp only [GOp.apply, GGlobTree.add]
    by_cases h0 : s = []
    · rw [if_pos h0]
      exact ⟨_, _, rfl, .inl ⟨rfl, by simp [GOp.accepted, h0]⟩⟩
    rw [if_neg h0]
    by_cases h1 : i < 0
    · rw [if_pos h1]
      exact ⟨_, _, rfl, .inl ⟨rfl, by simp [GOp.accepted]⟩⟩
    rw [if_neg h1]
    cases h2 : t.globs.get s with
    | some n => exact ⟨_, _, rfl, .inl ⟨rfl, by simp [GOp.accepted]⟩⟩
    | none =>
      dsimp only
      cases h3 : t.globsIndex.get i with
      | some q => exact ⟨_, _, rfl, .inl ⟨rfl, by simp [GOp.accepted]⟩⟩
      | none =>
        dsimp only
        obtain ⟨pr, hpr⟩ := parseGGlob_total s
        rw [hpr, R.bind_ok]
        cases pr with
        | error e => exact ⟨_, _, rfl, .inl ⟨rfl, by simp [GOp.accepted]⟩⟩
        | ok g =>
          dsimp only
          cases h4 : t.globs.get g.node with
          | some n => exact ⟨_, _, rfl, .inl ⟨rfl, by simp [GOp.accepted]⟩⟩
          | none =>
            refine ⟨_, _, rfl, .inr ⟨g, i, ?_, ⟨s, hpr⟩, h4, rfl, ?_, ?_⟩⟩
            · simp [GOp.accepted, h0, hpr]
            · simp [GoMap.get_set]
            · intro s' hs'
              simp only [GoMap.get_set]
              split
              · rfl
              · split
                · rfl
                · exact hs'
  | addGlob g i =>
    simp only [GOp.apply, GGlobTree.addGlob]
    by_cases h1 : i < 0
    · rw [if_pos h1]
      exact ⟨_, _, rfl, .inl ⟨rfl, by simp [GOp.accepted]⟩⟩
    rw [if_neg h1]
    cases h2 : t.globs.get g.glob with
    | some n => exact ⟨_, _, rfl, .inl ⟨rfl, by simp [GOp.accepted]⟩⟩
    | none =>
      dsimp only
      cases h4 : t.globs.get g.node with
      | some n => exact ⟨_, _, rfl, .inl ⟨rfl, by simp [GOp.accepted]⟩⟩
      | none =>
        dsimp only
        cases h3 : t.globsIndex.get i with
        | some q => exact ⟨_, _, rfl, .inl ⟨rfl, by simp [GOp.accepted]⟩⟩
        | none =>
          refine ⟨_, _, rfl, .inr ⟨g, i, ?_, hp, h4, rfl, ?_, ?_⟩⟩
          · simp [GOp.accepted]
          · dsimp only
            split <;> simp [GoMap.get_set]
          · intro s' hs'
            dsimp only
            split <;> simp only [GoMap.get_set] <;> (repeat' split) <;> first | rfl | exact hs'

/-- Relation between a tree and the accepted globs. -/
structure TreeInv (t : GGlobTree) (L : List (GGlob × Int)) : Prop where
  parsed : ∀ x ∈ L, ∃ s, parseGGlob s = .ok (.ok x.1)
  known : ∀ x ∈ L, (t.globs.get x.1.node).isSome = true
  wf : ∀ n, WF (fun g => ∃ x ∈ L, g ∈ x.1.parts ∧ g.items.length ≠ 0) n (t.at n)
  find : ∀ n ks e, find ks (t.at n) = some e → ∃ x ∈ L, ks = x.1.parts.map key
  ev : ∀ N n ps, ps.length = n → (GTree.ev N ps (t.at n)).Perm
    ((L.filter fun x => acc N x.1.parts ps).map entry)

theorem WF.mono {P Q : Glob → Prop} (h : ∀ g, P g → Q g) (n : Nat) (t : GTree) (hw : WF P n t) :
    WF Q n t := by
  induction n generalizing t with
  | zero => cases t; exact hw
  | succ n ih =>
    cases t with
    | node i tm cm cs =>
      refine ⟨hw.1, fun x hx => ih _ (hw.2.1 x hx), fun c hc => ?_⟩
      obtain ⟨⟨g, h1, h2⟩, h3⟩ := hw.2.2 c hc
      exact ⟨⟨g, h1, h g h2⟩, ih _ h3⟩

theorem acc_length {N : Str → Str → Bool} {gs : List Glob} {ps : List Str} (h : acc N gs ps = true) :
    gs.length = ps.length := by
  induction gs generalizing ps with
  | nil => cases ps <;> simp_all [acc]
  | cons g gs ih =>
    cases ps with
    | nil => simp [acc] at h
    | cons p ps =>
      simp only [acc, Bool.and_eq_true] at h
      simp [ih h.2]

theorem treeInv_empty : TreeInv {} [] where
  parsed := by simp
  known := by simp
  wf n := leaf_wf _ _ _
  find n ks e h := by
    rw [show ({} : GGlobTree).at n = GTree.leaf none from rfl, leaf_find] at h
    simp at h
  ev N n ps _ := by
    rw [show ({} : GGlobTree).at n = GTree.leaf none from rfl, leaf_ev]
    simp

theorem treeInv_add {t t' : GGlobTree} {L : List (GGlob × Int)} (h : TreeInv t L) {g : GGlob} {i : Int}
    (hp : ∃ s, parseGGlob s = .ok (.ok g)) (hn : t.globs.get g.node = none)
    (hr : t'.root = addGGlob t.root g i) (hk : (t'.globs.get g.node).isSome = true)
    (hmono : ∀ s, (t.globs.get s).isSome = true → (t'.globs.get s).isSome = true) :
    TreeInv t' (L ++ [(g, i)]) := by
  have hat : ∀ n, t'.at n = if g.parts.length = n then (t.at n).insert g.parts (g.node, i)
      else t.at n := by
    intro n
    unfold GGlobTree.at
    rw [hr, addGGlob, GoMap.get_set]
    by_cases hl : g.parts.length = n
    · subst hl
      rw [if_pos rfl, if_pos rfl]; rfl
    · rw [if_neg hl, if_neg hl]
  have hfresh : ∀ n, GTree.find (g.parts.map key) (t.at n) = none := by
    intro n
    cases hf : GTree.find (g.parts.map key) (t.at n) with
    | none => rfl
    | some e =>
      obtain ⟨x, hx, hkx⟩ := h.find n _ _ hf
      obtain ⟨s, hs⟩ := hp
      obtain ⟨s', hs'⟩ := h.parsed x hx
      have e1 := (parseGGlob_ok hs).2.2.1
      have e2 := (parseGGlob_ok hs').2.2.1
      have : g.parts.map Glob.node = x.1.parts.map Glob.node := by
        have := congrArg (List.map Prod.snd) hkx
        simpa [Function.comp_def, key] using this
      have hknown := h.known x hx
      rw [e2, ← this, ← e1, hn] at hknown
      simp at hknown
  refine ⟨?_, ?_, ?_, ?_, ?_⟩
  · intro x hx
    rcases List.mem_append.1 hx with hx | hx
    · exact h.parsed x hx
    · rw [List.mem_singleton.1 hx]; exact hp
  · intro x hx
    rcases List.mem_append.1 hx with hx | hx
    · exact hmono _ (h.known x hx)
    · rw [List.mem_singleton.1 hx]; exact hk
  · intro n
    have hw : WF (fun g' => ∃ x ∈ L ++ [(g, i)], g' ∈ x.1.parts ∧ g'.items.length ≠ 0) n (t.at n) :=
      WF.mono (fun g' ⟨x, hx, k⟩ => ⟨x, by simp [hx], k⟩) n _ (h.wf n)
    rw [hat]
    by_cases hl : g.parts.length = n
    · subst hl
      rw [if_pos rfl]
      exact wf_insert _ _ _ _ hw (fun g' hg' h0 => ⟨(g, i), by simp, hg', h0⟩)
    · rw [if_neg hl]; exact hw
  · intro n ks e hf
    rw [hat] at hf
    by_cases hl : g.parts.length = n
    · rw [if_pos hl, find_insert] at hf
      by_cases hks : ks = g.parts.map key
      · exact ⟨(g, i), by simp, hks⟩
      · rw [if_neg hks] at hf
        obtain ⟨x, hx, hkx⟩ := h.find n ks e hf
        exact ⟨x, by simp [hx], hkx⟩
    · rw [if_neg hl] at hf
      obtain ⟨x, hx, hkx⟩ := h.find n ks e hf
      exact ⟨x, by simp [hx], hkx⟩
  · intro N n ps hps
    rw [hat, List.filter_append, List.map_append]
    by_cases hl : g.parts.length = n
    · rw [if_pos hl]
      refine (ev_insert N _ _ _ _ (hfresh n)).trans ?_
      refine List.perm_append_comm.trans (List.Perm.append (h.ev N n ps hps) ?_)
      cases ha : acc N g.parts ps <;> simp [ha, entry]
    · rw [if_neg hl]
      have : acc N g.parts ps = false := by
        cases ha : acc N g.parts ps with
        | false => rfl
        | true => exact absurd ((acc_length ha).trans hps) hl
      simpa [this] using h.ev N n ps hps

theorem runOps_inv (ops : List GOp) (hp : ∀ op ∈ ops, op.Parsed) (t : GGlobTree)
    (L : List (GGlob × Int)) (h : TreeInv t L) :
    ∃ t' L', runOps t L ops = .ok (t', L') ∧ TreeInv t' L' := by
  induction ops generalizing t L with
  | nil => exact ⟨t, L, rfl, h⟩
  | cons op ops ih =>
    obtain ⟨t', r, h1, h2⟩ := apply_cases t op (hp op (by simp))
    rw [runOps, h1, R.bind_ok]
    apply ih (fun op h => hp op (by simp [h]))
    rcases h2 with ⟨rfl, e⟩ | ⟨g, i, e, e1, e2, e3, e4, e5⟩
    · dsimp only; rw [e, List.append_nil]; exact h
    · dsimp only; rw [e]; exact treeInv_add h e1 e2 e3 e4 e5

end GoMatcher
