import Verif.Proofs.TagExact
import Verif.Proofs.TreePaths

/-! # When the search in a tag tree returns

After calls of `Add` every node leads to a reported query, so whatever question panics belongs to a query
whose earlier conditions hold. -/

namespace GoMatcher

/-! ## Every node leads to a report -/

mutual
/-- Every node is terminated or has a terminated node below. -/
def LiveG : List (Str × List TItem × List TItem) → Prop
  | [] => True
  | (_, nm, m) :: gs => LiveC m ∧ LiveC nm ∧ LiveG gs
def LiveC : List TItem → Prop
  | [] => True
  | c :: cs => LiveI c ∧ LiveC cs
def LiveI : TItem → Prop
  | .node _ fin gs => (fin.isSome = true ∨ pathsG gs ≠ []) ∧ LiveG gs
end

theorem liveG_append (a b : List TGroup) : LiveG (a ++ b) ↔ LiveG a ∧ LiveG b := by
  induction a with
  | nil => simp [LiveG]
  | cons x a ih =>
    obtain ⟨k, nm, m⟩ := x
    simp [LiveG, ih, and_assoc]

theorem liveG_get {gs : List TGroup} (h : LiveG gs) {i : Nat} {k : Str} {nm m : List TItem}
    (hi : gs[i]? = some (k, nm, m)) : LiveC m ∧ LiveC nm := by
  induction gs generalizing i with
  | nil => simp at hi
  | cons g gs ih =>
    obtain ⟨k', nm', m'⟩ := g
    obtain ⟨h2, h3, h4⟩ := h
    cases i with
    | zero =>
      simp only [List.getElem?_cons_zero, Option.some.injEq, Prod.mk.injEq] at hi
      obtain ⟨rfl, rfl, rfl⟩ := hi
      exact ⟨h2, h3⟩
    | succ i => exact ih h4 (by simpa using hi)

theorem liveG_set {gs : List TGroup} (h : LiveG gs) {i : Nat} {k : Str} {nm m : List TItem}
    (hm : LiveC m) (hnm : LiveC nm) : LiveG (gs.set i (k, nm, m)) := by
  induction gs generalizing i with
  | nil => simp [LiveG]
  | cons g gs ih =>
    obtain ⟨k', nm', m'⟩ := g
    obtain ⟨h2, h3, h4⟩ := h
    cases i with
    | zero => exact ⟨hm, hnm, h4⟩
    | succ i => exact ⟨h2, h3, ih h4⟩

theorem pathsG_set_ne {gs : List TGroup} {i : Nat} {k : Str} {nm m : List TItem} (hi : i < gs.length)
    (h : pathsC k true m ≠ [] ∨ pathsC k false nm ≠ []) : pathsG (gs.set i (k, nm, m)) ≠ [] := by
  induction gs generalizing i with
  | nil => simp at hi
  | cons g gs ih =>
    obtain ⟨k', nm', m'⟩ := g
    cases i with
    | zero =>
      rw [List.set_cons_zero, pathsG]
      rcases h with h | h <;> simp [h]
    | succ i =>
      rw [List.set_cons_succ, pathsG]
      simp [ih (i := i) (by simpa using hi)]

theorem liveI_paths {c : TItem} (h : LiveI c) (k : Str) (b : Bool) : pathsI k b c ≠ [] := by
  obtain ⟨t, fin, gs⟩ := c
  rw [LiveI] at h
  rw [pathsI]
  rcases h.1 with h | h
  · cases fin with
    | none => cases h
    | some e => simp
  · simp [h]

theorem insertTerm_live {f : TItem → R TItem} {t : TTerm} {cs cs' : List TItem} (h : LiveC cs)
    (hf : ∀ c c', LiveG c.items → f c = .ok c' → LiveI c') (hi : insertTerm f t cs = .ok cs') :
    LiveC cs' ∧ ∀ k b, pathsC k b cs' ≠ [] := by
  induction cs generalizing cs' with
  | nil =>
    rw [insertTerm] at hi
    obtain ⟨c, h1, h2⟩ := R.bind_eq_ok.1 hi
    simp only [R.ok.injEq] at h2
    subst h2
    have hc := hf (.node t none []) c (by simp [TItem.items, LiveG]) h1
    exact ⟨⟨hc, trivial⟩, fun k b => by rw [pathsC_cons]; simp [liveI_paths hc]⟩
  | cons x cs ih =>
    rw [insertTerm] at hi
    split at hi
    · obtain ⟨c, h1, h2⟩ := R.bind_eq_ok.1 hi
      simp only [R.ok.injEq] at h2
      subst h2
      have hx : LiveG x.items := by
        obtain ⟨_, _, gs⟩ := x
        exact h.1.2
      have hc := hf x c hx h1
      exact ⟨⟨hc, h.2⟩, fun k b => by rw [pathsC_cons]; simp [liveI_paths hc]⟩
    · obtain ⟨c, h1, h2⟩ := R.bind_eq_ok.1 hi
      simp only [R.ok.injEq] at h2
      subst h2
      have := ih h.2 h1
      exact ⟨⟨h.1, this.1⟩, fun k b => by rw [pathsC_cons]; simp [this.2]⟩

/-- Insertion of a query keeps this, whatever the terms are. -/
theorem parseItems_live (e : Str × Int) (ts : List TTerm) (gs gs' : List TGroup)
    (h : LiveG gs) (hp : parseItems (some e) ts gs = .ok gs') : LiveG gs' ∧ pathsG gs' ≠ [] := by
  induction ts generalizing gs gs' with
  | nil => simp [parseItems] at hp
  | cons t ts ih =>
    rw [parseItems] at hp
    obtain ⟨r, hr, hp⟩ := R.bind_eq_ok.1 hp
    have hk : LiveG r.1 := by
      by_cases hkey : t.key = []
      · unfold findOrAppend at hr; rw [if_pos hkey] at hr
        simp only [R.ok.injEq] at hr
        subst hr
        exact h
      · obtain ⟨a, b, nm, m, h1, h2⟩ := findOrAppend_spec gs t.key hkey
        rw [hr] at h1
        simp only [R.ok.injEq] at h1
        subst h1
        rcases h2 with rfl | ⟨rfl, rfl, rfl⟩
        · exact h
        · rw [liveG_append] at h ⊢
          exact ⟨h.1, trivial, trivial, h.2⟩
    cases hg : r.1[r.2]? with
    | none => rw [hg] at hp; simp at hp
    | some g =>
      obtain ⟨k, nm, m⟩ := g
      rw [hg] at hp
      dsimp only at hp
      obtain ⟨k2, k3⟩ := liveG_get hk hg
      have hlt : r.2 < r.1.length := (List.getElem?_eq_some_iff.1 hg).1
      have hf : ∀ c c', LiveG c.items →
          TItem.descend ts.isEmpty (some e) (parseItems (some e) ts) c = .ok c' → LiveI c' := by
        intro c c' hc hd
        obtain ⟨u, fin, items⟩ := c
        unfold TItem.descend at hd
        split at hd
        · simp only [R.ok.injEq] at hd
          subst hd
          exact ⟨.inl rfl, hc⟩
        · obtain ⟨it, h1, h2⟩ := R.bind_eq_ok.1 hd
          simp only [R.ok.injEq] at h2
          subst h2
          obtain ⟨i1, i2⟩ := ih _ _ hc h1
          exact ⟨.inr i2, i1⟩
      split at hp
      · obtain ⟨m', h1, h2⟩ := R.bind_eq_ok.1 hp
        simp only [R.ok.injEq] at h2
        subst h2
        obtain ⟨l1, l2⟩ := insertTerm_live k2 hf h1
        exact ⟨liveG_set hk l1 k3, pathsG_set_ne hlt (.inl (l2 _ _))⟩
      · obtain ⟨m', h1, h2⟩ := R.bind_eq_ok.1 hp
        simp only [R.ok.injEq] at h2
        subst h2
        obtain ⟨l1, l2⟩ := insertTerm_live k3 hf h1
        exact ⟨liveG_set hk k2 l1, pathsG_set_ne hlt (.inr (l2 _ _))⟩

theorem runAdds_live {lib : GoLib} (as : List (Str × Int)) (hk : ∀ a ∈ as, HasKeys lib a.1)
    {t t' : GTagsTree} {L L' : List (List TTerm × Int)} (h : LiveG t.root)
    (hr : runAdds lib t L as = .ok (t', L')) : LiveG t'.root := by
  induction as generalizing t L with
  | nil =>
    simp only [runAdds, R.ok.injEq, Prod.mk.injEq] at hr
    rw [← hr.1]; exact h
  | cons a as ih =>
    obtain ⟨t1, r, h1, h2⟩ := add_cases lib t a.1 a.2 (hk a (by simp))
    rw [runAdds, h1, R.bind_ok] at hr
    refine ih (fun a h => hk a (by simp [h])) ?_ hr
    rcases h2 with ⟨rfl, e⟩ | ⟨ts, e, hp, e2, e3, e4, e5⟩
    · exact h
    · rcases e3 with ⟨_, e3, _⟩ | ⟨_, _, e3⟩
      · rw [e3]; exact h
      · exact (parseItems_live _ _ _ _ h e3).1

/-! ## The search returns exactly if every query can be answered -/

/-- The conditions met on a way down are answered, up to the first one that fails. -/
def WalkOk (lib : GoLib) (tags : GoMap Str Str) : List Step → Prop
  | [] => True
  | s :: p =>
    match tags.get s.1 with
    | some v => ∃ b, s.2.2.matches lib v = .ok b ∧ (b = true → WalkOk lib tags p)
    | none => s.2.1 = false → WalkOk lib tags p

theorem isOk_whenR {m : R Bool} {a : R (Events × Nat)} :
    IsOk (whenR m a) ↔ ∃ b, m = .ok b ∧ (b = true → IsOk a) := by
  unfold whenR IsOk
  cases m with
  | ok b => cases b <;> simp
  | panic => simp
  | timeout => simp

theorem forall_pathsI (k : Str) (b : Bool) (t : TTerm) (fin : Option (Str × Int)) (gs : List TGroup)
    (Q : List Step → Prop) (h : fin.isSome = true ∨ pathsG gs ≠ []) :
    (∀ p ∈ pathsI k b (.node t fin gs), Q p.1) ↔
      (fin.isSome = true → Q [(k, b, t)]) ∧ ∀ p ∈ pathsG gs, Q ((k, b, t) :: p.1) := by
  rw [pathsI]
  constructor
  · intro h
    constructor
    · intro hf
      cases fin with
      | none => cases hf
      | some e => exact h ([(k, b, t)], e) (by simp)
    · intro p hp
      exact h ((k, b, t) :: p.1, p.2) (List.mem_append.2 (.inr (List.mem_map.2 ⟨p, hp, rfl⟩)))
  · rintro ⟨h1, h2⟩ p hp
    rcases List.mem_append.1 hp with hp | hp
    · obtain ⟨e, he, rfl⟩ := List.mem_map.1 hp
      exact h1 (by cases fin with | none => cases he | some _ => rfl)
    · obtain ⟨q, hq, rfl⟩ := List.mem_map.1 hp
      exact h2 q hq

/-- All steps below a positive condition whose tag is absent are skipped. -/
theorem pathsC_head {k : Str} {b : Bool} {cs : List TItem} {p : List Step × (Str × Int)}
    (h : p ∈ pathsC k b cs) : ∃ t q, p.1 = (k, b, t) :: q := by
  induction cs with
  | nil => simp [pathsC] at h
  | cons c cs ih =>
    rw [pathsC_cons] at h
    rcases List.mem_append.1 h with h | h
    · obtain ⟨t, fin, gs⟩ := c
      rw [pathsI] at h
      rcases List.mem_append.1 h with h | h
      · obtain ⟨e, _, rfl⟩ := List.mem_map.1 h
        exact ⟨t, [], rfl⟩
      · obtain ⟨q, _, rfl⟩ := List.mem_map.1 h
        exact ⟨t, q.1, rfl⟩
    · exact ih h

mutual
theorem groupsMap_isOk (lib : GoLib) (tags : GoMap Str Str) (gs : List (Str × List TItem × List TItem))
    (h : LiveG gs) : IsOk (groupsMap lib tags gs) ↔ ∀ p ∈ pathsG gs, WalkOk lib tags p.1 := by
  match gs with
  | [] => simp [groupsMap, pathsG, IsOk]
  | (k, nm, m) :: gs =>
    obtain ⟨h1, h2, h3⟩ := h
    rw [groupsMap, pathsG, isOk_addR, groupsMap_isOk lib tags gs h3]
    have c1 := childsMap_isOk lib tags k true m h1
    have c2 := childsMap_isOk lib tags k false nm h2
    simp only [List.mem_append, or_imp, forall_and]
    refine and_congr_left fun _ => ?_
    cases hg : tags.get k with
    | some v =>
      rw [hg] at c1 c2
      dsimp only
      rw [isOk_addR, c1 (by simp), c2 (by simp)]
    | none =>
      rw [hg] at c2
      dsimp only
      rw [c2 (by simp)]
      refine ⟨fun h => ⟨?_, h⟩, fun h => h.2⟩
      intro p hp
      obtain ⟨t, q, e⟩ := pathsC_head hp
      rw [e, WalkOk, hg]
      simp
theorem childsMap_isOk (lib : GoLib) (tags : GoMap Str Str) (k : Str) (b : Bool) (cs : List TItem)
    (h : LiveC cs) : (tags.get k = none → b = false) →
    (IsOk (childsMap lib tags (tags.get k) cs) ↔ ∀ p ∈ pathsC k b cs, WalkOk lib tags p.1) := by
  intro hb
  match cs with
  | [] => simp [childsMap, pathsC, IsOk]
  | c :: cs =>
    rw [childsMap, pathsC, isOk_addR, childMap_isOk lib tags k b c h.1 hb,
      childsMap_isOk lib tags k b cs h.2 hb]
    simp only [List.mem_append, or_imp, forall_and]
theorem childMap_isOk (lib : GoLib) (tags : GoMap Str Str) (k : Str) (b : Bool) (c : TItem)
    (h : LiveI c) : (tags.get k = none → b = false) →
    (IsOk (childMap lib tags (tags.get k) c) ↔ ∀ p ∈ pathsI k b c, WalkOk lib tags p.1) := by
  intro hb
  match c with
  | .node t fin gs =>
    obtain ⟨h1, h2⟩ := h
    have ih := groupsMap_isOk lib tags gs h2
    rw [childMap, isOk_whenR, forall_pathsI _ _ _ _ _ _ h1]
    have hrec : IsOk (addR (.ok (storeFin fin)) (groupsMap lib tags gs)) ↔
        ∀ p ∈ pathsG gs, WalkOk lib tags p.1 := by
      rw [isOk_addR, ih]
      exact ⟨fun h => h.2, fun h => ⟨⟨_, rfl⟩, h⟩⟩
    rw [hrec]
    simp only [WalkOk]
    cases hg : tags.get k with
    | none =>
      simp [askTerm, hb hg]
    | some v =>
      dsimp only
      rw [askTerm]
      constructor
      · rintro ⟨a, e1, e2⟩
        exact ⟨fun _ => ⟨a, e1, fun _ => trivial⟩, fun p hp => ⟨a, e1, fun ha => e2 ha p hp⟩⟩
      · rintro ⟨e1, e2⟩
        have hex : ∃ a, t.matches lib v = .ok a := by
          rcases h1 with h1 | h1
          · obtain ⟨a, e, _⟩ := e1 h1
            exact ⟨a, e⟩
          · obtain ⟨p, hp⟩ := List.exists_mem_of_ne_nil _ h1
            obtain ⟨a, e, _⟩ := e2 p hp
            exact ⟨a, e⟩
        obtain ⟨a, e⟩ := hex
        refine ⟨a, e, fun ha p hp => ?_⟩
        obtain ⟨a', e', f⟩ := e2 p hp
        rw [e] at e'
        cases e'
        exact f ha
end

/-- Along the conditions of a query, this is whether the query itself answers. -/
theorem walkOk_iff (lib : GoLib) (tags : GoMap Str Str) (p : List Step)
    (h : ∀ s ∈ p, s = (s.2.2.key, s.2.2.op.isMatched, s.2.2)) :
    WalkOk lib tags p ↔ ∃ b, matchByTagsMap lib (p.map fun s => s.2.2) tags = .ok b := by
  induction p with
  | nil => simp [WalkOk, matchByTagsMap]
  | cons s p ih =>
    have hs := h s (by simp)
    have ih := ih fun s hs => h s (by simp [hs])
    obtain ⟨k, b, t⟩ := s
    simp only [Prod.mk.injEq] at hs
    obtain ⟨rfl, rfl, _⟩ := hs
    rw [WalkOk, List.map_cons, matchByTagsMap]
    cases hg : tags.get t.key with
    | none =>
      dsimp only
      rw [ih]
      cases t.op <;> simp [TagOp.isMatched]
    | some v =>
      dsimp only
      cases hm : t.matches lib v with
      | ok a => cases a <;> simp [ih]
      | panic => simp
      | timeout => simp

end GoMatcher
