import Verif.Proofs.GTreeHist

/-! # A tree of dotted globs before and after an insertion -/

namespace GoMatcher

open GTree

/-- The same calls in the same order and the same count, or the call `e` once more and one more
counted. -/
def Grown (e : Str × Int) (r r' : Events × Nat) : Prop :=
  r' = r ∨ ∃ l₁ l₂, r.1 = l₁ ++ l₂ ∧ r'.1 = l₁ ++ e :: l₂ ∧ r'.2 = r.2 + 1

/-- The same for searches; the second one only returns if the first one does. -/
def GrownR (e : Str × Int) (a a' : R (Events × Nat)) : Prop :=
  ∀ r', a' = .ok r' → ∃ r, a = .ok r ∧ Grown e r r'

theorem GrownR.refl (e : Str × Int) (a : R (Events × Nat)) : GrownR e a a :=
  fun r' h => ⟨r', h, .inl rfl⟩

theorem Grown.left {e : Str × Int} {a a' : Events × Nat} (h : Grown e a a') (b : Events × Nat) :
    Grown e (addEv a b) (addEv a' b) := by
  rcases h with rfl | ⟨l₁, l₂, h1, h2, h3⟩
  · exact .inl rfl
  · refine .inr ⟨l₁, l₂ ++ b.1, ?_, ?_, ?_⟩
    · simp [addEv, h1]
    · simp [addEv, h2]
    · simp only [addEv, h3]; omega

theorem Grown.right {e : Str × Int} {b b' : Events × Nat} (a : Events × Nat) (h : Grown e b b') :
    Grown e (addEv a b) (addEv a b') := by
  rcases h with rfl | ⟨l₁, l₂, h1, h2, h3⟩
  · exact .inl rfl
  · refine .inr ⟨a.1 ++ l₁, l₂, ?_, ?_, ?_⟩
    · simp [addEv, h1]
    · simp [addEv, h2]
    · simp only [addEv, h3]; omega

theorem GrownR.left {e : Str × Int} {a a' : R (Events × Nat)} (h : GrownR e a a') (b : R (Events × Nat)) :
    GrownR e (addR a b) (addR a' b) := by
  intro r' hr
  unfold addR at hr ⊢
  obtain ⟨u', h1, hr⟩ := R.bind_eq_ok.1 hr
  obtain ⟨v, h2, hr⟩ := R.bind_eq_ok.1 hr
  cases hr
  obtain ⟨u, hu, hg⟩ := h u' h1
  exact ⟨addEv u v, by rw [hu, R.bind_ok, h2, R.bind_ok], hg.left v⟩

theorem GrownR.right {e : Str × Int} {b b' : R (Events × Nat)} (a : R (Events × Nat)) (h : GrownR e b b') :
    GrownR e (addR a b) (addR a b') := by
  intro r' hr
  unfold addR at hr ⊢
  obtain ⟨u, h1, hr⟩ := R.bind_eq_ok.1 hr
  obtain ⟨v', h2, hr⟩ := R.bind_eq_ok.1 hr
  cases hr
  obtain ⟨v, hv, hg⟩ := h v' h2
  exact ⟨addEv u v, by rw [h1, R.bind_ok, hv, R.bind_ok], hg.right u⟩

theorem GrownR.bind {e : Str × Int} {α : Type} (x : R α) {f g : α → R (Events × Nat)}
    (h : ∀ a, GrownR e (f a) (g a)) : GrownR e (x >>= f) (x >>= g) := by
  intro r' hr
  obtain ⟨a, h1, hr⟩ := R.bind_eq_ok.1 hr
  obtain ⟨r, h2, hg⟩ := h a r' hr
  exact ⟨r, by rw [h1, R.bind_ok, h2], hg⟩

/-! ## Dotted globs -/

/-- What is done at a child whose part has matched. -/
def visitItems (rest : Str) (c : GTree) : R (Events × Nat) :=
  if rest = [] then .ok (storeTerm c) else c.matchItems rest

def visitParts (rest : List Str) (c : GTree) : R (Events × Nat) :=
  if rest = [] then .ok (storeTerm c) else c.matchByParts rest

/-- The body of the loop over `Childs`. -/
def tryChild (part : Str) (v : GTree → R (Events × Nat)) (c : GTree) : R (Events × Nat) := do
  let m ← c.itemMatches part
  if m then v c else .ok ([], 0)

theorem childItems_cons (c : GTree) (cs : List GTree) (part rest : Str) :
    childItems (c :: cs) part rest = addR (tryChild part (visitItems rest) c) (childItems cs part rest) := by
  rw [childItems]
  unfold tryChild addR visitItems
  cases c.itemMatches part with
  | ok m => cases m <;> rfl
  | panic => rfl
  | timeout => rfl

theorem childParts_cons (c : GTree) (cs : List GTree) (part : Str) (rest : List Str) :
    childParts (c :: cs) part rest = addR (tryChild part (visitParts rest) c) (childParts cs part rest) := by
  rw [childParts]
  unfold tryChild addR visitParts
  cases c.itemMatches part with
  | ok m => cases m <;> rfl
  | panic => rfl
  | timeout => rfl

theorem tryChild_grown {e : Str × Int} {part : Str} {v : GTree → R (Events × Nat)} {c c' : GTree}
    (hi : c'.item = c.item) (h : GrownR e (v c) (v c')) : GrownR e (tryChild part v c) (tryChild part v c') := by
  unfold tryChild
  have : c'.itemMatches part = c.itemMatches part := by unfold itemMatches; rw [hi]
  rw [this]
  apply GrownR.bind
  intro m
  cases m
  · exact GrownR.refl _ _
  · exact h

theorem addR_nothing (a : R (Events × Nat)) : addR a (.ok ([], 0)) = a := by
  cases a with
  | ok r => obtain ⟨x, n⟩ := r; simp [addR, addEv]
  | panic => rfl
  | timeout => rfl

theorem tryChild_new {e : Str × Int} {part : Str} {v : GTree → R (Events × Nat)} {c : GTree}
    (h : GrownR e (.ok ([], 0)) (v c)) : GrownR e (.ok ([], 0)) (tryChild part v c) := by
  intro r' hr
  unfold tryChild at hr
  obtain ⟨m, h1, hr⟩ := R.bind_eq_ok.1 hr
  cases m
  · cases hr; exact ⟨_, rfl, .inl rfl⟩
  · exact h r' hr

/-- Insertion among the wild children, for either search. -/
theorem insertChilds_grown {e : Str × Int} {part : Str} {v : GTree → R (Events × Nat)}
    {loop : List GTree → R (Events × Nat)} (h0 : loop [] = .ok ([], 0))
    (h1 : ∀ c cs, loop (c :: cs) = addR (tryChild part v c) (loop cs))
    (f : GTree → GTree) (hi : ∀ c, (f c).item = c.item) (g : Glob)
    (hleaf : v (GTree.leaf (some g)) = .ok ([], 0)) (cs : List GTree)
    (hf : ∀ c, (cs.find? fun c => c.nodeOf = some g.node) = some c ∨ c = GTree.leaf (some g) →
      GrownR e (v c) (v (f c))) :
    GrownR e (loop cs) (loop (insertChilds f g cs)) := by
  induction cs with
  | nil =>
    rw [insertChilds, h1, h0, addR_nothing]
    apply tryChild_new
    rw [← hleaf]
    exact hf _ (.inr rfl)
  | cons c cs ih =>
    rw [insertChilds]
    by_cases hc : c.item.map Glob.node = some g.node
    · rw [if_pos hc, h1, h1]
      apply GrownR.left
      apply tryChild_grown (hi c)
      apply hf
      left
      rw [List.find?_cons]
      have : decide (c.nodeOf = some g.node) = true := by simpa [nodeOf] using hc
      rw [this]
    · rw [if_neg hc, h1, h1]
      apply GrownR.right
      apply ih
      intro d hd
      apply hf
      rcases hd with hd | hd
      · left
        rw [List.find?_cons]
        have : decide (c.nodeOf = some g.node) = false := by simpa [nodeOf] using hc
        rw [this]
        exact hd
      · exact .inr hd

/-- Insertion among the literal children. -/
theorem insertMap_grown {e : Str × Int} {part : Str} {v : GTree → R (Events × Nat)}
    {look : List (Str × GTree) → R (Events × Nat)} (h0 : look [] = .ok ([], 0))
    (h1 : ∀ k c cm, look ((k, c) :: cm) = if k = part then v c else look cm)
    (f : GTree → GTree) (g : Glob)
    (hleaf : v (GTree.leaf (some g)) = .ok ([], 0)) (cm : List (Str × GTree))
    (hf : ∀ c, GoMap.get cm g.node = some c ∨ c = GTree.leaf (some g) → GrownR e (v c) (v (f c))) :
    GrownR e (look cm) (look (insertMap f g cm)) := by
  induction cm with
  | nil =>
    rw [insertMap, h1, h0]
    split
    · rw [← hleaf]
      exact hf _ (.inr rfl)
    · exact GrownR.refl _ _
  | cons x cm ih =>
    obtain ⟨k, c⟩ := x
    rw [insertMap]
    by_cases hk : k = g.node
    · rw [if_pos hk, h1, h1]
      split
      · apply hf
        left
        simp [GoMap.get, hk]
      · exact GrownR.refl _ _
    · rw [if_neg hk, h1, h1]
      split
      · exact GrownR.refl _ _
      · apply ih
        intro d hd
        apply hf
        rcases hd with hd | hd
        · left
          simpa [GoMap.get, hk] using hd
        · exact .inr hd

theorem fresh_map {g : Glob} {gs : List Glob} {i tm cm cs} (hg : g.items.length = 0)
    (h : find ((g :: gs).map key) (.node i tm cm cs) = none) (c : GTree)
    (hc : GoMap.get cm g.node = some c ∨ c = GTree.leaf (some g)) : find (gs.map key) c = none := by
  rcases hc with hc | rfl
  · simp only [List.map_cons, key, hg, decide_true, find, hc, Option.bind_some] at h
    exact h
  · exact leaf_find _ _

theorem fresh_childs {g : Glob} {gs : List Glob} {i tm cm cs} (hg : ¬ g.items.length = 0)
    (h : find ((g :: gs).map key) (.node i tm cm cs) = none) (c : GTree)
    (hc : (cs.find? fun c => c.nodeOf = some g.node) = some c ∨ c = GTree.leaf (some g)) :
    find (gs.map key) c = none := by
  rcases hc with hc | rfl
  · simp only [List.map_cons, key, hg, decide_false, find, hc, Option.bind_some] at h
    exact h
  · exact leaf_find _ _

theorem storeTerm_insert (t : GTree) (gs : List Glob) (e : Str × Int) (hf : find (gs.map key) t = none) :
    GrownR e (.ok (storeTerm t)) (.ok (storeTerm (t.insert gs e))) := by
  cases t with
  | node i tm cm cs =>
    cases gs with
    | nil =>
      have h : tm = none := hf
      subst h
      intro r' hr
      cases hr
      exact ⟨_, rfl, .inr ⟨[], [], rfl, rfl, rfl⟩⟩
    | cons g gs =>
      rw [GTree.insert]
      split <;> exact GrownR.refl _ _

theorem matchItems_insert (t : GTree) (gs : List Glob) (e : Str × Int) (hf : find (gs.map key) t = none)
    (path : Str) : GrownR e (t.matchItems path) ((t.insert gs e).matchItems path) := by
  induction gs generalizing t path with
  | nil =>
    cases t with
    | node i tm cm cs =>
      rw [GTree.insert, GTree.matchItems, GTree.matchItems]
      exact GrownR.refl _ _
  | cons g gs ih =>
    cases t with
    | node i tm cm cs =>
      have hv : ∀ rest c, find (gs.map key) c = none →
          GrownR e (visitItems rest c) (visitItems rest (c.insert gs e)) := by
        intro rest c hc
        unfold visitItems
        split
        · exact storeTerm_insert c gs e hc
        · exact ih c hc rest
      have hleaf : ∀ rest, visitItems rest (GTree.leaf (some g)) = .ok ([], 0) := by
        intro rest
        unfold visitItems
        split
        · rfl
        · rw [GTree.leaf, GTree.matchItems]
          simp only [mapItems, childItems, R.bind_ok]
          split <;> rfl
      rw [GTree.insert]
      by_cases hg : g.items.length = 0
      · rw [if_pos hg, GTree.matchItems, GTree.matchItems]
        split
        · exact GrownR.refl _ _
        · refine GrownR.left (a := mapItems cm _ _) ?_ (childItems cs _ _)
          apply insertMap_grown (v := visitItems (cutDot path).2.1) (part := (cutDot path).1)
            (look := fun cm => mapItems cm (cutDot path).1 (cutDot path).2.1)
          · rfl
          · intro k c cm; rw [mapItems]; rfl
          · exact hleaf _
          · intro c hc
            exact hv _ c (fresh_map hg hf c hc)
      · rw [if_neg hg, GTree.matchItems, GTree.matchItems]
        split
        · exact GrownR.refl _ _
        · refine GrownR.right (mapItems cm _ _) (b := childItems cs _ _) ?_
          apply insertChilds_grown (v := visitItems (cutDot path).2.1) (part := (cutDot path).1)
            (loop := fun cs => childItems cs (cutDot path).1 (cutDot path).2.1)
          · rfl
          · intro c cs; exact childItems_cons _ _ _ _
          · intro c; exact insert_item _ _ _
          · exact hleaf _
          · intro c hc
            exact hv _ c (fresh_childs hg hf c hc)

theorem matchByParts_insert (t : GTree) (gs : List Glob) (e : Str × Int) (hf : find (gs.map key) t = none)
    (ps : List Str) (hps : ps ≠ []) : GrownR e (t.matchByParts ps) ((t.insert gs e).matchByParts ps) := by
  induction gs generalizing t ps with
  | nil =>
    cases t with
    | node i tm cm cs =>
      rw [GTree.insert, GTree.matchByParts.eq_def, GTree.matchByParts.eq_def]
      exact GrownR.refl _ _
  | cons g gs ih =>
    cases ps with
    | nil => exact absurd rfl hps
    | cons p ps =>
    cases t with
    | node i tm cm cs =>
      have hv : ∀ rest c, find (gs.map key) c = none →
          GrownR e (visitParts rest c) (visitParts rest (c.insert gs e)) := by
        intro rest c hc
        unfold visitParts
        split
        · exact storeTerm_insert c gs e hc
        · rename_i h; exact ih c hc rest h
      have hleaf : ∀ rest, visitParts rest (GTree.leaf (some g)) = .ok ([], 0) := by
        intro rest
        unfold visitParts
        split
        · rfl
        · cases rest with
          | nil => contradiction
          | cons q rest => rw [GTree.leaf, GTree.matchByParts]; rfl
      rw [GTree.insert]
      by_cases hg : g.items.length = 0
      · rw [if_pos hg, GTree.matchByParts, GTree.matchByParts]
        refine GrownR.left (a := mapParts cm _ _) ?_ (childParts cs _ _)
        apply insertMap_grown (v := visitParts ps) (part := p) (look := fun cm => mapParts cm p ps)
        · rfl
        · intro k c cm; rw [mapParts]; rfl
        · exact hleaf _
        · intro c hc
          exact hv _ c (fresh_map hg hf c hc)
      · rw [if_neg hg, GTree.matchByParts, GTree.matchByParts]
        refine GrownR.right (mapParts cm _ _) (b := childParts cs _ _) ?_
        apply insertChilds_grown (v := visitParts ps) (part := p) (loop := fun cs => childParts cs p ps)
        · rfl
        · intro c cs; exact childParts_cons _ _ _ _
        · intro c; exact insert_item _ _ _
        · exact hleaf _
        · intro c hc
          exact hv _ c (fresh_childs hg hf c hc)

end GoMatcher
