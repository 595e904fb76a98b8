import Verif.Proofs.Grown
import Verif.Proofs.TagTree

/-! # A tree of tag queries before and after an insertion -/

namespace GoMatcher

/-- The second search only returns if the first one does, and then what they give is related. -/
def Under (S : Events × Nat → Events × Nat → Prop) (a a' : R (Events × Nat)) : Prop :=
  ∀ r', a' = .ok r' → ∃ r, a = .ok r ∧ S r r'

/-- Relations that carry over to sums. -/
structure Closed (S : Events × Nat → Events × Nat → Prop) : Prop where
  refl : ∀ r, S r r
  left : ∀ {a a'}, S a a' → ∀ b, S (addEv a b) (addEv a' b)
  right : ∀ {b b'} a, S b b' → S (addEv a b) (addEv a b')

theorem closed_grown (e : Str × Int) : Closed (Grown e) where
  refl _ := .inl rfl
  left h b := h.left b
  right a h := h.right a

theorem closed_eq : Closed (fun r r' => r' = r) where
  refl _ := rfl
  left h b := by rw [h]
  right a h := by rw [h]

section
variable {S : Events × Nat → Events × Nat → Prop} (hS : Closed S)
include hS

theorem Closed.under_refl (a : R (Events × Nat)) : Under S a a := fun r' h => ⟨r', h, hS.refl _⟩

theorem Closed.under_left {a a' : R (Events × Nat)} (h : Under S a a') (b : R (Events × Nat)) :
    Under S (addR a b) (addR a' b) := by
  intro r' hr
  unfold addR at hr ⊢
  obtain ⟨u', h1, hr⟩ := R.bind_eq_ok.1 hr
  obtain ⟨v, h2, hr⟩ := R.bind_eq_ok.1 hr
  cases hr
  obtain ⟨u, hu, hg⟩ := h u' h1
  exact ⟨addEv u v, by rw [hu, R.bind_ok, h2, R.bind_ok], hS.left hg v⟩

theorem Closed.under_right {b b' : R (Events × Nat)} (a : R (Events × Nat)) (h : Under S b b') :
    Under S (addR a b) (addR a b') := by
  intro r' hr
  unfold addR at hr ⊢
  obtain ⟨u, h1, hr⟩ := R.bind_eq_ok.1 hr
  obtain ⟨v', h2, hr⟩ := R.bind_eq_ok.1 hr
  cases hr
  obtain ⟨v, hv, hg⟩ := h v' h2
  exact ⟨addEv u v, by rw [h1, R.bind_ok, hv, R.bind_ok], hS.right u hg⟩

theorem Closed.under_when {a a' : R (Events × Nat)} (m : R Bool) (h : Under S a a') :
    Under S (whenR m a) (whenR m a') := by
  intro r' hr
  unfold whenR at hr ⊢
  obtain ⟨b, h1, hr⟩ := R.bind_eq_ok.1 hr
  rw [h1, R.bind_ok]
  cases b
  · cases hr; exact ⟨_, rfl, hS.refl _⟩
  · exact h r' hr

variable (lib : GoLib) (tags : GoMap Str Str)

/-- Insertion of a condition among the children of a group. -/
theorem insertTerm_under {f : TItem → R TItem} {t : TTerm} {cs cs' : List TItem} (v : Option Str)
    (hi : insertTerm f t cs = .ok cs')
    (hf : ∀ c c', (c ∈ cs ∧ c.term.id = t.id) ∨ c = .node t none [] → f c = .ok c' →
      Under S (childMap lib tags v c) (childMap lib tags v c')) :
    Under S (childsMap lib tags v cs) (childsMap lib tags v cs') := by
  induction cs generalizing cs' with
  | nil =>
    rw [insertTerm] at hi
    obtain ⟨c', h1, hi⟩ := R.bind_eq_ok.1 hi
    cases hi
    rw [childsMap, childsMap, childsMap, addR_nothing]
    intro r' hr
    obtain ⟨r, h2, h3⟩ := hf _ c' (.inr rfl) h1 r' hr
    refine ⟨_, rfl, ?_⟩
    rw [childMap, groupsMap] at h2
    unfold whenR at h2
    obtain ⟨b, _, h2⟩ := R.bind_eq_ok.1 h2
    have : r = ([], 0) := by
      cases b <;> · cases h2; rfl
    rw [← this]
    exact h3
  | cons c cs ih =>
    rw [insertTerm] at hi
    split at hi
    · rename_i hid
      obtain ⟨c', h1, hi⟩ := R.bind_eq_ok.1 hi
      cases hi
      rw [childsMap, childsMap]
      exact hS.under_left (hf c c' (.inl ⟨by simp, hid.symm⟩) h1) _
    · obtain ⟨cs1, h1, hi⟩ := R.bind_eq_ok.1 hi
      cases hi
      rw [childsMap, childsMap]
      apply hS.under_right
      refine ih h1 fun d d' hd hfd => hf d d' ?_ hfd
      rcases hd with ⟨hd, hid⟩ | hd
      · exact .inl ⟨by simp [hd], hid⟩
      · exact .inr hd

omit hS in
theorem groupsMap_append_congr {xs ys : List TGroup} (h : groupsMap lib tags xs = groupsMap lib tags ys)
    (a : List TGroup) : groupsMap lib tags (a ++ xs) = groupsMap lib tags (a ++ ys) := by
  induction a with
  | nil => exact h
  | cons x a ih =>
    obtain ⟨k, nm, m⟩ := x
    rw [List.cons_append, List.cons_append, groupsMap, groupsMap, ih]

theorem groupsMap_append_under {xs ys : List TGroup}
    (h : Under S (groupsMap lib tags xs) (groupsMap lib tags ys)) (a : List TGroup) :
    Under S (groupsMap lib tags (a ++ xs)) (groupsMap lib tags (a ++ ys)) := by
  induction a with
  | nil => exact h
  | cons x a ih =>
    obtain ⟨k, nm, m⟩ := x
    rw [List.cons_append, List.cons_append, groupsMap, groupsMap]
    exact hS.under_right _ ih

omit hS in
theorem nothing_addR (a : R (Events × Nat)) : addR (.ok ([], 0)) a = a := by
  cases a with
  | ok r => obtain ⟨x, n⟩ := r; simp [addR, addEv]
  | panic => rfl
  | timeout => rfl

omit hS in
/-- A group without children changes nothing. -/
theorem groupsMap_empty (key : Str) (b : List TGroup) :
    groupsMap lib tags ((key, [], []) :: b) = groupsMap lib tags b := by
  rw [groupsMap]
  cases tags.get key with
  | none => dsimp only; rw [childsMap, nothing_addR]
  | some v => dsimp only; rw [childsMap, nothing_addR, nothing_addR]

omit hS lib tags in
/-- The groups after `findOrAppend`: as before, or with an empty group more. -/
theorem findOrAppend_groups {gs gs1 : List TGroup} {key : Str} {n : Nat}
    (h : findOrAppend gs key = .ok (gs1, n)) :
    gs1 = gs ∨ ∃ a b, gs = a ++ b ∧ gs1 = a ++ (key, [], []) :: b := by
  by_cases hk : key = []
  · unfold findOrAppend at h
    rw [if_pos hk] at h
    cases h
    exact .inl rfl
  · obtain ⟨a, b, nm, m, h1, h2⟩ := findOrAppend_spec gs key hk
    rw [h] at h1
    cases h1
    rcases h2 with rfl | ⟨rfl, rfl, rfl⟩
    · exact .inl rfl
    · exact .inr ⟨a, b, rfl, rfl⟩

omit hS lib tags in
theorem pathsG_findOrAppend {gs gs1 : List TGroup} {key : Str} {n : Nat}
    (h : findOrAppend gs key = .ok (gs1, n)) : pathsG gs1 = pathsG gs := by
  rcases findOrAppend_groups h with rfl | ⟨a, b, rfl, rfl⟩
  · rfl
  · rw [pathsG_append, pathsG_append, pathsG]
    simp [pathsC]

/-- The conditions that the path compares with. -/
def pathIds (p : List Step × (Str × Int)) : List (Str × TagOp × Str) := p.1.map fun s => s.2.2.id

omit hS lib tags in
theorem mem_pathsC {k : Str} {b : Bool} {cs : List TItem} {p : List Step × (Str × Int)} :
    p ∈ pathsC k b cs ↔ ∃ c ∈ cs, p ∈ pathsI k b c := by
  induction cs with
  | nil => simp [pathsC]
  | cons c cs ih => simp [pathsC, ih]

omit hS lib tags in
theorem mem_pathsG {gs : List TGroup} {p : List Step × (Str × Int)} :
    p ∈ pathsG gs ↔ ∃ g ∈ gs, p ∈ pathsC g.1 true g.2.2 ∨ p ∈ pathsC g.1 false g.2.1 := by
  induction gs with
  | nil => simp [pathsG]
  | cons g gs ih =>
    obtain ⟨k, nm, m⟩ := g
    simp [pathsG, ih]
    constructor
    · rintro (h | h | ⟨a, b, c, h⟩)
      · exact .inl (.inl h)
      · exact .inl (.inr h)
      · exact .inr ⟨a, b, c, h⟩
    · rintro ((h | h) | ⟨a, b, c, h⟩)
      · exact .inl h
      · exact .inr (.inl h)
      · exact .inr (.inr ⟨a, b, c, h⟩)

omit hS lib tags in
theorem pathIds_step {k : Str} {b : Bool} {c : TItem} {p : List Step × (Str × Int)} (h : p ∈ pathsI k b c) :
    (c.fin = some p.2 ∧ p.1 = [(k, b, c.term)]) ∨
      ∃ q ∈ pathsG c.items, p = ((k, b, c.term) :: q.1, q.2) := by
  rw [pathsI_eq, List.mem_append, List.mem_map, List.mem_map] at h
  rcases h with ⟨e, he, rfl⟩ | ⟨q, hq, rfl⟩
  · left
    exact ⟨by simpa using he, rfl⟩
  · exact .inr ⟨q, hq, rfl⟩

/-- Inserting conditions, with or without an entry at the end.  `hfin` says what the entry does to the
reports of its item, which has none so far if one is given. -/
theorem parseItems_under (e : Option (Str × Int))
    (hfin : ∀ fin : Option (Str × Int), e = none ∨ fin = none →
      S (storeFin fin) (storeFin (match e with | some e => some e | none => fin)))
    (ts : List TTerm) (gs gs' : List TGroup) (hp : parseItems e ts gs = .ok gs')
    (hfresh : e = none ∨ ∀ p ∈ pathsG gs, pathIds p ≠ ts.map TTerm.id) :
    Under S (groupsMap lib tags gs) (groupsMap lib tags gs') := by
  induction ts generalizing gs gs' with
  | nil => cases hp
  | cons t ts ih =>
    rw [parseItems] at hp
    obtain ⟨⟨gs1, n⟩, hr, hp⟩ := R.bind_eq_ok.1 hp
    have hpaths := pathsG_findOrAppend hr
    have hmap : groupsMap lib tags gs1 = groupsMap lib tags gs := by
      rcases findOrAppend_groups hr with rfl | ⟨a, b, rfl, rfl⟩
      · rfl
      · exact groupsMap_append_congr lib tags (groupsMap_empty lib tags t.key b) a
    rw [← hmap]
    dsimp only at hp
    cases hg : gs1[n]? with
    | none => rw [hg] at hp; cases hp
    | some g =>
      obtain ⟨k, nm, m⟩ := g
      rw [hg] at hp
      dsimp only at hp
      obtain ⟨hn, hgn⟩ := List.getElem?_eq_some_iff.1 hg
      have hsplit : gs1 = gs1.take n ++ (k, nm, m) :: gs1.drop (n + 1) := by
        rw [← hgn, ← List.drop_eq_getElem_cons hn, List.take_append_drop]
      have hset : ∀ x : TGroup, gs1.set n x = gs1.take n ++ x :: gs1.drop (n + 1) := by
        intro x
        rw [List.set_eq_take_append_cons_drop, if_pos hn]
      have hd : ∀ b, (b = true ∧ (∀ c : TItem, c ∈ m → ∀ p ∈ pathsI k b c, p ∈ pathsG gs) ∨
          b = false ∧ ∀ c : TItem, c ∈ nm → ∀ p ∈ pathsI k b c, p ∈ pathsG gs) := by
        intro b
        cases b
        · right
          refine ⟨rfl, fun c hc p hpc => ?_⟩
          rw [← hpaths, mem_pathsG]
          exact ⟨_, List.mem_of_getElem? hg, .inr (mem_pathsC.2 ⟨c, hc, hpc⟩)⟩
        · left
          refine ⟨rfl, fun c hc p hpc => ?_⟩
          rw [← hpaths, mem_pathsG]
          exact ⟨_, List.mem_of_getElem? hg, .inl (mem_pathsC.2 ⟨c, hc, hpc⟩)⟩
      have hf : ∀ (b : Bool) (v : Option Str) (c c' : TItem), (∀ p ∈ pathsI k b c, p ∈ pathsG gs) →
          c.term.id = t.id → TItem.descend ts.isEmpty e (parseItems e ts) c = .ok c' →
          Under S (childMap lib tags v c) (childMap lib tags v c') := by
        intro b v c c' hc hid hdc
        obtain ⟨u, fin, items⟩ := c
        unfold TItem.descend at hdc
        split at hdc
        · rename_i hts
          cases hdc
          change Under S _ (childMap lib tags v (.node u _ items))
          rw [childMap, childMap]
          apply hS.under_when
          apply hS.under_left
          intro r' hr'
          cases hr'
          refine ⟨_, rfl, hfin fin ?_⟩
          rcases hfresh with he | hfresh
          · exact .inl he
          · right
            cases fin with
            | none => rfl
            | some x =>
              exfalso
              refine hfresh ([(k, b, u)], x) (hc _ (by simp [pathsI])) ?_
              have hts : ts = [] := List.isEmpty_iff.1 hts
              subst hts
              have hid : u.id = t.id := hid
              simp [pathIds, hid]
        · obtain ⟨it, h2, h3⟩ := R.bind_eq_ok.1 hdc
          cases h3
          rw [childMap]
          change Under S _ (childMap lib tags v (.node u fin it))
          rw [childMap]
          apply hS.under_when
          apply hS.under_right
          refine ih items it h2 ?_
          rcases hfresh with he | hfresh
          · exact .inl he
          · right
            intro p hpi hne
            refine hfresh ((k, b, u) :: p.1, p.2) (hc _ ?_) ?_
            · rw [pathsI_eq]
              exact List.mem_append_right _ (List.mem_map.2 ⟨p, hpi, rfl⟩)
            · have hid : u.id = t.id := hid
              rw [List.map_cons, ← hne, ← hid]
              rfl
      have hnew : ∀ b, ∀ p ∈ pathsI k b (.node t none []), p ∈ pathsG gs := by
        intro b p hp
        simp [pathsI, pathsG] at hp
      have hgrp : ∀ nm' m', (∀ v, Under S (childsMap lib tags v m) (childsMap lib tags v m')) →
          (∀ v, Under S (childsMap lib tags v nm) (childsMap lib tags v nm')) → (nm' = nm ∨ m' = m) →
          Under S (groupsMap lib tags gs1) (groupsMap lib tags (gs1.set n (k, nm', m'))) := by
        intro nm' m' h1 h2 h3
        rw [hset]
        rw [show groupsMap lib tags gs1 = groupsMap lib tags (gs1.take n ++ (k, nm, m) :: gs1.drop (n + 1)) by
          rw [← hsplit]]
        apply groupsMap_append_under hS
        rw [groupsMap, groupsMap]
        apply hS.under_left
        cases tags.get k with
        | none => exact h2 _
        | some v =>
          dsimp only
          rcases h3 with rfl | rfl
          · exact hS.under_left (h1 _) _
          · exact hS.under_right _ (h2 _)
      split at hp
      · obtain ⟨m', h2, h3⟩ := R.bind_eq_ok.1 hp
        cases h3
        refine hgrp _ _ (fun v => ?_) (fun v => hS.under_refl _) (.inl rfl)
        refine insertTerm_under hS lib tags v h2 fun c c' hc hfc => ?_
        rcases hc with ⟨hc, hid⟩ | rfl
        · rcases hd true with ⟨_, h⟩ | ⟨h, _⟩
          · exact hf true v c c' (h c hc) hid hfc
          · cases h
        · exact hf true v _ c' (hnew true) rfl hfc
      · obtain ⟨m', h2, h3⟩ := R.bind_eq_ok.1 hp
        cases h3
        refine hgrp _ _ (fun v => hS.under_refl _) (fun v => ?_) (.inr rfl)
        refine insertTerm_under hS lib tags v h2 fun c c' hc hfc => ?_
        rcases hc with ⟨hc, hid⟩ | rfl
        · rcases hd false with ⟨h, _⟩ | ⟨_, h⟩
          · cases h
          · exact hf false v c c' (h c hc) hid hfc
        · exact hf false v _ c' (hnew false) rfl hfc

end

/-! ## Which entries are where -/

theorem insertTerm_mem {f : TItem → R TItem} {t : TTerm} {cs cs' : List TItem}
    (hi : insertTerm f t cs = .ok cs') : ∀ c' ∈ cs', c' ∈ cs ∨
      ∃ c, ((c ∈ cs ∧ c.term.id = t.id) ∨ c = .node t none []) ∧ f c = .ok c' := by
  induction cs generalizing cs' with
  | nil =>
    rw [insertTerm] at hi
    obtain ⟨c', h1, hi⟩ := R.bind_eq_ok.1 hi
    cases hi
    intro d hd
    simp only [List.mem_singleton] at hd
    subst hd
    exact .inr ⟨_, .inr rfl, h1⟩
  | cons c cs ih =>
    rw [insertTerm] at hi
    split at hi
    · rename_i hid
      obtain ⟨c', h1, hi⟩ := R.bind_eq_ok.1 hi
      cases hi
      intro d hd
      rcases List.mem_cons.1 hd with rfl | hd
      · exact .inr ⟨c, .inl ⟨by simp, hid.symm⟩, h1⟩
      · exact .inl (by simp [hd])
    · obtain ⟨cs1, h1, hi⟩ := R.bind_eq_ok.1 hi
      cases hi
      intro d hd
      rcases List.mem_cons.1 hd with rfl | hd
      · exact .inl (by simp)
      · rcases ih h1 d hd with h | ⟨c0, h, h2⟩
        · exact .inl (by simp [h])
        · refine .inr ⟨c0, ?_, h2⟩
          rcases h with ⟨h, hid⟩ | h
          · exact .inl ⟨by simp [h], hid⟩
          · exact .inr h

/-- After an insertion every path was there before or is that of the inserted conditions. -/
theorem parseItems_ids (e : Option (Str × Int)) (ts : List TTerm) (gs gs' : List TGroup)
    (hp : parseItems e ts gs = .ok gs') : ∀ p ∈ pathsG gs', (∃ q ∈ pathsG gs, pathIds q = pathIds p ∧ q.2 = p.2) ∨
      (e = some p.2 ∧ pathIds p = ts.map TTerm.id) := by
  induction ts generalizing gs gs' with
  | nil => cases hp
  | cons t ts ih =>
    rw [parseItems] at hp
    obtain ⟨⟨gs1, n⟩, hr, hp⟩ := R.bind_eq_ok.1 hp
    rw [← pathsG_findOrAppend hr]
    dsimp only at hp
    cases hg : gs1[n]? with
    | none => rw [hg] at hp; cases hp
    | some g =>
      obtain ⟨k, nm, m⟩ := g
      rw [hg] at hp
      dsimp only at hp
      have hgm := List.mem_of_getElem? hg
      have hdesc : ∀ (b : Bool) (c c' : TItem),
          ((∀ p ∈ pathsI k b c, p ∈ pathsG gs1) ∧ c.term.id = t.id) →
          TItem.descend ts.isEmpty e (parseItems e ts) c = .ok c' → ∀ p ∈ pathsI k b c',
          (∃ q ∈ pathsG gs1, pathIds q = pathIds p ∧ q.2 = p.2) ∨
            (e = some p.2 ∧ pathIds p = (t :: ts).map TTerm.id) := by
        intro b c c' ⟨hc, hid⟩ hdc p hpc
        obtain ⟨u, fin, items⟩ := c
        have hid : u.id = t.id := hid
        unfold TItem.descend at hdc
        split at hdc
        · rename_i hts
          have hts : ts = [] := List.isEmpty_iff.1 hts
          subst hts
          cases hdc
          rcases pathIds_step hpc with ⟨h1, h2⟩ | ⟨q, h1, h2⟩
          · cases e with
            | none =>
              left
              refine ⟨p, hc p ?_, rfl, rfl⟩
              have h1 : fin = some p.2 := h1
              have h2 : p.1 = [(k, b, u)] := h2
              rw [h1, pathsI]
              apply List.mem_append_left
              rw [Option.toList_some, List.map_singleton, List.mem_singleton, ← h2]
            | some x =>
              right
              refine ⟨h1, ?_⟩
              have h2 : p.1 = [(k, b, u)] := h2
              simp [pathIds, h2, hid]
          · left
            refine ⟨p, hc p ?_, rfl, rfl⟩
            rw [h2, pathsI_eq]
            exact List.mem_append_right _ (List.mem_map.2 ⟨q, h1, rfl⟩)
        · obtain ⟨it, h2, h3⟩ := R.bind_eq_ok.1 hdc
          cases h3
          rcases pathIds_step hpc with ⟨h1, h4⟩ | ⟨q, h1, h4⟩
          · left
            refine ⟨p, hc p ?_, rfl, rfl⟩
            have h1 : fin = some p.2 := h1
            have h4 : p.1 = [(k, b, u)] := h4
            rw [h1, pathsI]
            apply List.mem_append_left
            rw [Option.toList_some, List.map_singleton, List.mem_singleton, ← h4]
          · have h4 : p = ((k, b, u) :: q.1, q.2) := h4
            rcases ih items it h2 q h1 with ⟨q', h5, h6, h7⟩ | ⟨h5, h6⟩
            · left
              refine ⟨((k, b, u) :: q'.1, q'.2), hc _ ?_, ?_, ?_⟩
              · rw [pathsI_eq]
                exact List.mem_append_right _ (List.mem_map.2 ⟨q', h5, rfl⟩)
              · rw [h4]
                unfold pathIds at h6 ⊢
                simp only [List.map_cons, h6]
              · rw [h4]; exact h7
            · right
              rw [h4]
              refine ⟨h5, ?_⟩
              unfold pathIds at h6 ⊢
              simp only [List.map_cons, h6, hid]
      have hins : ∀ (b : Bool) (cs cs' : List TItem), (∀ c ∈ cs, ∀ p ∈ pathsI k b c, p ∈ pathsG gs1) →
          insertTerm (TItem.descend ts.isEmpty e (parseItems e ts)) t cs = .ok cs' →
          ∀ p ∈ pathsC k b cs', (∃ q ∈ pathsG gs1, pathIds q = pathIds p ∧ q.2 = p.2) ∨
            (e = some p.2 ∧ pathIds p = (t :: ts).map TTerm.id) := by
        intro b cs cs' hcs hi p hp
        obtain ⟨c', hc', hp⟩ := mem_pathsC.1 hp
        rcases insertTerm_mem hi c' hc' with h | ⟨c, h, h2⟩
        · exact .inl ⟨p, hcs _ h p hp, rfl, rfl⟩
        · refine hdesc b c c' ?_ h2 p hp
          rcases h with ⟨h, hid⟩ | rfl
          · exact ⟨hcs c h, hid⟩
          · refine ⟨?_, rfl⟩
            intro q hq
            simp [pathsI, pathsG] at hq
      have hm : ∀ c ∈ m, ∀ p ∈ pathsI k true c, p ∈ pathsG gs1 := fun c hc p hpc =>
        mem_pathsG.2 ⟨_, hgm, .inl (mem_pathsC.2 ⟨c, hc, hpc⟩)⟩
      have hnm : ∀ c ∈ nm, ∀ p ∈ pathsI k false c, p ∈ pathsG gs1 := fun c hc p hpc =>
        mem_pathsG.2 ⟨_, hgm, .inr (mem_pathsC.2 ⟨c, hc, hpc⟩)⟩
      split at hp
      · obtain ⟨m', h2, h3⟩ := R.bind_eq_ok.1 hp
        cases h3
        intro p hp
        obtain ⟨g, hgs, hp⟩ := mem_pathsG.1 hp
        rcases List.mem_or_eq_of_mem_set hgs with hgs | rfl
        · exact .inl ⟨p, mem_pathsG.2 ⟨g, hgs, hp⟩, rfl, rfl⟩
        · rcases hp with hp | hp
          · exact hins true m m' hm h2 p hp
          · exact .inl ⟨p, mem_pathsG.2 ⟨_, hgm, .inr hp⟩, rfl, rfl⟩
      · obtain ⟨m', h2, h3⟩ := R.bind_eq_ok.1 hp
        cases h3
        intro p hp
        obtain ⟨g, hgs, hp⟩ := mem_pathsG.1 hp
        rcases List.mem_or_eq_of_mem_set hgs with hgs | rfl
        · exact .inl ⟨p, mem_pathsG.2 ⟨g, hgs, hp⟩, rfl, rfl⟩
        · rcases hp with hp | hp
          · exact .inl ⟨p, mem_pathsG.2 ⟨_, hgm, .inl hp⟩, rfl, rfl⟩
          · exact hins false nm m' hnm h2 p hp

end GoMatcher
