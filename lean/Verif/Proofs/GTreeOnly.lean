import Verif.Proofs.TreeOnly
import Verif.Proofs.GTreeHist
import Verif.Proofs.TagHist

/-! # What searches in the trees of dotted globs and of tag queries can report -/

namespace GoMatcher

section
variable {P : Str × Int → Prop}

/-! ## Dotted globs -/

/-- All queries and indexes in the tree are of a kind. -/
inductive GTree.All (P : Str × Int → Prop) : GTree → Prop
  | mk {i tm cm cs} (h : ∀ e, tm = some e → P e) (hm : ∀ x ∈ cm, GTree.All P x.2)
      (hc : ∀ c ∈ cs, GTree.All P c) : GTree.All P (.node i tm cm cs)

theorem GTree.All.leaf (i : Option Glob) : (GTree.leaf i).All P :=
  .mk (by rintro _ ⟨⟩) (by rintro _ ⟨⟩) (by rintro _ ⟨⟩)

theorem only_storeTerm {t : GTree} (h : t.All P) : Only P (.ok (storeTerm t)) := by
  cases h with
  | @mk i tm cm cs h1 _ _ => exact only_storeFin h1

theorem only_ite {c : Prop} [Decidable c] {a b : R Ev} (ha : Only P a) (hb : Only P b) :
    Only P (if c then a else b) := by
  split
  · exact ha
  · exact hb

mutual
theorem only_matchItems (t : GTree) (h : t.All P) (path : Str) : Only P (t.matchItems path) := by
  match t with
  | .node i tm cm cs =>
    have hm : ∀ x ∈ cm, x.2.All P := by cases h; assumption
    have hc : ∀ c ∈ cs, c.All P := by cases h; assumption
    rw [GTree.matchItems]
    refine only_ite only_noEv (only_bind fun a ha => only_bind fun b hb => ?_)
    rintro _ ⟨⟩
    exact only_addEv (only_mapItems cm hm _ _ a ha) (only_childItems cs hc _ _ b hb)
theorem only_mapItems (cm : List (Str × GTree)) (h : ∀ x ∈ cm, x.2.All P) (p r : Str) :
    Only P (mapItems cm p r) := by
  match cm with
  | [] => rw [mapItems]; exact only_noEv
  | (k, c) :: cm =>
    rw [mapItems]
    have h1 := h (k, c) (by simp)
    refine only_ite (only_ite (only_storeTerm h1) (only_matchItems c h1 r)) ?_
    exact only_mapItems cm (fun x hx => h x (by simp [hx])) p r
theorem only_childItems (cs : List GTree) (h : ∀ c ∈ cs, c.All P) (p r : Str) :
    Only P (childItems cs p r) := by
  match cs with
  | [] => rw [childItems]; exact only_noEv
  | c :: cs =>
    rw [childItems]
    have h1 := h c (by simp)
    refine only_bind fun m _ => ?_
    have key : ∀ x : R Ev, Only P x → Only P (do
        let a ← x
        let b ← childItems cs p r
        .ok (addEv a b)) := by
      intro x hx
      refine only_bind fun a ha => only_bind fun b hb => ?_
      rintro _ ⟨⟩
      exact only_addEv (hx a ha) (only_childItems cs (fun x hx => h x (by simp [hx])) p r b hb)
    cases m with
    | true => exact key _ (only_ite (only_storeTerm h1) (only_matchItems c h1 r))
    | false => exact key _ only_noEv
end

mutual
theorem only_matchByParts (t : GTree) (h : t.All P) (ps : List Str) : Only P (t.matchByParts ps) := by
  match t with
  | .node i tm cm cs =>
    have hm : ∀ x ∈ cm, x.2.All P := by cases h; assumption
    have hc : ∀ c ∈ cs, c.All P := by cases h; assumption
    cases ps with
    | nil => rw [GTree.matchByParts]; exact only_ite only_panic only_noEv
    | cons p ps =>
      rw [GTree.matchByParts]
      refine only_bind fun a ha => only_bind fun b hb => ?_
      rintro _ ⟨⟩
      exact only_addEv (only_mapParts cm hm _ _ a ha) (only_childParts cs hc _ _ b hb)
theorem only_mapParts (cm : List (Str × GTree)) (h : ∀ x ∈ cm, x.2.All P) (p : Str) (r : List Str) :
    Only P (mapParts cm p r) := by
  match cm with
  | [] => rw [mapParts]; exact only_noEv
  | (k, c) :: cm =>
    rw [mapParts]
    have h1 := h (k, c) (by simp)
    refine only_ite (only_ite (only_storeTerm h1) (only_matchByParts c h1 r)) ?_
    exact only_mapParts cm (fun x hx => h x (by simp [hx])) p r
theorem only_childParts (cs : List GTree) (h : ∀ c ∈ cs, c.All P) (p : Str) (r : List Str) :
    Only P (childParts cs p r) := by
  match cs with
  | [] => rw [childParts]; exact only_noEv
  | c :: cs =>
    rw [childParts]
    have h1 := h c (by simp)
    refine only_bind fun m _ => ?_
    have key : ∀ x : R Ev, Only P x → Only P (do
        let a ← x
        let b ← childParts cs p r
        .ok (addEv a b)) := by
      intro x hx
      refine only_bind fun a ha => only_bind fun b hb => ?_
      rintro _ ⟨⟩
      exact only_addEv (hx a ha) (only_childParts cs (fun x hx => h x (by simp [hx])) p r b hb)
    cases m with
    | true => exact key _ (only_ite (only_storeTerm h1) (only_matchByParts c h1 r))
    | false => exact key _ only_noEv
end

theorem gInsert_all (gs : List Glob) (e : Str × Int) (he : P e) (t : GTree) (h : t.All P) :
    (t.insert gs e).All P := by
  induction gs generalizing t with
  | nil =>
    cases h with
    | mk _ hm hc =>
      rw [GTree.insert]
      refine .mk ?_ hm hc
      rintro _ ⟨⟩
      exact he
  | cons g gs ih =>
    cases h with
    | @mk i tm cm cs h1 hm hc =>
      rw [GTree.insert]
      split
      · refine .mk h1 ?_ hc
        have key : ∀ cm : List (Str × GTree), (∀ x ∈ cm, x.2.All P) →
            ∀ x ∈ insertMap (fun c => c.insert gs e) g cm, x.2.All P := by
          intro cm
          induction cm with
          | nil =>
            intro _ x hx
            rw [insertMap, List.mem_singleton] at hx
            subst hx
            exact ih _ (.leaf _)
          | cons y cm ihc =>
            obtain ⟨k, c⟩ := y
            intro hc x hx
            rw [insertMap] at hx
            split at hx
            · rcases List.mem_cons.1 hx with rfl | hx
              · exact ih _ (hc (k, c) (by simp))
              · exact hc x (by simp [hx])
            · rcases List.mem_cons.1 hx with rfl | hx
              · exact hc (k, c) (by simp)
              · exact ihc (fun x hx => hc x (by simp [hx])) x hx
        exact key cm hm
      · refine .mk h1 hm ?_
        have key : ∀ cs : List GTree, (∀ x ∈ cs, x.All P) →
            ∀ x ∈ insertChilds (fun c => c.insert gs e) g cs, x.All P := by
          intro cs
          induction cs with
          | nil =>
            intro _ x hx
            rw [insertChilds, List.mem_singleton] at hx
            subst hx
            exact ih _ (.leaf _)
          | cons c cs ihc =>
            intro hc x hx
            rw [insertChilds] at hx
            split at hx
            · rcases List.mem_cons.1 hx with rfl | hx
              · exact ih _ (hc c (by simp))
              · exact hc x (by simp [hx])
            · rcases List.mem_cons.1 hx with rfl | hx
              · exact hc x (by simp)
              · exact ihc (fun x hx => hc x (by simp [hx])) x hx
        exact key cs hc

/-! ## Tag queries -/

mutual
/-- All queries and indexes below the groups are of a kind. -/
def FinG (P : Str × Int → Prop) : List (Str × List TItem × List TItem) → Prop
  | [] => True
  | (_, nm, m) :: gs => FinC P m ∧ FinC P nm ∧ FinG P gs
def FinC (P : Str × Int → Prop) : List TItem → Prop
  | [] => True
  | c :: cs => FinI P c ∧ FinC P cs
def FinI (P : Str × Int → Prop) : TItem → Prop
  | .node _ f gs => (∀ e, f = some e → P e) ∧ FinG P gs
end

theorem finC_iff (cs : List TItem) : FinC P cs ↔ ∀ c ∈ cs, FinI P c := by
  induction cs with
  | nil => simp [FinC]
  | cons c cs ih => simp [FinC, ih]

theorem finG_iff (gs : List TGroup) : FinG P gs ↔ ∀ g ∈ gs, FinC P g.2.2 ∧ FinC P g.2.1 := by
  induction gs with
  | nil => simp [FinG]
  | cons g gs ih =>
    obtain ⟨k, nm, m⟩ := g
    simp [FinG, ih, and_assoc]

theorem insertTerm_fin {f : TItem → R TItem} {t : TTerm} {cs cs' : List TItem} (h : FinC P cs)
    (hf : ∀ c c', FinI P c → f c = .ok c' → FinI P c') (hi : insertTerm f t cs = .ok cs') :
    FinC P cs' := by
  induction cs generalizing cs' with
  | nil =>
    rw [insertTerm] at hi
    obtain ⟨c, h1, h2⟩ := R.bind_eq_ok.1 hi
    cases h2
    exact ⟨hf (.node t none []) c (by simp [FinI, FinG]) h1, trivial⟩
  | cons x cs ih =>
    rw [insertTerm] at hi
    split at hi
    · obtain ⟨c, h1, h2⟩ := R.bind_eq_ok.1 hi
      cases h2
      exact ⟨hf x c h.1 h1, h.2⟩
    · obtain ⟨c, h1, h2⟩ := R.bind_eq_ok.1 hi
      cases h2
      exact ⟨h.1, ih h.2 h1⟩

theorem findOrAppend_fin {gs gs' : List TGroup} {key : Str} {n : Nat} (h : FinG P gs)
    (hf : findOrAppend gs key = .ok (gs', n)) : FinG P gs' := by
  by_cases hk : key = []
  · unfold findOrAppend at hf
    rw [if_pos hk] at hf
    cases hf
    exact h
  · obtain ⟨a, b, nm, m, h1, h2⟩ := findOrAppend_spec gs key hk
    rw [hf] at h1
    cases h1
    rcases h2 with rfl | ⟨rfl, rfl, rfl⟩
    · exact h
    · rw [finG_iff] at h ⊢
      intro g hg
      simp only [List.mem_append, List.mem_cons] at hg
      rcases hg with hg | rfl | hg
      · exact h g (by simp [hg])
      · exact ⟨trivial, trivial⟩
      · exact h g (by simp [hg])

/-- Insertion only brings in its own entry. -/
theorem parseItems_fin (e : Option (Str × Int)) (he : ∀ x, e = some x → P x) (ts : List TTerm)
    (gs gs' : List TGroup) (h : FinG P gs) (hp : parseItems e ts gs = .ok gs') : FinG P gs' := by
  induction ts generalizing gs gs' with
  | nil => cases hp
  | cons t ts ih =>
    rw [parseItems] at hp
    obtain ⟨⟨gs1, n⟩, hr, hp⟩ := R.bind_eq_ok.1 hp
    have h1 := (finG_iff _).1 (findOrAppend_fin h hr)
    dsimp only at hp
    cases hg : gs1[n]? with
    | none => rw [hg] at hp; cases hp
    | some g =>
      obtain ⟨k, nm, m⟩ := g
      rw [hg] at hp
      dsimp only at hp
      obtain ⟨k1, k2⟩ := h1 _ (List.mem_of_getElem? hg)
      have hf : ∀ c c', FinI P c → TItem.descend ts.isEmpty e (parseItems e ts) c = .ok c' →
          FinI P c' := by
        intro c c' hc hd
        obtain ⟨u, fin, items⟩ := c
        unfold TItem.descend at hd
        split at hd
        · cases hd
          refine ⟨?_, hc.2⟩
          intro x hx
          cases e with
          | none => exact hc.1 x hx
          | some y => exact he x hx
        · obtain ⟨it, h2, h3⟩ := R.bind_eq_ok.1 hd
          cases h3
          exact ⟨hc.1, ih _ _ hc.2 h2⟩
      have hset : ∀ nm' m', FinC P m' → FinC P nm' → FinG P (gs1.set n (k, nm', m')) := by
        intro nm' m' h2 h3
        rw [finG_iff]
        intro g hg
        rcases List.mem_or_eq_of_mem_set hg with hg | rfl
        · exact h1 g hg
        · exact ⟨h2, h3⟩
      split at hp
      · obtain ⟨m', h2, h3⟩ := R.bind_eq_ok.1 hp
        cases h3
        exact hset _ _ (insertTerm_fin k1 hf h2) k2
      · obtain ⟨m', h2, h3⟩ := R.bind_eq_ok.1 hp
        cases h3
        exact hset _ _ k1 (insertTerm_fin k2 hf h2)

theorem only_whenR {m : R Bool} {a : R Ev} (h : Only P a) : Only P (whenR m a) := by
  refine only_bind fun b _ => ?_
  cases b with
  | true => exact h
  | false => exact only_noEv

mutual
theorem only_groupsMap (lib : GoLib) (tags : GoMap Str Str) (gs : List (Str × List TItem × List TItem))
    (h : FinG P gs) : Only P (groupsMap lib tags gs) := by
  match gs with
  | [] => exact only_noEv
  | (k, nm, m) :: gs =>
    rw [groupsMap]
    refine only_addR ?_ (only_groupsMap lib tags gs h.2.2)
    cases tags.get k with
    | some v => exact only_addR (only_childsMap lib tags _ m h.1) (only_childsMap lib tags _ nm h.2.1)
    | none => exact only_childsMap lib tags _ nm h.2.1
theorem only_childsMap (lib : GoLib) (tags : GoMap Str Str) (v : Option Str) (cs : List TItem)
    (h : FinC P cs) : Only P (childsMap lib tags v cs) := by
  match cs with
  | [] => exact only_noEv
  | c :: cs =>
    rw [childsMap]
    exact only_addR (only_childMap lib tags v c h.1) (only_childsMap lib tags v cs h.2)
theorem only_childMap (lib : GoLib) (tags : GoMap Str Str) (v : Option Str) (c : TItem)
    (h : FinI P c) : Only P (childMap lib tags v c) := by
  match c with
  | .node t fin gs =>
    rw [childMap]
    exact only_whenR (only_addR (only_storeFin h.1) (only_groupsMap lib tags gs h.2))
end

mutual
theorem only_groupsSlice (lib : GoLib) (tags : List Tag) (pos : Nat)
    (gs : List (Str × List TItem × List TItem)) (h : FinG P gs) :
    Only P (groupsSlice lib tags pos gs) := by
  match gs with
  | [] => exact only_noEv
  | (k, nm, m) :: gs =>
    rw [groupsSlice]
    split
    · exact only_addR (only_childsSlice lib tags _ nm h.2.1) (only_groupsSlice lib tags _ gs h.2.2)
    · split
      · exact only_panic
      · exact only_addR (only_addR (only_childsSlice lib tags _ m h.1)
          (only_childsSlice lib tags _ nm h.2.1)) (only_groupsSlice lib tags _ gs h.2.2)
    · exact only_panic
    · rintro _ ⟨⟩
theorem only_childsSlice (lib : GoLib) (tags : List Tag) (v : Option Str) (cs : List TItem)
    (h : FinC P cs) : Only P (childsSlice lib tags v cs) := by
  match cs with
  | [] => exact only_noEv
  | c :: cs =>
    rw [childsSlice]
    exact only_addR (only_childSlice lib tags v c h.1) (only_childsSlice lib tags v cs h.2)
theorem only_childSlice (lib : GoLib) (tags : List Tag) (v : Option Str) (c : TItem)
    (h : FinI P c) : Only P (childSlice lib tags v c) := by
  match c with
  | .node t fin gs =>
    rw [childSlice]
    exact only_whenR (only_addR (only_storeFin h.1) (only_groupsSlice lib tags 0 gs h.2))
end

end

end GoMatcher
