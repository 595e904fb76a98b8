import Verif.Proofs.GTreeOnly
import Verif.Props.C13_C15_GTree
import Verif.Props.C26_C29_TagTree

/-! # C56: the batch trees for dotted globs and for tag queries report only what was added -/

namespace GoMatcher

namespace C56

/-! ## Dotted globs -/

theorem gg_apply (t t' : GGlobTree) (op : GOp) (r : AddRes) (h : op.apply t = .ok (t', r)) :
    t'.root = t.root ∨ ∃ x ∈ op.accepted r, 0 ≤ x.2 ∧ t'.root = addGGlob t.root x.1 x.2 := by
  cases op with
  | add s i =>
    simp only [GOp.apply, GGlobTree.add] at h
    by_cases h0 : s = []
    · rw [if_pos h0] at h; cases h; exact .inl rfl
    rw [if_neg h0] at h
    by_cases h1 : i < 0
    · rw [if_pos h1] at h; cases h; exact .inl rfl
    rw [if_neg h1] at h
    cases h2 : t.globs.get s with
    | some n => rw [h2] at h; cases h; exact .inl rfl
    | none =>
      rw [h2] at h
      dsimp only at h
      cases h3 : t.globsIndex.get i with
      | some q => rw [h3] at h; cases h; exact .inl rfl
      | none =>
        rw [h3] at h
        dsimp only at h
        obtain ⟨pr, hpr, h⟩ := R.bind_eq_ok.1 h
        cases pr with
        | error e => cases h; exact .inl rfl
        | ok g =>
          dsimp only at h
          cases h4 : t.globs.get g.node with
          | some n => rw [h4] at h; cases h; exact .inl rfl
          | none =>
            rw [h4] at h
            cases h
            refine .inr ⟨(g, i), by simp [GOp.accepted, h0, hpr], ?_, rfl⟩
            dsimp only; omega
  | addGlob g i =>
    simp only [GOp.apply, R.ok.injEq] at h
    unfold GGlobTree.addGlob at h
    split at h
    · cases h; exact .inl rfl
    split at h
    · cases h; exact .inl rfl
    split at h
    · cases h; exact .inl rfl
    split at h
    · cases h; exact .inl rfl
    · cases h
      refine .inr ⟨(g, i), by simp [GOp.accepted], ?_, rfl⟩
      dsimp only; omega

theorem gg_run {P : Str × Int → Prop} (ops : List GOp) (t t' : GGlobTree) (L L' : List (GGlob × Int))
    (h : runOps t L ops = .ok (t', L')) (hP : ∀ x ∈ L', 0 ≤ x.2 → P (x.1.node, x.2))
    (ht : ∀ n g, t.root.get n = some g → g.All P) :
    (∀ n g, t'.root.get n = some g → g.All P) ∧ ∀ x ∈ L, x ∈ L' := by
  induction ops generalizing t L with
  | nil => cases h; exact ⟨ht, fun x hx => hx⟩
  | cons op ops ih =>
    rw [runOps] at h
    obtain ⟨⟨t1, r⟩, h1, h2⟩ := R.bind_eq_ok.1 h
    dsimp only at h2
    have sub : ∀ (ops : List GOp) (t : GGlobTree) (L : List (GGlob × Int)),
        runOps t L ops = .ok (t', L') → ∀ x ∈ L, x ∈ L' := by
      intro ops
      induction ops with
      | nil => intro t L h x hx; cases h; exact hx
      | cons op ops ih =>
        intro t L h x hx
        rw [runOps] at h
        obtain ⟨_, _, h2⟩ := R.bind_eq_ok.1 h
        exact ih _ _ h2 x (List.mem_append_left _ hx)
    have hm := sub ops t1 _ h2
    refine ⟨(ih t1 _ h2 ?_).1, fun x hx => hm x (List.mem_append_left _ hx)⟩
    rcases gg_apply t t1 op r h1 with e | ⟨x, hx, hx0, e⟩
    · rw [e]; exact ht
    · rw [e]
      intro n g hg
      rw [addGGlob, GoMap.get_set] at hg
      split at hg
      · cases hg
        apply gInsert_all _ _ (hP x (hm x (List.mem_append_right _ hx)) hx0)
        cases ho : t.root.get x.1.parts.length with
        | none => exact .leaf _
        | some g => exact ht _ g ho
      · exact ht n g hg

theorem gg_all (ops : List GOp) (t : GGlobTree) (L : List (GGlob × Int))
    (h : runTree ops = .ok (t, L)) : ∀ n g, t.root.get n = some g →
      g.All fun e => 0 ≤ e.2 ∧ ∃ x ∈ L, e = (x.1.node, x.2) :=
  (gg_run ops {} t [] L h (fun x hx h0 => ⟨h0, x, hx, rfl⟩) (by
    intro n g hg
    cases hg)).1

/-- After any calls of `Add` and `AddGlob` on a tree for dotted globs, with any texts and any globs,
`Match` on any path only reports node texts and indexes of accepted calls, each with the index of its
own call, and no negative index. -/
theorem gglob_reported (ops : List GOp) (t : GGlobTree) (L : List (GGlob × Int))
    (h : runTree ops = .ok (t, L)) (path : Str) (r : Events × Nat) (hr : t.matches path = .ok r) :
    ∀ e ∈ r.1, 0 ≤ e.2 ∧ ∃ x ∈ L, e = (x.1.node, x.2) := by
  unfold GGlobTree.matches at hr
  split at hr
  · cases hr; rintro _ ⟨⟩
  · dsimp only at hr
    split at hr
    · rename_i root hroot
      exact only_matchItems root (gg_all ops t L h _ _ hroot) _ r hr
    · cases hr; rintro _ ⟨⟩

/-- The same for `MatchByParts`. -/
theorem gglob_parts_reported (ops : List GOp) (t : GGlobTree) (L : List (GGlob × Int))
    (h : runTree ops = .ok (t, L)) (ps : List Str) (r : Events × Nat)
    (hr : t.matchByParts ps = .ok r) :
    ∀ e ∈ r.1, 0 ≤ e.2 ∧ ∃ x ∈ L, e = (x.1.node, x.2) := by
  unfold GGlobTree.matchByParts at hr
  split at hr
  · cases hr; rintro _ ⟨⟩
  · split at hr
    · rename_i root hroot
      exact only_matchByParts root (gg_all ops t L h _ _ hroot) _ r hr
    · cases hr; rintro _ ⟨⟩

/-- Two calls are accepted, the third is not (same node text), the fourth neither (no index). -/
example : (runTree [.add (b!"a.b*") 2, .add (b!"*.b?") 9, .add (b!"[a].b*") 4, .add (b!"a.*") (-1)] >>=
    fun x => x.1.matches (b!"a.bc")) = .ok ([(b!"a.b*", 2), (b!"*.b?", 9)], 2) := by decide +kernel

/-! ## Tag queries -/

/-- The conditions and the index of an accepted `Add`.  `Add("")` adds nothing. -/
def accepted (lib : GoLib) (r : TAddRes) : TOp → List (List TTerm × Int)
  | .add q i => tagAccepted lib q i r
  | .addTerms _ _ => []

/-- Runs the calls; collects what `Add` accepted. -/
def runTags (lib : GoLib) (t : GTagsTree) (L : List (List TTerm × Int)) :
    List TOp → R (GTagsTree × List (List TTerm × Int))
  | [] => .ok (t, L)
  | op :: ops => do
    let r ← op.apply lib t
    runTags lib r.1 (L ++ accepted lib r.2 op) ops

/-- The entries of a tree are of a kind. -/
def TagAll (P : Str × Int → Prop) (t : GTagsTree) : Prop :=
  (∀ e, t.fin = some e → P e) ∧ FinG P t.root

theorem tag_apply {P : Str × Int → Prop} (lib : GoLib) (t t' : GTagsTree) (op : TOp) (r : TAddRes)
    (h : op.apply lib t = .ok (t', r))
    (hP : ∀ x ∈ accepted lib r op, 0 ≤ x.2 → P (termsText x.1, x.2)) (ht : TagAll P t) : TagAll P t' := by
  cases op with
  | add q i =>
    simp only [TOp.apply, GTagsTree.add] at h
    by_cases h0 : q = []
    · rw [if_pos h0] at h; cases h; exact ht
    rw [if_neg h0] at h
    by_cases h1 : i < 0
    · rw [if_pos h1] at h; cases h; exact ht
    rw [if_neg h1] at h
    cases h2 : t.queries.get q with
    | some n => rw [h2] at h; cases h; exact ht
    | none =>
      rw [h2] at h
      dsimp only at h
      cases h3 : t.queryIndex.get i with
      | some q => rw [h3] at h; cases h; exact ht
      | none =>
        rw [h3] at h
        dsimp only at h
        obtain ⟨pr, hpr, h⟩ := R.bind_eq_ok.1 h
        cases pr with
        | error e => cases h; exact ht
        | ok ts =>
          dsimp only at h
          cases h4 : t.queries.get (termsText ts) with
          | some n => rw [h4] at h; cases h; exact ht
          | none =>
            rw [h4] at h
            dsimp only at h
            cases ts with
            | nil =>
              cases h
              have := hP ([], i) (by simp [accepted, tagAccepted, h0, hpr]) (by dsimp only; omega)
              refine ⟨?_, ht.2⟩
              rintro _ ⟨⟩
              exact this
            | cons u us =>
              dsimp only at h
              obtain ⟨root, hr, h⟩ := R.bind_eq_ok.1 h
              cases h
              have := hP (u :: us, i) (by simp [accepted, tagAccepted, h0, hpr]) (by dsimp only; omega)
              refine ⟨ht.1, parseItems_fin _ ?_ _ _ _ ht.2 hr⟩
              rintro _ ⟨⟩
              exact this
  | addTerms ts i =>
    simp only [TOp.apply, GTagsTree.addTerms] at h
    cases ts with
    | nil => cases h; exact ht
    | cons u us =>
      dsimp only at h
      split at h
      · cases h; exact ht
      split at h
      · cases h; exact ht
      split at h
      · cases h; exact ht
      obtain ⟨root, hr, h⟩ := R.bind_eq_ok.1 h
      cases h
      exact ⟨ht.1, parseItems_fin _ (by rintro _ ⟨⟩) _ _ _ ht.2 hr⟩

theorem tag_run {P : Str × Int → Prop} (lib : GoLib) (ops : List TOp) (t t' : GTagsTree)
    (L L' : List (List TTerm × Int)) (h : runTags lib t L ops = .ok (t', L'))
    (hP : ∀ x ∈ L', 0 ≤ x.2 → P (termsText x.1, x.2)) (ht : TagAll P t) :
    TagAll P t' ∧ ∀ x ∈ L, x ∈ L' := by
  induction ops generalizing t L with
  | nil => cases h; exact ⟨ht, fun x hx => hx⟩
  | cons op ops ih =>
    rw [runTags] at h
    obtain ⟨⟨t1, r⟩, h1, h2⟩ := R.bind_eq_ok.1 h
    dsimp only at h2
    have sub : ∀ (ops : List TOp) (t : GTagsTree) (L : List (List TTerm × Int)),
        runTags lib t L ops = .ok (t', L') → ∀ x ∈ L, x ∈ L' := by
      intro ops
      induction ops with
      | nil => intro t L h x hx; cases h; exact hx
      | cons op ops ih =>
        intro t L h x hx
        rw [runTags] at h
        obtain ⟨_, _, h2⟩ := R.bind_eq_ok.1 h
        exact ih _ _ h2 x (List.mem_append_left _ hx)
    have hm := sub ops t1 _ h2
    refine ⟨(ih t1 _ h2 ?_).1, fun x hx => hm x (List.mem_append_left _ hx)⟩
    exact tag_apply lib t t1 op r h1 (fun x hx => hP x (hm x (List.mem_append_right _ hx))) ht

theorem tag_all (lib : GoLib) (ops : List TOp) (t : GTagsTree) (L : List (List TTerm × Int))
    (h : runTags lib {} [] ops = .ok (t, L)) :
    TagAll (fun e => 0 ≤ e.2 ∧ ∃ x ∈ L, e = (termsText x.1, x.2)) t :=
  (tag_run lib ops {} t [] L h (fun x hx h0 => ⟨h0, x, hx, rfl⟩) ⟨by rintro _ ⟨⟩, trivial⟩).1

/-- After any calls of `Add` and `AddTerms` on a tree for tag queries that return, `MatchByTagsMap` on
any tags only reports the normal form and the index of accepted `Add` calls, each with the index of
its own call, and no negative index. -/
theorem tags_reported (lib : GoLib) (ops : List TOp) (t : GTagsTree) (L : List (List TTerm × Int))
    (h : runTags lib {} [] ops = .ok (t, L)) (tags : GoMap Str Str) (r : Events × Nat)
    (hr : t.matchByTagsMap lib tags = .ok r) :
    ∀ e ∈ r.1, 0 ≤ e.2 ∧ ∃ x ∈ L, e = (termsText x.1, x.2) := by
  unfold GTagsTree.matchByTagsMap at hr
  split at hr
  · cases hr; rintro _ ⟨⟩
  · exact only_groupsMap lib tags _ (tag_all lib ops t L h).2 r hr

/-- The same for `MatchByTags`, on any list of tags, sorted or not. -/
theorem tags_slice_reported (lib : GoLib) (ops : List TOp) (t : GTagsTree)
    (L : List (List TTerm × Int)) (h : runTags lib {} [] ops = .ok (t, L)) (tags : List Tag)
    (r : Events × Nat) (hr : t.matchByTags lib tags = .ok r) :
    ∀ e ∈ r.1, 0 ≤ e.2 ∧ ∃ x ∈ L, e = (termsText x.1, x.2) := by
  obtain ⟨h1, h2⟩ := tag_all lib ops t L h
  have key : ∀ x : R (Events × Nat), Only (fun e => 0 ≤ e.2 ∧ ∃ x ∈ L, e = (termsText x.1, x.2)) x →
      (x >>= fun r => .ok ((storeFin t.fin).1 ++ r.1, r.2)) = .ok r →
      ∀ e ∈ r.1, 0 ≤ e.2 ∧ ∃ x ∈ L, e = (termsText x.1, x.2) := by
    intro x hx hr
    obtain ⟨y, hy, hr⟩ := R.bind_eq_ok.1 hr
    cases hr
    intro e he
    rcases List.mem_append.1 he with he | he
    · exact only_storeFin h1 _ rfl e he
    · exact hx y hy e he
  unfold GTagsTree.matchByTags at hr
  by_cases h0 : tags.length = 0
  · simp only [h0, if_true] at hr
    exact key _ only_noEv hr
  · simp only [h0, if_false] at hr
    exact key _ (only_groupsSlice lib tags 0 _ h2) hr

/-- Where the accepted queries come from: a call of the history with this index, whose text has
these conditions. -/
theorem accepted_add (lib : GoLib) (ops : List TOp) (t t' : GTagsTree) (L L' : List (List TTerm × Int))
    (h : runTags lib t L ops = .ok (t', L')) :
    ∀ x ∈ L', x ∈ L ∨ ∃ q, TOp.add q x.2 ∈ ops ∧ parseSeriesByTag lib q = .ok (.ok x.1) := by
  induction ops generalizing t L with
  | nil => cases h; exact fun x hx => .inl hx
  | cons op ops ih =>
    rw [runTags] at h
    obtain ⟨⟨t1, r⟩, h1, h2⟩ := R.bind_eq_ok.1 h
    intro x hx
    rcases ih _ _ h2 x hx with h3 | ⟨q, h3, h4⟩
    · rcases List.mem_append.1 h3 with h3 | h3
      · exact .inl h3
      · right
        cases op with
        | add q i =>
          simp only [accepted, tagAccepted] at h3
          split at h3
          · cases h3
          · split at h3
            · rename_i ts hts
              rw [List.mem_singleton.1 h3]
              exact ⟨q, by simp, hts⟩
            · cases h3
        | addTerms ts i => cases h3
    · exact .inr ⟨q, by simp [h3], h4⟩

/-- Two queries are accepted, a third has the index of the first. -/
example : (runTags exLib {} [] [.add (b!"seriesByTag('b=c*','name=a')") 3, .add (b!"seriesByTag('b!=x')") 0,
    .add (b!"seriesByTag('name=a')") 3] >>= fun x =>
      x.1.matchByTagsMap exLib [(b!"__name__", b!"a"), (b!"b", b!"cd")]) =
    .ok ([(b!"seriesByTag('b!=x')", 0), (b!"seriesByTag('__name__=a','b=c*')", 3)], 2) := by decide +kernel

end C56

end GoMatcher
