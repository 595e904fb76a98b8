import Verif.Proofs.TreesOnce
import Verif.Props.C56_Only

/-! # C74: the trees of dotted globs and of tag queries report each index at most once -/

namespace GoMatcher.C74

theorem nodup_of_reps (l : Events) (h : ∀ i, reps i l ≤ 1) : (l.map Prod.snd).Nodup := by
  induction l with
  | nil => exact .nil
  | cons x l ih =>
    rw [List.map_cons, List.nodup_cons]
    refine ⟨fun hx => ?_, ih fun i => ?_⟩
    · obtain ⟨y, hy, e⟩ := List.mem_map.1 hx
      have h1 := h x.2
      unfold reps at h1
      rw [List.countP_cons] at h1
      have h2 : 0 < l.countP fun e => decide (e.2 = x.2) :=
        List.countP_pos_iff.2 ⟨y, hy, by simpa using e⟩
      simp only [decide_true, if_true] at h1
      omega
    · refine Nat.le_trans ?_ (h i)
      unfold reps
      rw [List.countP_cons]
      exact Nat.le_add_right _ _

theorem length_le {α : Type} [DecidableEq α] (l m : List α) (hl : l.Nodup) (h : ∀ x ∈ l, x ∈ m) :
    l.length ≤ m.length := by
  induction l generalizing m with
  | nil => exact Nat.zero_le _
  | cons x l ih =>
    obtain ⟨h1, h2⟩ := List.nodup_cons.1 hl
    have hx := h x (by simp)
    have := ih (m.erase x) h2 fun y hy =>
      (List.mem_erase_of_ne fun (e : y = x) => h1 (e ▸ hy)).2 (h y (by simp [hy]))
    rw [List.length_erase_of_mem hx] at this
    have : 0 < m.length := List.length_pos_of_mem hx
    simp only [List.length_cons]
    omega

/-! ## Dotted globs -/

theorem gg_occ_run {i : Int} (ops : List GOp) (t t' : GGlobTree) (L L' : List (GGlob × Int))
    (h : runOps t L ops = .ok (t', L'))
    (ht : occR i t.root ≤ if (t.globsIndex.get i).isSome then 1 else 0) : occR i t'.root ≤ 1 := by
  induction ops generalizing t L with
  | nil =>
    cases h
    refine Nat.le_trans ht ?_
    split <;> omega
  | cons op ops ih =>
    rw [runOps] at h
    obtain ⟨⟨t1, r⟩, h1, h2⟩ := R.bind_eq_ok.1 h
    exact ih _ _ h2 (gg_occ t t1 op r h1 ht)

/-- After any calls of `Add` and `AddGlob`, with any texts and any globs, one `Match` on any path
reports no index twice, and calls `Store` no more often than calls were accepted. -/
theorem gglob_once (ops : List GOp) (t : GGlobTree) (L : List (GGlob × Int))
    (h : runTree ops = .ok (t, L)) (path : Str) (r : Events × Nat) (hr : t.matches path = .ok r) :
    (r.1.map Prod.snd).Nodup ∧ r.1.length ≤ L.length := by
  have hn : (r.1.map Prod.snd).Nodup := by
    refine nodup_of_reps _ fun i => ?_
    have ho := gg_occ_run (i := i) ops {} t [] L h (Nat.zero_le _)
    unfold GGlobTree.matches at hr
    split at hr
    · cases hr; exact Nat.zero_le _
    · dsimp only at hr
      split at hr
      · rename_i root hroot
        exact Nat.le_trans (atMost_matchItems root _ r hr) (Nat.le_trans (occR_get hroot) ho)
      · cases hr; exact Nat.zero_le _
  refine ⟨hn, ?_⟩
  have := length_le _ (L.map Prod.snd) hn (by
    intro x hx
    obtain ⟨e, he, rfl⟩ := List.mem_map.1 hx
    obtain ⟨_, y, hy, rfl⟩ := C56.gglob_reported ops t L h path r hr e he
    exact List.mem_map.2 ⟨y, hy, rfl⟩)
  simpa using this

/-- The same for `MatchByParts`. -/
theorem gglob_parts_once (ops : List GOp) (t : GGlobTree) (L : List (GGlob × Int))
    (h : runTree ops = .ok (t, L)) (ps : List Str) (r : Events × Nat)
    (hr : t.matchByParts ps = .ok r) :
    (r.1.map Prod.snd).Nodup ∧ r.1.length ≤ L.length := by
  have hn : (r.1.map Prod.snd).Nodup := by
    refine nodup_of_reps _ fun i => ?_
    have ho := gg_occ_run (i := i) ops {} t [] L h (Nat.zero_le _)
    unfold GGlobTree.matchByParts at hr
    split at hr
    · cases hr; exact Nat.zero_le _
    · split at hr
      · rename_i root hroot
        exact Nat.le_trans (atMost_matchByParts root _ r hr) (Nat.le_trans (occR_get hroot) ho)
      · cases hr; exact Nat.zero_le _
  refine ⟨hn, ?_⟩
  have := length_le _ (L.map Prod.snd) hn (by
    intro x hx
    obtain ⟨e, he, rfl⟩ := List.mem_map.1 hx
    obtain ⟨_, y, hy, rfl⟩ := C56.gglob_parts_reported ops t L h ps r hr e he
    exact List.mem_map.2 ⟨y, hy, rfl⟩)
  simpa using this

/-- `*a*a*` fits `aaaa` in six ways and is reported once; `{a,aa}{a,aa}` in the second part too. -/
example : (runTree [.add (b!"*a*a*.{a,aa}{a,aa}") 2, .add (b!"*.aaa") 9, .add (b!"a*.aaa") 0] >>=
    fun x => x.1.matches (b!"aaaa.aaa")) =
      .ok ([(b!"*a*a*.{a,aa}{a,aa}", 2), (b!"*.aaa", 9), (b!"a*.aaa", 0)], 3) := by decide +kernel

/-! ## Tag queries -/

/-- How often an index stands in the tree. -/
def occ (i : Int) (t : GTagsTree) : Nat := occFin i t.fin + occG i t.root

theorem tag_occ {i : Int} (lib : GoLib) (t t' : GTagsTree) (op : TOp) (r : TAddRes)
    (h : op.apply lib t = .ok (t', r))
    (ht : occ i t ≤ if (t.queryIndex.get i).isSome then 1 else 0) :
    occ i t' ≤ if (t'.queryIndex.get i).isSome then 1 else 0 := by
  have key : ∀ (n : Nat) (idx : Int) (q : Str), t.queryIndex.get idx = none →
      n ≤ occ i t + (if idx = i then 1 else 0) →
      n ≤ if ((t.queryIndex.set idx q).get i).isSome then 1 else 0 := by
    intro n idx q hn hle
    refine Nat.le_trans hle ?_
    rw [GoMap.get_set]
    by_cases hi : idx = i
    · subst hi
      rw [hn] at ht
      simp only [Option.isSome_none, Bool.false_eq_true, if_false] at ht
      simp only [if_true, Option.isSome_some]
      omega
    · simp only [hi, if_false, Nat.add_zero]
      exact ht
  cases op with
  | add q idx =>
    simp only [TOp.apply, GTagsTree.add] at h
    split at h
    · cases h; exact ht
    split at h
    · cases h; exact ht
    split at h
    · cases h; exact ht
    split at h
    · cases h; exact ht
    rename_i hn
    obtain ⟨pr, hpr, h⟩ := R.bind_eq_ok.1 h
    cases pr with
    | error e => cases h; exact ht
    | ok ts =>
      dsimp only at h
      split at h
      · cases h; exact ht
      · cases ts with
        | nil =>
          cases h
          refine key _ idx _ hn ?_
          unfold occ
          rw [occFin_some]
          dsimp only
          omega
        | cons u us =>
          dsimp only at h
          obtain ⟨root, hr, h⟩ := R.bind_eq_ok.1 h
          cases h
          refine key _ idx _ hn ?_
          have := parseItems_occ (i := i) _ _ _ _ hr
          rw [occFin_some] at this
          unfold occ
          dsimp only at this ⊢
          omega
  | addTerms ts idx =>
    simp only [TOp.apply, GTagsTree.addTerms] at h
    cases ts with
    | nil => cases h; exact ht
    | cons u us =>
      dsimp only at h
      split at h
      · cases h; exact ht
      split at h
      · cases h; exact ht
      split at h
      · cases h; exact ht
      rename_i hn
      obtain ⟨root, hr, h⟩ := R.bind_eq_ok.1 h
      cases h
      refine key _ idx _ hn ?_
      have := parseItems_occ (i := i) _ _ _ _ hr
      rw [occFin_none] at this
      unfold occ
      dsimp only at this ⊢
      omega

theorem tag_occ_run {i : Int} (lib : GoLib) (ops : List TOp) (t t' : GTagsTree)
    (L L' : List (List TTerm × Int)) (h : C56.runTags lib t L ops = .ok (t', L'))
    (ht : occ i t ≤ if (t.queryIndex.get i).isSome then 1 else 0) : occ i t' ≤ 1 := by
  induction ops generalizing t L with
  | nil =>
    cases h
    refine Nat.le_trans ht ?_
    split <;> omega
  | cons op ops ih =>
    rw [C56.runTags] at h
    obtain ⟨⟨t1, r⟩, h1, h2⟩ := R.bind_eq_ok.1 h
    exact ih _ _ h2 (tag_occ lib t t1 op r h1 ht)

/-- After any calls of `Add` and `AddTerms`, one `MatchByTagsMap` with any tags reports no index twice,
and calls `Store` no more often than calls of `Add` were accepted. -/
theorem tags_map_once (lib : GoLib) (ops : List TOp) (t : GTagsTree) (L : List (List TTerm × Int))
    (h : C56.runTags lib {} [] ops = .ok (t, L)) (tags : GoMap Str Str) (r : Events × Nat)
    (hr : t.matchByTagsMap lib tags = .ok r) :
    (r.1.map Prod.snd).Nodup ∧ r.1.length ≤ L.length := by
  have hn : (r.1.map Prod.snd).Nodup := by
    refine nodup_of_reps _ fun i => ?_
    have ho := tag_occ_run (i := i) lib ops {} t [] L h (Nat.zero_le _)
    unfold occ at ho
    unfold GTagsTree.matchByTagsMap at hr
    split at hr
    · cases hr; exact Nat.zero_le _
    · have := atMost_groupsMap (i := i) lib tags t.root r hr
      omega
  refine ⟨hn, ?_⟩
  have := length_le _ (L.map Prod.snd) hn (by
    intro x hx
    obtain ⟨e, he, rfl⟩ := List.mem_map.1 hx
    obtain ⟨_, y, hy, rfl⟩ := C56.tags_reported lib ops t L h tags r hr e he
    exact List.mem_map.2 ⟨y, hy, rfl⟩)
  simpa using this

/-- The same for `MatchByTags`, sorted tags or not. -/
theorem tags_slice_once (lib : GoLib) (ops : List TOp) (t : GTagsTree) (L : List (List TTerm × Int))
    (h : C56.runTags lib {} [] ops = .ok (t, L)) (tags : List Tag) (r : Events × Nat)
    (hr : t.matchByTags lib tags = .ok r) :
    (r.1.map Prod.snd).Nodup ∧ r.1.length ≤ L.length := by
  have hn : (r.1.map Prod.snd).Nodup := by
    refine nodup_of_reps _ fun i => ?_
    have ho := tag_occ_run (i := i) lib ops {} t [] L h (Nat.zero_le _)
    unfold occ at ho
    have key : ∀ x : R (Events × Nat), AtMost i (occG i t.root) x →
        (x >>= fun r => .ok ((storeFin t.fin).1 ++ r.1, r.2)) = .ok r → reps i r.1 ≤ 1 := by
      intro x hx he
      obtain ⟨a, ha, he⟩ := R.bind_eq_ok.1 he
      cases he
      have h1 := hx a ha
      have h2 : reps i ((storeFin t.fin).1 ++ a.1) = occFin i t.fin + reps i a.1 := List.countP_append
      dsimp only
      omega
    unfold GTagsTree.matchByTags at hr
    dsimp only at hr
    split at hr
    · exact key (.ok ([], 0)) (by rintro _ ⟨⟩; exact Nat.zero_le _) hr
    · exact key _ (atMost_groupsSlice (i := i) lib tags 0 t.root) hr
  refine ⟨hn, ?_⟩
  have := length_le _ (L.map Prod.snd) hn (by
    intro x hx
    obtain ⟨e, he, rfl⟩ := List.mem_map.1 hx
    obtain ⟨_, y, hy, rfl⟩ := C56.tags_slice_reported lib ops t L h tags r hr e he
    exact List.mem_map.2 ⟨y, hy, rfl⟩)
  simpa using this

/-- A query with a repeated condition and a series with a repeated tag: one report each. -/
example : (C56.runTags exLib {} [] [.add (b!"seriesByTag('b=c*','b=c*','name=a')") 3,
    .add (b!"seriesByTag('b!=x')") 0, .add (b!"seriesByTag('b!=x')") 7] >>= fun x =>
      x.1.matchByTags exLib [⟨b!"__name__", b!"a"⟩, ⟨b!"b", b!"cd"⟩, ⟨b!"b", b!"cd"⟩]) =
    .ok ([(b!"seriesByTag('b!=x')", 0), (b!"seriesByTag('__name__=a','b=c*','b=c*')", 3)], 2) := by
  decide +kernel

example : (C56.runTags exLib {} [] [.add (b!"seriesByTag('b=c*','b!=d','name=a')") 3,
    .add (b!"seriesByTag('b!=x')") 0, .add (b!"seriesByTag('name=a')") 7] >>= fun x =>
      x.1.matchByTagsMap exLib [(b!"__name__", b!"a"), (b!"b", b!"cd")]) =
    .ok ([(b!"seriesByTag('__name__=a')", 7), (b!"seriesByTag('b!=x')", 0),
      (b!"seriesByTag('__name__=a','b=c*','b!=d')", 3)], 3) := by decide +kernel

end GoMatcher.C74
