import Verif.Proofs.TagExact
import Verif.Proofs.TagLive
import Verif.Props.C25_TagTree
import Verif.Props.C26_C29_TagTree

/-! # C25: what a tag tree reports, without a hypothesis on the conditions -/

namespace GoMatcher

theorem stepHolds_own (lib : GoLib) (tags : GoMap Str Str) (u : TTerm) :
    stepHolds lib tags (u.key, u.op.isMatched, u) = true ↔ TermHolds lib tags u := by
  have := all_stepHolds_iff lib tags [(u.key, u.op.isMatched, u)] [u] rfl (by
    intro s hs t ht _ v _
    simp only [List.mem_singleton] at hs ht
    subst hs ht
    rfl)
  simpa using this

theorem all_stepHolds {lib : GoLib} {tags : GoMap Str Str} {p : List Step}
    (h : ∀ s ∈ p, s = (s.2.2.key, s.2.2.op.isMatched, s.2.2)) :
    p.all (stepHolds lib tags) = true ↔ ∀ u ∈ p.map fun s => s.2.2, TermHolds lib tags u := by
  rw [List.all_eq_true]
  simp only [List.mem_map, forall_exists_index, and_imp, forall_apply_eq_imp_iff₂]
  constructor
  · intro h1 s hs
    have := h1 s hs
    rw [h s hs] at this
    exact (stepHolds_own lib tags _).1 this
  · intro h1 s hs
    rw [h s hs]
    exact (stepHolds_own lib tags _).2 (h1 s hs)

namespace C25

/-- A list of conditions that the tree asks instead of those of the query: condition by condition the
same key, operator and stored text, each written in some accepted query. -/
structure StandIn (L : List (List TTerm × Int)) (us ts : List TTerm) : Prop where
  ids : us.map (fun u => (u.key, u.op, u.value)) = ts.map fun u => (u.key, u.op, u.value)
  from_query : ∀ u ∈ us, ∃ x ∈ L, u ∈ x.1

/-- Every history of `Add` calls whose conditions all have a key.  There is for every accepted query
with conditions a list of conditions standing in for its own — the same for all tags — so that the search
returns exactly if each of these lists by itself gives an answer (so it does if every comparison with a tag
that is there gives one), and then it has reported exactly the queries whose stand-ins all hold, each once,
and counted them.  No hypothesis on the conditions themselves.  Full statement (not true of the code): with the
conditions of the query itself; see `shared_term_wrong`. -/
theorem map_stand_ins_partial (lib : GoLib) (adds : List (Str × Int)) (hk : ∀ a ∈ adds, HasKeys lib a.1) :
    ∃ t L, runAdds lib {} [] adds = .ok (t, L) ∧
      ∃ W : List (List TTerm × (List TTerm × Int)),
        W.map Prod.snd = L.filter (fun x => !x.1.isEmpty) ∧ (∀ w ∈ W, StandIn L w.1 w.2.1) ∧
        ∀ tags : GoMap Str Str, tags.length ≠ 0 →
          ((∀ x ∈ L, Answers lib x.1 tags) → ∃ r, t.matchByTagsMap lib tags = .ok r) ∧
          ((∃ r, t.matchByTagsMap lib tags = .ok r) ↔
            ∀ w ∈ W, ∃ b, GoMatcher.matchByTagsMap lib w.1 tags = .ok b) ∧
          ∀ evs n, t.matchByTagsMap lib tags = .ok (evs, n) → n = evs.length ∧
          evs.Perm ((W.filter fun w => decide (GoMatcher.matchByTagsMap lib w.1 tags = .ok true)).map
            fun w => (termsText w.2.1, w.2.2)) := by
  obtain ⟨t, L, hr, hI⟩ := runAdds_inv lib adds hk {} [] tagInv_empty
  obtain ⟨W, w1, w2, w3⟩ := hI.paths
  have hst : ∀ w ∈ W, ∀ s ∈ w.1, ∃ x ∈ L, ∃ u ∈ x.1, s = (u.key, u.op.isMatched, u) := by
    intro w hw s hs
    have hp : (w.1, tagEntry w.2) ∈ pathsG t.root := w2.mem_iff.2 (List.mem_map.2 ⟨w, hw, rfl⟩)
    exact hI.steps s (pathsG_steps _ _ hp s hs)
  refine ⟨t, L, hr, W.map fun w => (w.1.map fun s => s.2.2, w.2), ?_, ?_, ?_⟩
  · rw [List.map_map]; exact w1
  · intro w hw
    obtain ⟨w, hw', rfl⟩ := List.mem_map.1 hw
    constructor
    · have h := congrArg (List.map fun x : Str × Bool × (Str × TagOp × Str) => x.2.2) (w3 w hw')
      simpa [Function.comp_def, sigOf, Step.sig, TTerm.id] using h
    · intro u hu
      obtain ⟨s, hs, rfl⟩ := List.mem_map.1 hu
      obtain ⟨x, hx, u, hu', rfl⟩ := hst w hw' s hs
      exact ⟨x, hx, hu'⟩
  · intro tags h0
    constructor
    · intro ha
      unfold GTagsTree.matchByTagsMap
      rw [if_neg h0]
      refine ⟨_, groupsMap_spec lib tags t.root ?_⟩
      intro s hs v hv
      obtain ⟨x, hx, u, hu, rfl⟩ := hI.steps s hs
      exact ha x hx u hu v hv
    constructor
    · unfold GTagsTree.matchByTagsMap
      rw [if_neg h0]
      have hlive := runAdds_live adds hk (t := {}) (L := []) trivial hr
      refine (groupsMap_isOk lib tags t.root hlive).trans ?_
      have own : ∀ w ∈ W, ∀ s ∈ w.1, s = (s.2.2.key, s.2.2.op.isMatched, s.2.2) := by
        intro w hw s hs
        obtain ⟨x, hx, u, hu, rfl⟩ := hst w hw s hs
        rfl
      constructor
      · intro h w hw
        obtain ⟨w, hw', rfl⟩ := List.mem_map.1 hw
        exact (walkOk_iff lib tags w.1 (own w hw')).1
          (h (w.1, tagEntry w.2) (w2.mem_iff.2 (List.mem_map.2 ⟨w, hw', rfl⟩)))
      · intro h p hp
        obtain ⟨w, hw, rfl⟩ := List.mem_map.1 (w2.mem_iff.1 hp)
        exact (walkOk_iff lib tags w.1 (own w hw)).2
          (h (w.1.map fun s => s.2.2, w.2) (List.mem_map.2 ⟨w, hw, rfl⟩))
    intro evs n hm
    unfold GTagsTree.matchByTagsMap at hm
    rw [if_neg h0] at hm
    have hc := groupsMap_counted lib tags t.root _ hm
    simp only [Prod.mk.injEq] at hc
    obtain ⟨rfl, rfl⟩ := hc
    refine ⟨rfl, ?_⟩
    have h1 : (report lib tags (pathsG t.root)).Perm
        (report lib tags (W.map fun w => (w.1, tagEntry w.2))) := (w2.filter _).map _
    refine h1.trans (List.Perm.of_eq ?_)
    unfold report
    rw [List.filter_map, List.map_map, List.filter_map, List.map_map]
    have : W.filter ((fun p : List Step × (Str × Int) => p.1.all (stepHolds lib tags)) ∘
          fun w : List Step × (List TTerm × Int) => (w.1, tagEntry w.2)) =
        W.filter ((fun w : List TTerm × (List TTerm × Int) => decide (GoMatcher.matchByTagsMap lib w.1 tags = .ok true)) ∘
          fun w => (w.1.map fun s => s.2.2, w.2)) := by
      apply List.filter_congr
      intro w hw
      simp only [Function.comp_apply]
      rw [Bool.eq_iff_iff, decide_eq_true_eq, C22.match_iff]
      apply all_stepHolds
      intro s hs
      obtain ⟨x, hx, u, hu, rfl⟩ := hst w hw s hs
      rfl
    rw [this]
    rfl

/-! ## The search in a tag list -/

theorem runAdds_run {lib : GoLib} (adds : List (Str × Int)) {t t' : GTagsTree} {L L' : List (List TTerm × Int)}
    (h : runAdds lib t L adds = .ok (t', L')) : runTOps lib t (adds.map fun a => .add a.1 a.2) = .ok t' := by
  induction adds generalizing t L with
  | nil => cases h; rfl
  | cons a adds ih =>
    rw [runAdds] at h
    obtain ⟨r, h1, h2⟩ := R.bind_eq_ok.1 h
    rw [List.map_cons, runTOps]
    simp only [TOp.apply]
    rw [h1, R.bind_ok]
    exact ih h2

/-- The stored query without conditions is the accepted one. -/
def FinInv (t : GTagsTree) (L : List (List TTerm × Int)) : Prop :=
  t.fin.toList =
    (L.filter fun x => x.1.isEmpty).map fun x => (termsText x.1, x.2)

theorem runAdds_fin {lib : GoLib} (adds : List (Str × Int)) (hk : ∀ a ∈ adds, HasKeys lib a.1)
    {t t' : GTagsTree} {L L' : List (List TTerm × Int)} (hI : TagInv t L) (hF : FinInv t L)
    (h : runAdds lib t L adds = .ok (t', L')) : FinInv t' L' := by
  induction adds generalizing t L with
  | nil => cases h; exact hF
  | cons a adds ih =>
    obtain ⟨t1, r, h1, h2⟩ := add_cases lib t a.1 a.2 (hk a (by simp))
    rw [runAdds, h1, R.bind_ok] at h
    dsimp only at h
    have hk' : ∀ a ∈ adds, HasKeys lib a.1 := fun a h => hk a (by simp [h])
    rcases h2 with ⟨rfl, e⟩ | ⟨ts, e, hp, e2, e3, e4, e5⟩
    · rw [e, List.append_nil] at h
      exact ih hk' hI hF h
    · rw [e] at h
      refine ih hk' (tagInv_add hI (hk a (by simp) ts hp) e2 e3 e4 e5) ?_ h
      unfold FinInv at hF ⊢
      rw [List.filter_append, List.map_append]
      rcases e3 with ⟨rfl, _, e3⟩ | ⟨e6, e3, _⟩
      · rw [e3]
        have : L.filter (fun x => x.1.isEmpty) = [] := by
          rw [List.filter_eq_nil_iff]
          intro x hx hxe
          have hx1 : x.1 = [] := List.isEmpty_iff.1 hxe
          have := hI.known x hx
          rw [hx1, e2] at this
          cases this
        rw [this]
        rfl
      · rw [e3, hF]
        have : ts.isEmpty = false := by cases ts with | nil => exact absurd rfl e6 | cons _ _ => rfl
        simp [this]

/-- The same for the search in a sorted tag list: it reports the query without conditions as well, but
does not count it. -/
theorem slice_stand_ins_partial (lib : GoLib) (adds : List (Str × Int)) (hk : ∀ a ∈ adds, HasKeys lib a.1) :
    ∃ t L, runAdds lib {} [] adds = .ok (t, L) ∧
      ∃ W : List (List TTerm × (List TTerm × Int)),
        W.map Prod.snd = L.filter (fun x => !x.1.isEmpty) ∧ (∀ w ∈ W, StandIn L w.1 w.2.1) ∧
        ∀ tags : List Tag, TagsSorted tags → tags ≠ [] →
          ((∀ x ∈ L, Answers lib x.1 (tagsMap tags)) → ∃ r, t.matchByTags lib tags = .ok r) ∧
          ((∃ r, t.matchByTags lib tags = .ok r) ↔
            ∀ w ∈ W, ∃ b, GoMatcher.matchByTagsMap lib w.1 (tagsMap tags) = .ok b) ∧
          ∀ evs n, t.matchByTags lib tags = .ok (evs, n) →
            ∃ evs', evs = ((L.filter fun x => x.1.isEmpty).map fun x => (termsText x.1, x.2)) ++ evs' ∧
              n = evs'.length ∧
              evs'.Perm ((W.filter fun w =>
                decide (GoMatcher.matchByTagsMap lib w.1 (tagsMap tags) = .ok true)).map
                  fun w => (termsText w.2.1, w.2.2)) := by
  obtain ⟨t, L, hr, W, w1, w2, w3⟩ := map_stand_ins_partial lib adds hk
  have hF := runAdds_fin adds hk tagInv_empty rfl hr
  refine ⟨t, L, hr, W, w1, w2, fun tags hs h0 => ?_⟩
  have hl : (tagsMap tags).length ≠ 0 := fun e => h0 (List.length_eq_zero_iff.1 ((tagsMap_length tags).1 e))
  obtain ⟨a1, a3, a2⟩ := w3 (tagsMap tags) hl
  have hsm := C26.slice_vs_map lib _ t (runAdds_run adds hr) tags hs
  have hsm' : t.matchByTags lib tags = (do
      let r ← t.matchByTagsMap lib (tagsMap tags)
      .ok (t.fin.toList ++ r.1, r.2)) := by
    rw [hsm]
    cases t.fin <;> rfl
  unfold FinInv at hF
  rw [hF] at hsm'
  rw [hsm']
  constructor
  · intro ha
    obtain ⟨r, hr⟩ := a1 ha
    rw [hr, R.bind_ok]
    exact ⟨_, rfl⟩
  constructor
  · rw [← a3]
    constructor
    · rintro ⟨r, h⟩
      obtain ⟨r', h1, _⟩ := R.bind_eq_ok.1 h
      exact ⟨r', h1⟩
    · rintro ⟨r, h⟩
      rw [h, R.bind_ok]
      exact ⟨_, rfl⟩
  · intro evs n h
    obtain ⟨r, h1, h2⟩ := R.bind_eq_ok.1 h
    obtain ⟨h3, h4⟩ := a2 r.1 r.2 h1
    simp only [R.ok.injEq, Prod.mk.injEq] at h2
    exact ⟨r.1, h2.1.symm, by rw [← h2.2]; exact h3, h4⟩

/-- The conditions have keys. -/
example : ∀ a ∈ [((b!"seriesByTag('a=x[*]y', 'b=c')" : Str), (1 : Int)), (b!"seriesByTag('a=x*y')", 2)],
    HasKeys exLib a.1 := by
  intro a ha ts hts
  have : (match parseSeriesByTag exLib a.1 with
    | .ok (.ok ts) => ts.all fun t => !t.key.isEmpty
    | _ => true) = true := by
    simp only [List.mem_cons, List.not_mem_nil, or_false] at ha
    rcases ha with rfl | rfl <;> decide +kernel
  rw [hts] at this
  intro t ht e
  have := List.all_eq_true.1 this t ht
  rw [e] at this
  cases this

/-- There the stand-in for `a=x*y` is `a=x[*]y` (`shared_term_wrong`). -/
example : reportMap [(b!"seriesByTag('a=x[*]y', 'b=c')", 1), (b!"seriesByTag('a=x*y')", 2)]
    [(b!"a", b!"x*y")] = some ([(b!"seriesByTag('a=x*y')", 2)], 1) := by decide +kernel

end C25

end GoMatcher
