import Verif.Proofs.TagHist
import Verif.Props.C46_Stable
import Verif.Props.C13_Written

/-! # C25: the batch tree for `seriesByTag` queries -/

namespace GoMatcher

/-- On these tags the comparisons of all accepted queries give an answer, and terms with the same
key, operator and stored value give the same answer (the tree keeps only the first of them). -/
structure TagsFaithful (lib : GoLib) (L : List (List TTerm × Int)) (tags : GoMap Str Str) : Prop where
  answers : ∀ x ∈ L, Answers lib x.1 tags
  same : ∀ x ∈ L, ∀ y ∈ L, ∀ t ∈ x.1, ∀ u ∈ y.1, t.id = u.id →
    ∀ v, tags.get t.key = some v → t.matches lib v = u.matches lib v

/-- A glob in a condition for which the matcher is exact (C01) and whose normal form can be read
back (C07). -/
structure TagGlobGood (ts : List Tok) : Prop where
  ok : ∀ t ∈ ts, t.Ok
  tidy : ∀ t ∈ ts, t.Tidy
  shape : Shape true .plain ts
  max : MaxOk ts

/-- The term comes from a condition with a regular expression or with a good glob. -/
def TermGood (lib : GoLib) (t : TTerm) : Prop :=
  ∃ key op src, TTerm.build lib { key := key, op := op, value := src } = .ok (.ok t) ∧
    (op = .eq ∨ op = .ne → ∃ ts, TagGlobGood ts ∧ src = utf8 (renderGlob ts))

/-- The term comes from a condition with a regular expression or with a value without
wildcards. -/
def TermPlain (lib : GoLib) (t : TTerm) : Prop :=
  ∃ key op src, TTerm.build lib { key := key, op := op, value := src } = .ok (.ok t) ∧
    (op = .eq ∨ op = .ne → hasWildcard src = false)

/-- All conditions of a query have a key and satisfy `P`. -/
def QueryHas (lib : GoLib) (P : TTerm → Prop) (q : Str) : Prop :=
  ∀ ts, parseSeriesByTag lib q = .ok (.ok ts) → ∀ t ∈ ts, t.key ≠ [] ∧ P t

theorem stepHolds_iff (lib : GoLib) (tags : GoMap Str Str) (s : Step) (t : TTerm)
    (hs : s.sig = sigOf t) (hm : ∀ v, tags.get t.key = some v → s.2.2.matches lib v = t.matches lib v) :
    stepHolds lib tags s = true ↔ TermHolds lib tags t := by
  obtain ⟨k, b, u⟩ := s
  simp only [Step.sig, sigOf, Prod.mk.injEq] at hs
  obtain ⟨rfl, rfl, _⟩ := hs
  simp only [stepHolds, TermHolds]
  cases hg : tags.get t.key with
  | some v =>
    dsimp only
    rw [hm v hg]
    cases t.matches lib v <;> simp
  | none =>
    cases hop : t.op <;> simp [TagOp.isMatched]

theorem all_stepHolds_iff (lib : GoLib) (tags : GoMap Str Str) (p : List Step) (ts : List TTerm)
    (h : p.map Step.sig = ts.map sigOf)
    (hm : ∀ s ∈ p, ∀ t ∈ ts, s.sig = sigOf t →
      ∀ v, tags.get t.key = some v → s.2.2.matches lib v = t.matches lib v) :
    p.all (stepHolds lib tags) = true ↔ ∀ t ∈ ts, TermHolds lib tags t := by
  induction p generalizing ts with
  | nil =>
    cases ts with
    | nil => simp
    | cons t ts => simp at h
  | cons s p ih =>
    cases ts with
    | nil => simp at h
    | cons t ts =>
      simp only [List.map_cons, List.cons.injEq] at h
      rw [List.all_cons, Bool.and_eq_true, List.forall_mem_cons,
        stepHolds_iff lib tags s t h.1 (hm s (by simp) t (by simp) h.1),
        ih ts h.2 (fun s hs t ht => hm s (by simp [hs]) t (by simp [ht]))]

namespace C25

/-- Every history of `Add` calls whose conditions all have a key: the search reports the accepted
queries that match, each once, and counts them.  Full statement (not true of the code): without
the hypotheses on keys, answers and shared terms, and with the query without conditions; see
`shared_term_wrong`, `empty_query_wrong`, `empty_key_wrong`. -/
theorem map_exact_partial (lib : GoLib) (adds : List (Str × Int)) (hk : ∀ a ∈ adds, HasKeys lib a.1) :
    ∃ t L, runAdds lib {} [] adds = .ok (t, L) ∧ ∀ tags : GoMap Str Str, tags.length ≠ 0 →
      TagsFaithful lib L tags →
      ∃ evs, t.matchByTagsMap lib tags = .ok (evs, evs.length) ∧
        evs.Perm ((L.filter fun x => !x.1.isEmpty &&
          decide (GoMatcher.matchByTagsMap lib x.1 tags = .ok true)).map
            fun x => (termsText x.1, x.2)) := by
  obtain ⟨t, L, hr, hI⟩ := runAdds_inv lib adds hk {} [] tagInv_empty
  refine ⟨t, L, hr, fun tags h0 hf => ?_⟩
  obtain ⟨W, w1, w2, w3⟩ := hI.paths
  refine ⟨report lib tags (pathsG t.root), ?_, ?_⟩
  · unfold GTagsTree.matchByTagsMap
    rw [if_neg h0]
    apply groupsMap_spec
    intro s hs v hv
    obtain ⟨x, hx, u, hu, rfl⟩ := hI.steps s hs
    exact hf.answers x hx u hu v hv
  · have h1 : (report lib tags (pathsG t.root)).Perm
        (report lib tags (W.map fun w => (w.1, tagEntry w.2))) := (w2.filter _).map _
    refine h1.trans ?_
    have h2 : report lib tags (W.map fun w => (w.1, tagEntry w.2)) =
        ((W.map Prod.snd).filter fun x =>
          decide (GoMatcher.matchByTagsMap lib x.1 tags = .ok true)).map tagEntry := by
      unfold report
      rw [List.filter_map, List.map_map, List.filter_map, List.map_map]
      have : W.filter ((fun p : List Step × (Str × Int) => p.1.all (stepHolds lib tags)) ∘
            fun w : List Step × (List TTerm × Int) => (w.1, tagEntry w.2)) =
          W.filter ((fun x : List TTerm × Int =>
            decide (GoMatcher.matchByTagsMap lib x.1 tags = .ok true)) ∘ Prod.snd) := by
        apply List.filter_congr
        intro w hw
        simp only [Function.comp_apply]
        have hx : w.2 ∈ L := by
          have : w.2 ∈ W.map Prod.snd := List.mem_map.2 ⟨w, hw, rfl⟩
          rw [w1] at this
          exact (List.mem_filter.1 this).1
        rw [Bool.eq_iff_iff, decide_eq_true_eq, C22.match_iff]
        apply all_stepHolds_iff lib tags w.1 w.2.1 (w3 w hw)
        intro s hs u hu hsig v hv
        have hp : (w.1, tagEntry w.2) ∈ pathsG t.root := w2.mem_iff.2 (List.mem_map.2 ⟨w, hw, rfl⟩)
        obtain ⟨y, hy, z, hz, rfl⟩ := hI.steps s (pathsG_steps _ _ hp s hs)
        simp only [Step.sig, sigOf, Prod.mk.injEq] at hsig
        exact (hf.same _ hx _ hy u hu z hz hsig.2.2.symm v hv).symm
      rw [this]
      rfl
    rw [h2, w1, List.filter_filter]
    have h3 : (fun a : List TTerm × Int => decide (GoMatcher.matchByTagsMap lib a.1 tags = .ok true) &&
        !a.1.isEmpty) = fun a => !a.1.isEmpty &&
          decide (GoMatcher.matchByTagsMap lib a.1 tags = .ok true) := by
      funext a; exact Bool.and_comm _ _
    rw [h3]
    exact List.Perm.refl _

/-- The accepted queries are queries of the history. -/
theorem accepted_mem (lib : GoLib) (adds : List (Str × Int)) (t t' : GTagsTree)
    (L L' : List (List TTerm × Int)) (h : runAdds lib t L adds = .ok (t', L')) :
    ∀ x ∈ L', x ∈ L ∨ ∃ q, (q, x.2) ∈ adds ∧ parseSeriesByTag lib q = .ok (.ok x.1) := by
  induction adds generalizing t L with
  | nil =>
    simp only [runAdds, R.ok.injEq, Prod.mk.injEq] at h
    rw [h.2]; exact fun x hx => .inl hx
  | cons a adds ih =>
    rw [runAdds] at h
    obtain ⟨r, h1, h2⟩ := R.bind_eq_ok.1 h
    intro x hx
    rcases ih _ _ h2 x hx with h3 | ⟨q, h3, h4⟩
    · rcases List.mem_append.1 h3 with h3 | h3
      · exact .inl h3
      · right
        unfold tagAccepted at h3
        split at h3
        · simp at h3
        · split at h3
          · rename_i ts hts
            rw [List.mem_singleton] at h3
            subst h3
            exact ⟨a.1, by simp, hts⟩
          · simp at h3
    · exact .inr ⟨q, by simp [h3], h4⟩

theorem build_regexp {lib : GoLib} {key src : Str} {op : TagOp} {t : TTerm}
    (hop : op = .mt ∨ op = .nm)
    (h : TTerm.build lib { key := key, op := op, value := src } = .ok (.ok t)) :
    t.id = (key, op, src) ∧ ∀ v, t.matches lib v = .ok (lib.reMatch src v == decide (op = .mt)) := by
  obtain ⟨h1, h2⟩ := C22.regexp_term lib key src op hop
  cases hc : lib.reCompiles src with
  | true =>
    obtain ⟨u, u1, u2, u3⟩ := h1 hc
    rw [u1] at h
    simp only [R.ok.injEq, Except.ok.injEq] at h
    subst h
    exact ⟨u2, u3⟩
  | false => rw [h2 hc] at h; simp at h

theorem build_plain {lib : GoLib} {key src : Str} {op : TagOp} {t : TTerm}
    (hop : op = .eq ∨ op = .ne) (hw : hasWildcard src = false)
    (h : TTerm.build lib { key := key, op := op, value := src } = .ok (.ok t)) :
    t.id = (key, op, src) ∧ ∀ v, t.matches lib v = .ok (decide (v = src) == decide (op = .eq)) := by
  obtain ⟨u, u1, u2, u3⟩ := C22.plain_term lib key src op hop hw
  rw [u1] at h
  simp only [R.ok.injEq, Except.ok.injEq] at h
  subst h
  exact ⟨u2, u3⟩

theorem op_cases (op : TagOp) : (op = .eq ∨ op = .ne) ∨ (op = .mt ∨ op = .nm) := by
  cases op <;> simp

theorem build_glob {lib : GoLib} {key : Str} {op : TagOp} {t : TTerm} {ts : List Tok}
    (hop : op = .eq ∨ op = .ne) (hg : TagGlobGood ts)
    (h : TTerm.build lib { key := key, op := op, value := utf8 (renderGlob ts) } = .ok (.ok t)) :
    (∃ g, GlobOk ts g ∧ t.id = (key, op, g.node)) ∧
      ∀ cs : List Char, (∀ c ∈ cs, c.toNat ≠ 0xFFFD) →
        ∃ b, t.matches lib (utf8 cs) = .ok b ∧ (b = true ↔ (Fits ts cs ↔ op = .eq)) := by
  constructor
  · obtain ⟨g, hp, hG⟩ := parse_spec ts hg.ok
    refine ⟨g, hG, ?_⟩
    unfold TTerm.build at h
    rw [if_neg (by rcases hop with rfl | rfl <;> simp)] at h
    by_cases hw : hasWildcard (utf8 (renderGlob ts)) = true
    · rw [if_pos hw] at h
      dsimp only at h
      rw [hp, R.bind_ok] at h
      dsimp only at h
      split at h
      · simp only [R.ok.injEq, Except.ok.injEq] at h
        subst h; rfl
      · simp only [R.ok.injEq, Except.ok.injEq] at h
        subst h; rfl
    · rw [if_neg hw] at h
      simp only [R.ok.injEq, Except.ok.injEq] at h
      subst h
      have : indexWildcard (utf8 (renderGlob ts)) = none := by
        simp only [hasWildcard] at hw
        revert hw
        unfold indexWildcard
        generalize utf8 (renderGlob ts) = s
        intro hw
        induction s with
        | nil => rfl
        | cons c s ih =>
          simp only [List.any_cons, Bool.or_eq_true, not_or] at hw
          rw [indexP, if_neg hw.1, ih hw.2]
          rfl
      unfold parseGlob at hp
      rw [this] at hp
      simp only [R.ok.injEq, Except.ok.injEq] at hp
      subst hp
      rfl
  · obtain ⟨u, u1, _, _, u4⟩ := C22.glob_term_partial lib key op hop ts hg.ok hg.shape hg.max
    rw [u1] at h
    simp only [R.ok.injEq, Except.ok.injEq] at h
    subst h
    exact fun cs hcs => u4 cs (.inr hcs)

/-- Good terms answer on values that are valid UTF-8 without U+FFFD, and equal terms agree. -/
theorem termGood_same {lib : GoLib} {t u : TTerm} (ht : TermGood lib t) (hu : TermGood lib u)
    (cs : List Char) (hcs : ∀ c ∈ cs, c.toNat ≠ 0xFFFD) :
    (∃ b, t.matches lib (utf8 cs) = .ok b) ∧
      (t.id = u.id → t.matches lib (utf8 cs) = u.matches lib (utf8 cs)) := by
  obtain ⟨k, op, src, h1, h2⟩ := ht
  obtain ⟨k', op', src', h1', h2'⟩ := hu
  rcases op_cases op with hop | hop
  · obtain ⟨ts, hg, rfl⟩ := h2 hop
    obtain ⟨⟨g, hG, hid⟩, hm⟩ := build_glob hop hg h1
    obtain ⟨b, hb, hb'⟩ := hm cs hcs
    refine ⟨⟨b, hb⟩, fun he => ?_⟩
    rcases op_cases op' with hop' | hop'
    · obtain ⟨us, hg', rfl⟩ := h2' hop'
      obtain ⟨⟨g', hG', hid'⟩, hm'⟩ := build_glob hop' hg' h1'
      obtain ⟨c, hc, hc'⟩ := hm' cs hcs
      rw [hid, hid'] at he
      simp only [Prod.mk.injEq] at he
      obtain ⟨_, rfl, hn⟩ := he
      obtain ⟨a, a1, a2, a3, _⟩ := hG.text hg.ok hg.tidy
      obtain ⟨d, d1, d2, d3, _⟩ := hG'.text hg'.ok hg'.tidy
      rw [a2, d2] at hn
      have hfit : Fits ts cs ↔ Fits us cs := by
        rw [← a3, ← d3, renderGlob_inj a1 d1 (utf8_inj hn)]
      rw [hb, hc, R.ok.injEq, Bool.eq_iff_iff, hb', hc', hfit]
    · have := (build_regexp hop' h1').1
      rw [hid, this] at he
      simp only [Prod.mk.injEq] at he
      obtain ⟨_, rfl, _⟩ := he
      rcases hop with rfl | rfl <;> rcases hop' with h | h <;> cases h
  · obtain ⟨hid, hm⟩ := build_regexp hop h1
    refine ⟨⟨_, hm _⟩, fun he => ?_⟩
    rcases op_cases op' with hop' | hop'
    · obtain ⟨us, hg', rfl⟩ := h2' hop'
      obtain ⟨⟨g', hG', hid'⟩, hm'⟩ := build_glob hop' hg' h1'
      rw [hid, hid'] at he
      simp only [Prod.mk.injEq] at he
      obtain ⟨_, rfl, _⟩ := he
      rcases hop with rfl | rfl <;> rcases hop' with h | h <;> cases h
    · obtain ⟨hid', hm'⟩ := build_regexp hop' h1'
      rw [hid, hid'] at he
      simp only [Prod.mk.injEq] at he
      obtain ⟨_, rfl, rfl⟩ := he
      rw [hm, hm']

/-- Terms without globs answer on all byte strings, and equal terms agree. -/
theorem termPlain_same {lib : GoLib} {t u : TTerm} (ht : TermPlain lib t) (hu : TermPlain lib u)
    (v : Str) :
    (∃ b, t.matches lib v = .ok b) ∧ (t.id = u.id → t.matches lib v = u.matches lib v) := by
  have key : ∀ t, TermPlain lib t → ∃ k op src, t.id = (k, op, src) ∧ t.matches lib v =
      .ok (if op = .eq ∨ op = .ne then decide (v = src) == decide (op = .eq)
        else lib.reMatch src v == decide (op = .mt)) := by
    rintro t ⟨k, op, src, h1, h2⟩
    rcases op_cases op with hop | hop
    · obtain ⟨h3, h4⟩ := build_plain hop (h2 hop) h1
      exact ⟨k, op, src, h3, by rw [h4, if_pos hop]⟩
    · obtain ⟨h3, h4⟩ := build_regexp hop h1
      refine ⟨k, op, src, h3, ?_⟩
      rw [h4, if_neg]
      rcases hop with rfl | rfl <;> simp
  obtain ⟨k, op, src, h1, h2⟩ := key t ht
  obtain ⟨k', op', src', h1', h2'⟩ := key u hu
  refine ⟨⟨_, h2⟩, fun he => ?_⟩
  rw [h1, h1'] at he
  simp only [Prod.mk.injEq] at he
  obtain ⟨_, rfl, rfl⟩ := he
  rw [h2, h2']

/-- Queries whose conditions are regular expressions or globs of the shapes for which `Glob.Match`
is exact: no further hypothesis on the queries.  Full statement: see `map_exact_partial`. -/
theorem written_partial (lib : GoLib) (adds : List (Str × Int))
    (hq : ∀ a ∈ adds, QueryHas lib (TermGood lib) a.1) :
    ∃ t L, runAdds lib {} [] adds = .ok (t, L) ∧ ∀ tags : GoMap Str Str, tags.length ≠ 0 →
      (∀ k v, tags.get k = some v → ∃ cs : List Char, v = utf8 cs ∧ ∀ c ∈ cs, c.toNat ≠ 0xFFFD) →
      ∃ evs, t.matchByTagsMap lib tags = .ok (evs, evs.length) ∧
        evs.Perm ((L.filter fun x => !x.1.isEmpty &&
          decide (GoMatcher.matchByTagsMap lib x.1 tags = .ok true)).map
            fun x => (termsText x.1, x.2)) := by
  obtain ⟨t, L, hr, hm⟩ := map_exact_partial lib adds (fun a ha ts hts u hu => (hq a ha ts hts u hu).1)
  refine ⟨t, L, hr, fun tags h0 hv => hm tags h0 ?_⟩
  have good : ∀ x ∈ L, ∀ u ∈ x.1, TermGood lib u := by
    intro x hx u hu
    rcases accepted_mem lib adds _ _ _ _ hr x hx with h | ⟨q, h1, h2⟩
    · simp at h
    · exact (hq _ h1 _ h2 u hu).2
  refine ⟨?_, ?_⟩
  · intro x hx u hu v hg
    obtain ⟨cs, rfl, hcs⟩ := hv _ _ hg
    exact (termGood_same (good x hx u hu) (good x hx u hu) cs hcs).1
  · intro x hx y hy u hu w hw he v hg
    obtain ⟨cs, rfl, hcs⟩ := hv _ _ hg
    exact (termGood_same (good x hx u hu) (good y hy w hw) cs hcs).2 he

/-- Queries without globs: all tags, any bytes.  Full statement: see `map_exact_partial`. -/
theorem plain_partial (lib : GoLib) (adds : List (Str × Int))
    (hq : ∀ a ∈ adds, QueryHas lib (TermPlain lib) a.1) :
    ∃ t L, runAdds lib {} [] adds = .ok (t, L) ∧ ∀ tags : GoMap Str Str, tags.length ≠ 0 →
      ∃ evs, t.matchByTagsMap lib tags = .ok (evs, evs.length) ∧
        evs.Perm ((L.filter fun x => !x.1.isEmpty &&
          decide (GoMatcher.matchByTagsMap lib x.1 tags = .ok true)).map
            fun x => (termsText x.1, x.2)) := by
  obtain ⟨t, L, hr, hm⟩ := map_exact_partial lib adds (fun a ha ts hts u hu => (hq a ha ts hts u hu).1)
  refine ⟨t, L, hr, fun tags h0 => hm tags h0 ?_⟩
  have good : ∀ x ∈ L, ∀ u ∈ x.1, TermPlain lib u := by
    intro x hx u hu
    rcases accepted_mem lib adds _ _ _ _ hr x hx with h | ⟨q, h1, h2⟩
    · simp at h
    · exact (hq _ h1 _ h2 u hu).2
  refine ⟨?_, ?_⟩
  · intro x hx u hu v _
    exact (termPlain_same (good x hx u hu) (good x hx u hu) v).1
  · intro x hx y hy u hu w hw he v _
    exact (termPlain_same (good x hx u hu) (good y hy w hw) v).2 he

/-- The hypothesis of `written_partial` in terms of the written conditions. -/
theorem queryHas_good (lib : GoLib) (q : Str) (cs : List Str)
    (hq : seriesByTagArgs q 128 = .ok (.ok cs))
    (hc : ∀ c ∈ cs, ∃ key op src, parseCondition c = .ok { key := key, op := op, value := src } ∧
      key ≠ [] ∧ (op = .eq ∨ op = .ne → ∃ ts, TagGlobGood ts ∧ src = utf8 (renderGlob ts))) :
    QueryHas lib (TermGood lib) q := by
  intro ts hts t ht
  obtain ⟨c, h1, cs', h2, h3⟩ := (parseSeriesByTag_inv hts).2.2 t ht
  rw [hq] at h2
  simp only [R.ok.injEq, Except.ok.injEq] at h2
  subst h2
  obtain ⟨key, op, src, e1, e2, e3⟩ := hc c h3
  unfold termOf at h1
  rw [e1] at h1
  dsimp only at h1
  have := (build_spec h1).1
  exact ⟨by rw [this]; exact e2, key, op, src, h1, e3⟩

/-- The hypothesis of `plain_partial` in terms of the written conditions. -/
theorem queryHas_plain (lib : GoLib) (q : Str) (cs : List Str)
    (hq : seriesByTagArgs q 128 = .ok (.ok cs))
    (hc : ∀ c ∈ cs, ∃ key op src, parseCondition c = .ok { key := key, op := op, value := src } ∧
      key ≠ [] ∧ (op = .eq ∨ op = .ne → hasWildcard src = false)) :
    QueryHas lib (TermPlain lib) q := by
  intro ts hts t ht
  obtain ⟨c, h1, cs', h2, h3⟩ := (parseSeriesByTag_inv hts).2.2 t ht
  rw [hq] at h2
  simp only [R.ok.injEq, Except.ok.injEq] at h2
  subst h2
  obtain ⟨key, op, src, e1, e2, e3⟩ := hc c h3
  unfold termOf at h1
  rw [e1] at h1
  dsimp only at h1
  have := (build_spec h1).1
  exact ⟨by rw [this]; exact e2, key, op, src, h1, e3⟩

-- The hypothesis holds for `seriesByTag('name=c[0-9]*', 'dc!=~m')`.
example : QueryHas exLib (TermGood exLib) (b!"seriesByTag('name=c[0-9]*', 'dc!=~m')") := by
  refine queryHas_good exLib _ [b!"name=c[0-9]*", b!"dc!=~m"] (by decide +kernel) ?_
  simp only [List.mem_cons, List.not_mem_nil, or_false, forall_eq_or_imp, forall_eq]
  refine ⟨⟨nameKey, .eq, b!"c[0-9]*", rfl, by decide, fun _ => ?_⟩,
    ⟨b!"dc", .nm, b!"m", rfl, by decide, by simp⟩⟩
  exact ⟨[.sub (.lit 'c'), .sub (.cls [.range '0' '9']), .sub .star],
    ⟨by decide +kernel, by decide +kernel, by decide +kernel, by decide +kernel⟩,
    by decide +kernel⟩
example : QueryHas exLib (TermPlain exLib) (b!"seriesByTag('name=cpu', 'dc!=~m')") := by
  refine queryHas_plain exLib _ [b!"name=cpu", b!"dc!=~m"] (by decide +kernel) ?_
  simp only [List.mem_cons, List.not_mem_nil, or_false, forall_eq_or_imp, forall_eq]
  exact ⟨⟨nameKey, .eq, b!"cpu", rfl, by decide, fun _ => by decide⟩,
    ⟨b!"dc", .nm, b!"m", rfl, by decide, by simp⟩⟩
/-- The reported calls of a run, as far as it succeeds. -/
def reportMap (adds : List (Str × Int)) (tags : GoMap Str Str) : Option (Events × Nat) :=
  match runAdds exLib {} [] adds with
  | .ok (t, _) =>
    match t.matchByTagsMap exLib tags with
    | .ok r => some r
    | _ => none
  | _ => none

-- Four queries that share nodes; three match.
example : reportMap [(b!"seriesByTag('name=cpu*', 'dc!=x')", 1), (b!"seriesByTag('name=cpu*')", 2),
    (b!"seriesByTag('dc=m', 'host=~web')", 3), (b!"seriesByTag('dc!=m', 'name=cpu*')", 4)]
    [(nameKey, b!"cpu_load"), (b!"host", b!"web1"), (b!"dc", b!"m")] =
    some ([(b!"seriesByTag('dc=m','host=~web')", 3), (b!"seriesByTag('__name__=cpu*')", 2),
      (b!"seriesByTag('__name__=cpu*','dc!=x')", 1)], 3) := by decide +kernel

/-- The code violates the full claim: `a=x[*]y` is stored under the text `x*y`, so a later `a=x*y`
uses its comparison. -/
theorem shared_term_wrong :
    reportMap [(b!"seriesByTag('a=x*y')", 2)] [(b!"a", b!"x0y")] =
      some ([(b!"seriesByTag('a=x*y')", 2)], 1) ∧
    reportMap [(b!"seriesByTag('a=x[*]y', 'b=c')", 1), (b!"seriesByTag('a=x*y')", 2)]
      [(b!"a", b!"x0y")] = some ([], 0) := by decide +kernel

/-- A query without conditions matches every tag list but is never reported. -/
theorem empty_query_wrong :
    queryMap exLib (b!"seriesByTag()") [(b!"a", b!"x")] = .ok (.ok true) ∧
    reportMap [(b!"seriesByTag()", 1)] [(b!"a", b!"x")] = some ([], 0) := by decide +kernel

/-- A condition with an empty key is filed under the key of another group. -/
theorem empty_key_wrong :
    queryMap exLib (b!"seriesByTag(' =x')") [(b!"b", b!"x")] = .ok (.ok false) ∧
    reportMap [(b!"seriesByTag('a=1')", 1), (b!"seriesByTag('b=1')", 2), (b!"seriesByTag(' =x')", 3)]
      [(b!"b", b!"x")] = some ([(b!"seriesByTag('=x')", 3)], 1) := by decide +kernel

end C25

end GoMatcher
