import Verif.Props.C52_Queries
import Verif.Props.C26_C29_TagTree

/-! # C24, C25 and C29 for query texts

The queries are described by `Spec/Query`, not by the parser. -/

namespace GoMatcher

/-! ## C24 -/

namespace C24

/-- What the parser does with a query text. -/
theorem parse_text (lib : GoLib) {q : Str} {cs : List Str} (h : QueryText q cs) :
    (cs.length ≤ 128 → parseSeriesByTag lib q = parseConditions lib cs) ∧
    (128 < cs.length → ∃ e, parseSeriesByTag lib q = .ok (.error e)) := by
  constructor
  · intro hl
    unfold parseSeriesByTag
    rw [(args_iff _ _ _).2 ⟨h, hl⟩]
    rfl
  · intro hl
    refine (C52.accepted_iff lib q).2.2 ?_
    rintro ⟨cs', h1, h2, _⟩
    rw [C52.conditions_unique h h1] at hl
    omega

/-- Two query texts whose conditions are the same up to order, whatever quotes, blanks, commas and empty
texts stand between them: both are refused, or their terms agree. -/
theorem text_order_independent (lib : GoLib) (q q' : Str) (cs cs' : List Str)
    (h : QueryText q cs) (h' : QueryText q' cs') (hp : cs.Perm cs') :
    ((∃ e, parseSeriesByTag lib q = .ok (.error e)) ∧
      (∃ e, parseSeriesByTag lib q' = .ok (.error e))) ∨
    ∃ ts ts', parseSeriesByTag lib q = .ok (.ok ts) ∧ parseSeriesByTag lib q' = .ok (.ok ts') ∧
      ts.Perm ts' ∧ ts.map TTerm.id = ts'.map TTerm.id ∧ termsText ts = termsText ts' ∧
      ts.Pairwise (fun a b => TTerm.less b a = false) := by
  by_cases hl : cs.length ≤ 128
  · rw [(parse_text lib h).1 hl, (parse_text lib h').1 (by rw [← hp.length_eq]; exact hl)]
    exact order_independent lib cs cs' hp
  · exact .inl ⟨(parse_text lib h).2 (by omega),
      (parse_text lib h').2 (by rw [← hp.length_eq]; omega)⟩

/-- `exQuery` with the conditions in another order and other separators. -/
def exSwapped : Str := b!"seriesByTag('d=e~' ' b !=~ c','name=a*')"

theorem exSwapped_text : QueryText exSwapped [b!"d=e~", b!" b !=~ c", b!"name=a*"] :=
  ((args_iff exSwapped 128 _).1 (by decide +kernel)).1

example : C52.exConds.Perm [b!"d=e~", b!" b !=~ c", b!"name=a*"] ∧
    normalQuery exLib exSwapped = normalQuery exLib C52.exQuery := by decide +kernel

end C24

/-! ## C29 -/

namespace C29

/-- The conditions of an accepted query all have a key iff no condition text has a blank in front of its
operator only. -/
theorem hasKeys_iff (lib : GoLib) (q : Str) (cs : List Str) (h : QueryText q cs)
    (ha : ∃ ts, parseSeriesByTag lib q = .ok (.ok ts)) :
    HasKeys lib q ↔ ∀ c ∈ cs, ∀ op v, ¬ CondText c [] op v := by
  obtain ⟨ts, hts⟩ := ha
  obtain ⟨_, cs', us, h1, h2, h3, h4⟩ := C52.terms_stand lib q ts hts
  have := C52.conditions_unique h h1
  subst this
  constructor
  · intro hk c hc op v hv
    obtain ⟨t, ht, hz⟩ := C52.zip_left h3 hc
    obtain ⟨v', hv', _⟩ := h4 _ hz
    exact hk ts hts t (h2.mem_iff.2 ht) (C52.condition_unique hv hv').1.symm
  · intro hn ts' hts' t ht e
    rw [hts] at hts'
    simp only [R.ok.injEq, Except.ok.injEq] at hts'
    subst hts'
    obtain ⟨c, hc, hz⟩ := C52.zip_right h3 (h2.mem_iff.1 ht)
    obtain ⟨v, hv, _⟩ := h4 _ hz
    dsimp only at hv
    rw [e] at hv
    exact hn c hc _ _ hv

/-- No text, whatever its bytes, makes `Add` panic on any tree, except an accepted query one of
whose conditions has only white space in front of its operator.  Full statement (not true of the
code): without the hypothesis; see `first_add_panics_iff`. -/
theorem add_text_partial (lib : GoLib) (t : GTagsTree) (q : Str) (i : Int)
    (hn : ∀ cs, QueryText q cs → ∀ c ∈ cs, ∀ op v, ¬ CondText c [] op v) :
    ∃ t' r, t.add lib q i = .ok (t', r) := by
  apply add_total_partial
  intro ts hts
  obtain ⟨cs, h1, _⟩ := (C52.accepted_iff lib q).1.1 ⟨ts, hts⟩
  exact (hasKeys_iff lib q cs h1 ⟨ts, hts⟩).2 (hn cs h1) ts hts

/-- In fresh nodes a term without a key panics. -/
theorem parseItems_panics (e : Option (Str × Int)) (ts : List TTerm) (h : ∃ t ∈ ts, t.key = []) :
    parseItems e ts [] = .panic := by
  induction ts with
  | nil => simp at h
  | cons t ts ih =>
    rw [parseItems]
    by_cases ht : t.key = []
    · rw [findOrAppend, if_pos ht, R.bind_ok]
      rfl
    · rw [findOrAppend, if_neg ht]
      dsimp only
      rw [R.bind_ok]
      have hts : ∃ t ∈ ts, t.key = [] := by
        obtain ⟨u, hu, e⟩ := h
        rcases List.mem_cons.1 hu with rfl | hu
        · exact absurd e ht
        · exact ⟨u, hu, e⟩
      have hne : ts.isEmpty = false := by
        obtain ⟨u, hu, _⟩ := hts
        cases ts with
        | nil => simp at hu
        | cons => rfl
      have : insertTerm (TItem.descend ts.isEmpty e (parseItems e ts)) t [] = .panic := by
        rw [insertTerm, TItem.descend, hne]
        simp only [Bool.false_eq_true, if_false, TItem.items, ih hts]
        rfl
      dsimp only [List.getElem?_cons_zero]
      split <;> rw [this] <;> rfl

/-- Exactly which queries panic when added to an empty tree: the accepted ones in which a
condition has only white space in front of its operator. -/
theorem first_add_panics_iff (lib : GoLib) (q : Str) (i : Int) (hi : 0 ≤ i) :
    ({} : GTagsTree).add lib q i = .panic ↔
      (∃ ts, parseSeriesByTag lib q = .ok (.ok ts)) ∧
      ∃ cs, QueryText q cs ∧ ∃ c ∈ cs, ∃ op v, CondText c [] op v := by
  constructor
  · intro h
    have hnk : ¬ HasKeys lib q := by
      intro hk
      obtain ⟨t', r, h'⟩ := add_total_partial lib {} q i hk
      rw [h] at h'
      simp at h'
    have hacc : ∃ ts, parseSeriesByTag lib q = .ok (.ok ts) := by
      obtain ⟨r, hr⟩ := parseSeriesByTag_total lib q
      cases r with
      | ok ts => exact ⟨ts, hr⟩
      | error e =>
        exact absurd (fun ts hts => by rw [hr] at hts; simp at hts) hnk
    obtain ⟨cs, h1, _⟩ := (C52.accepted_iff lib q).1.1 hacc
    refine ⟨hacc, cs, h1, ?_⟩
    rw [hasKeys_iff lib q cs h1 hacc] at hnk
    exact Classical.byContradiction fun hn =>
      hnk fun c hc op v hv => hn ⟨c, hc, op, v, hv⟩
  · rintro ⟨⟨ts, hts⟩, cs, h1, c, hc, op, v, hv⟩
    have hnk : ¬ HasKeys lib q := fun hk => (hasKeys_iff lib q cs h1 ⟨ts, hts⟩).1 hk c hc op v hv
    have hex : ∃ t ∈ ts, t.key = [] := by
      refine Classical.byContradiction fun hn => hnk fun ts' hts' t ht e => hn ?_
      rw [hts] at hts'
      simp only [R.ok.injEq, Except.ok.injEq] at hts'
      subst hts'
      exact ⟨t, ht, e⟩
    have hq : q ≠ [] := by
      rintro rfl
      obtain ⟨m, n, s, e, _⟩ := h1
      have := congrArg List.length e
      simp [List.length_append] at this
    unfold GTagsTree.add
    rw [if_neg hq, if_neg (by omega)]
    simp only [GoMap.get]
    rw [hts, R.bind_ok]
    dsimp only
    cases ts with
    | nil => simp at hex
    | cons u us =>
      dsimp only
      rw [parseItems_panics _ _ hex]
      rfl

example : QueryText (b!"seriesByTag('a=b', \" =x\")") [b!"a=b", b!" =x"] ∧
    CondText (b!" =x") [] .eq (b!"x") ∧
    panics (({} : GTagsTree).add exLib (b!"seriesByTag('a=b', \" =x\")") 7) = true :=
  ⟨((args_iff _ 128 _).1 (by decide +kernel)).1, (condText_iff _ _ _ _).2 (by rfl), by decide +kernel⟩

end C29

/-! ## C25 -/

namespace C25

/-- The glob text `v` has a reading for which `Glob.Match` is exact (C01) and the normal form says
what the glob means (C07). -/
def GlobClear (v : Str) : Prop :=
  ∃ g ts, v = utf8 g ∧ (∀ c ∈ g, c.toNat ≠ 0xFFFD ∧ c.toNat ≠ 0) ∧ Reading g ts ∧
    Shape true .plain ts ∧ MaxOk ts ∧ (∀ t ∈ ts, t.Ok) ∧ ∀ t ∈ ts, t.Tidy

theorem GlobClear.fine {v : Str} (h : GlobClear v) : C52.GlobFine v := by
  obtain ⟨g, ts, h1, h2, h3, h4, h5, _⟩ := h
  exact ⟨g, ts, h1, h2, h3, h4, h5⟩

/-- All conditions of the query have a key, and their globs are clear. -/
def QueryClear (q : Str) : Prop :=
  ∀ cs, QueryText q cs → ∀ c ∈ cs, ∀ k op v, CondText c k op v →
    k ≠ [] ∧ (op = .eq ∨ op = .ne → GlobClear v)

/-- Clear globs with the same normal form mean the same. -/
theorem clear_same {v v' : Str} {g g' : Glob} (h : GlobClear v) (h' : GlobClear v')
    (hg : parseGlob v = .ok (.ok g)) (hg' : parseGlob v' = .ok (.ok g')) (hn : g.node = g'.node) :
    ∃ w w' ts us, v = utf8 w ∧ v' = utf8 w' ∧ PlainText w ∧ PlainText w' ∧ GlobOk ts g ∧
      GlobOk us g' ∧ ∀ cs, Fits ts cs ↔ Fits us cs := by
  obtain ⟨w, ts, rfl, h2, h3, _, _, h4, h5⟩ := h
  obtain ⟨w', us, rfl, k2, k3, _, _, k4, k5⟩ := h'
  have hG := h3.globOk h2 hg
  have hG' := k3.globOk k2 hg'
  obtain ⟨a, a1, a2, a3, _⟩ := hG.text h4 h5
  obtain ⟨d, d1, d2, d3, _⟩ := hG'.text k4 k5
  rw [a2, d2] at hn
  refine ⟨w, w', ts, us, rfl, rfl, h2, k2, hG, hG', fun cs => ?_⟩
  rw [← a3, ← d3, renderGlob_inj a1 d1 (utf8_inj hn)]

/-- Terms of clear conditions with the same key, operator and stored value ask the same. -/
theorem stands_same {lib : GoLib} {c c' : Str} {t u : TTerm} (h : C52.Stands c t) (h' : C52.Stands c' u)
    (hc : ∀ k op v, CondText c k op v → op = .eq ∨ op = .ne → GlobClear v)
    (hc' : ∀ k op v, CondText c' k op v → op = .eq ∨ op = .ne → GlobClear v)
    (hid : t.id = u.id) {cs : List Char} (hcs : C52.NoClassIn c ∧ C52.NoClassIn c' ∨ ∀ c ∈ cs, c.toNat ≠ 0xFFFD) :
    t.matches lib (utf8 cs) = u.matches lib (utf8 cs) := by
  obtain ⟨b, hb, hb'⟩ := C52.stands_matches (lib := lib) h (fun k op v hv ho => (hc k op v hv ho).fine)
    (hcs.imp And.left id)
  obtain ⟨d, hd, hd'⟩ := C52.stands_matches (lib := lib) h' (fun k op v hv ho => (hc' k op v hv ho).fine)
    (hcs.imp And.right id)
  simp only [TTerm.id, Prod.mk.injEq] at hid
  obtain ⟨i1, i2, i3⟩ := hid
  obtain ⟨v, hv, hx⟩ := h
  obtain ⟨v', hv', hx'⟩ := h'
  rw [hb, hd, R.ok.injEq, Bool.eq_iff_iff, hb' v hv, hd' v' hv', ← i2]
  rcases hx with ⟨ho, e1, _⟩ | ⟨ho, g, hg, e1, _⟩
  · rcases hx' with ⟨_, e2, _⟩ | ⟨ho', _⟩
    · rw [← e1, ← e2, i3]
    · rw [← i2] at ho'
      rcases ho with ho | ho <;> rw [ho] at ho' <;> simp at ho'
  · rcases hx' with ⟨ho', _⟩ | ⟨ho', g', hg', e2, _⟩
    · rw [← i2] at ho'
      rcases ho with ho | ho <;> rw [ho] at ho' <;> simp at ho'
    · rw [e1, e2] at i3
      obtain ⟨w, w', ts, us, rfl, rfl, p, p', hG, hG', hs⟩ :=
        clear_same (hc _ _ _ hv ho) (hc' _ _ _ hv' ho') hg hg' i3
      have hno : ¬ (t.op = .mt ∨ t.op = .nm) := by
        rcases ho with h | h <;> simp [h]
      have one : ∀ {w : List Char} {ts : List Tok} {g : Glob}, PlainText w → GlobOk ts g →
          parseGlob (utf8 w) = .ok (.ok g) → (∃ us, Reading w us) →
          (C52.ValueFits lib t.op (utf8 w) (utf8 cs) ↔ (Fits ts cs ↔ t.op = .eq)) := by
        intro w ts g p hG hg ⟨us, hr⟩
        constructor
        · intro hf
          rw [hG.unique (hr.globOk p hg) cs]
          exact hf.2 ho w us cs rfl hr rfl
        · intro hf
          refine ⟨fun e => absurd e hno, fun _ w' us cs' e1 e2 e3 => ?_⟩
          have := utf8_inj e1
          subst this
          have := utf8_inj e3
          subst this
          rw [← hf]
          exact (e2.globOk p hg).unique hG cs
      have r1 : ∃ us, Reading w us := by
        obtain ⟨w2, us, e, _, hr, _⟩ := hc _ _ _ hv ho
        rw [utf8_inj e]
        exact ⟨us, hr⟩
      have r2 : ∃ us, Reading w' us := by
        obtain ⟨w2, us, e, _, hr, _⟩ := hc' _ _ _ hv' ho'
        rw [utf8_inj e]
        exact ⟨us, hr⟩
      rw [one p hG hg r1, one p' hG' hg' r2, hs]

/-- From the texts of the queries to the reports: the batch search reports an accepted query with
conditions if and only if all its conditions hold, each once, and counts them.  Full statement (not
true of the code): for all queries; see `shared_term_wrong`, `empty_query_wrong`,
`empty_key_wrong`, and C01 for globs.  Missing: unclear globs, U+FFFD in globs, and U+FFFD in
tags if some glob has a class. -/
theorem text_partial (lib : GoLib) (adds : List (Str × Int)) (hq : ∀ a ∈ adds, QueryClear a.1) :
    ∃ t L, runAdds lib {} [] adds = .ok (t, L) ∧
      ∃ src : List TTerm × Int → Str,
        (∀ x ∈ L, (src x, x.2) ∈ adds ∧ parseSeriesByTag lib (src x) = .ok (.ok x.1)) ∧
        ∀ tags : GoMap Str Str, tags.length ≠ 0 →
          (∀ k v, tags.get k = some v → ∃ cs : List Char, v = utf8 cs ∧
            ((∀ a ∈ adds, ∀ ds, QueryText a.1 ds → ∀ d ∈ ds, C52.NoClassIn d) ∨
              ∀ c ∈ cs, c.toNat ≠ 0xFFFD)) →
          ∃ R : List (List TTerm × Int), R.Sublist L ∧
            (∀ x ∈ L, x ∈ R ↔ x.1 ≠ [] ∧
              ∀ cs, QueryText (src x) cs → ∀ c ∈ cs, C52.CondHolds lib tags c) ∧
            ∃ evs, t.matchByTagsMap lib tags = .ok (evs, evs.length) ∧
              evs.Perm (R.map fun x => (termsText x.1, x.2)) := by
  have hterm : ∀ a ∈ adds, ∀ ts, parseSeriesByTag lib a.1 = .ok (.ok ts) →
      ∀ t ∈ ts, ∃ cs, QueryText a.1 cs ∧ ∃ c ∈ cs, C52.Stands c t := by
    intro a ha ts hts t ht
    obtain ⟨_, cs, us, h1, h2, h3, h4⟩ := C52.terms_stand lib a.1 ts hts
    obtain ⟨c, hc, hz⟩ := C52.zip_right h3 (h2.mem_iff.1 ht)
    exact ⟨cs, h1, c, hc, h4 _ hz⟩
  obtain ⟨t, L, hr, hm⟩ := map_exact_partial lib adds (by
    intro a ha ts hts u hu
    obtain ⟨cs, h1, c, hc, v, hv, _⟩ := hterm a ha ts hts u hu
    exact (hq a ha cs h1 c hc _ _ _ hv).1)
  have hsrc : ∀ x : List TTerm × Int, ∃ q, x ∈ L →
      (q, x.2) ∈ adds ∧ parseSeriesByTag lib q = .ok (.ok x.1) := by
    intro x
    by_cases hx : x ∈ L
    · rcases accepted_mem lib adds _ _ _ _ hr x hx with h | ⟨q, h⟩
      · simp at h
      · exact ⟨q, fun _ => h⟩
    · exact ⟨[], fun h => absurd h hx⟩
  have hsrc' : ∀ x ∈ L, (Classical.choose (hsrc x), x.2) ∈ adds ∧
      parseSeriesByTag lib (Classical.choose (hsrc x)) = .ok (.ok x.1) :=
    fun x hx => Classical.choose_spec (hsrc x) hx
  refine ⟨t, L, hr, fun x => Classical.choose (hsrc x), hsrc', fun tags h0 hv => ?_⟩
  generalize hS : (fun x => Classical.choose (hsrc x)) = src at hsrc'
  have hsrc2 : ∀ x ∈ L, (src x, x.2) ∈ adds ∧ parseSeriesByTag lib (src x) = .ok (.ok x.1) := by
    intro x hx
    rw [← hS]
    exact hsrc' x hx
  have hst : ∀ x ∈ L, ∀ u ∈ x.1, ∃ c, C52.Stands c u ∧
      ((∀ a ∈ adds, ∀ ds, QueryText a.1 ds → ∀ d ∈ ds, C52.NoClassIn d) → C52.NoClassIn c) ∧
      ∀ k op v, CondText c k op v → op = .eq ∨ op = .ne → GlobClear v := by
    intro x hx u hu
    obtain ⟨h1, h2⟩ := hsrc2 x hx
    obtain ⟨cs, h3, c, hc, h4⟩ := hterm _ h1 _ h2 u hu
    exact ⟨c, h4, fun h => h _ h1 cs h3 c hc, fun k op v hv => (hq _ h1 cs h3 c hc k op v hv).2⟩
  have hF : TagsFaithful lib L tags := by
    refine ⟨?_, ?_⟩
    · intro x hx u hu v hg
      obtain ⟨cs, rfl, hcs⟩ := hv _ _ hg
      obtain ⟨c, h1, hn, h2⟩ := hst x hx u hu
      obtain ⟨b, hb, _⟩ := C52.stands_matches (lib := lib) h1 (fun k op v hv ho => (h2 k op v hv ho).fine)
        (hcs.imp hn id)
      exact ⟨b, hb⟩
    · intro x hx y hy u hu w hw he v hg
      obtain ⟨cs, rfl, hcs⟩ := hv _ _ hg
      obtain ⟨c, h1, hn, h2⟩ := hst x hx u hu
      obtain ⟨c', h1', hn', h2'⟩ := hst y hy w hw
      exact stands_same h1 h1' h2 h2' he (hcs.imp (fun h => ⟨hn h, hn' h⟩) id)
  obtain ⟨evs, he, hp⟩ := hm tags h0 hF
  refine ⟨_, List.filter_sublist, ?_, evs, he, hp⟩
  intro x hx
  obtain ⟨h1, h2⟩ := hsrc2 x hx
  obtain ⟨cs, h3, h4, h5⟩ := (C52.accepted_iff lib (src x)).1.1 ⟨_, h2⟩
  obtain ⟨b, hb, hb'⟩ := C52.meaning_partial lib (src x) cs h3 h4 (fun c hc => by
      obtain ⟨k, op, v, e1, e2, _⟩ := h5 c hc
      exact ⟨k, op, v, e1, e2⟩)
    (fun c hc k op v hv ho => ((hq _ h1 cs h3 c hc k op v hv).2 ho).fine) tags
    (fun k v h => by
      obtain ⟨w, e, h'⟩ := hv k v h
      exact ⟨w, e, h'.imp (fun h => h _ h1 cs h3) id⟩)
  have hb2 : GoMatcher.matchByTagsMap lib x.1 tags = .ok b := by
    unfold queryMap at hb
    rw [h2, R.bind_ok] at hb
    dsimp only at hb
    obtain ⟨b', h6, h7⟩ := R.bind_eq_ok.1 hb
    simp only [R.ok.injEq, Except.ok.injEq] at h7
    rw [h6, h7]
  rw [List.mem_filter]
  simp only [hx, true_and, Bool.and_eq_true, Bool.not_eq_true', List.isEmpty_eq_false_iff,
    decide_eq_true_eq, hb2, R.ok.injEq, hb', ne_eq]
  constructor
  · rintro ⟨a, h⟩
    exact ⟨a, fun cs' h6 => by rw [C52.conditions_unique h6 h3]; exact h⟩
  · rintro ⟨a, h⟩
    exact ⟨a, h cs h3⟩

/-- The hypothesis for one query with the conditions known. -/
theorem queryClear_of {q : Str} {cs : List Str} (h : QueryText q cs)
    (hc : ∀ c ∈ cs, ∃ k op v, CondText c k op v ∧ k ≠ [] ∧ (op = .eq ∨ op = .ne → GlobClear v)) :
    QueryClear q := by
  intro cs' h' c hc' k op v hv
  rw [C52.conditions_unique h' h] at hc'
  obtain ⟨k', op', v', e, h1, h2⟩ := hc c hc'
  obtain ⟨rfl, rfl, rfl⟩ := C52.condition_unique hv e
  exact ⟨h1, h2⟩

/-- `c[b-]*`: a class with a free dash. -/
theorem exGlob_clear : GlobClear (b!"c[b-]*") := by
  refine ⟨['c', '[', 'b', '-', ']', '*'], [.sub (.lit 'c'), .sub (.cls [.range 'b' 'b']), .sub .star],
    by decide +kernel, by decide, .inr ⟨[.lit 'c', .cls [.range 'b' 'b'], .star], ?_, rfl⟩,
    by decide +kernel, by decide +kernel, by decide +kernel, by decide +kernel⟩
  exact .cons (p := ['c']) (.lit (by decide)) (.cons (p := ['[', 'b', '-', ']'])
    (.cls (body := ['b', '-']) (es := [('b', 'b')])
      ⟨by decide, .trailing 0 (by decide) (by decide), by decide +kernel⟩ (by simp))
    (.cons (p := ['*']) .star .nil))

/-- Both kinds of quotes, white space in a condition. -/
example : QueryClear (b!"seriesByTag(\"name=c[b-]*\",' dc !=~m')") := by
  refine queryClear_of (cs := [b!"name=c[b-]*", b!" dc !=~m"])
    ((args_iff _ 128 _).1 (by decide +kernel)).1 ?_
  simp only [List.mem_cons, List.not_mem_nil, or_false, forall_eq_or_imp, forall_eq]
  exact ⟨⟨nameKey, .eq, b!"c[b-]*", (condText_iff _ _ _ _).2 (by rfl), by decide, fun _ => exGlob_clear⟩,
    ⟨b!"dc", .nm, b!"m", (condText_iff _ _ _ _).2 (by rfl), by decide, by simp⟩⟩
example : reportMap [(b!"seriesByTag(\"name=c[b-]*\",' dc !=~m')", 4), (b!"seriesByTag('name=c[b]*')", 5),
      (b!"seriesByTag('name=c[c]*')", 6)] [(nameKey, b!"cbx"), (b!"dc", b!"q")] =
    some ([(b!"seriesByTag('__name__=cb*')", 5), (b!"seriesByTag('__name__=cb*','dc!=~m')", 4)], 2) := by
  decide +kernel

end C25
end GoMatcher
