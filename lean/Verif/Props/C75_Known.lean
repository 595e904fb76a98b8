import Verif.Props.C07_Pieces
import Verif.Props.C10_GlobTreeBooks

/-! # C75: a tree recognises a glob that is written in another way -/

namespace GoMatcher.C75

/-- The texts a tree filled by `Add` knows: the accepted texts and their normal forms. -/
theorem keys (ops : List GlobOp) (hadd : ∀ op ∈ ops, ∃ s i, op = .add s i) (t : GlobTree)
    (L : List (Glob × Int)) (h : runGlobTree ops = .ok (t, L)) :
    (∀ k, t.globs.get k ≠ none ↔ ∃ x ∈ L, k = x.1.glob ∨ k = x.1.node) ∧
    ∀ x ∈ L, parseGlob x.1.glob = .ok (.ok x.1) ∧ GlobOp.add x.1.glob x.2 ∈ ops := by
  suffices key : ∀ (ops all : List GlobOp) (t t' : GlobTree) (L L' : List (Glob × Int)),
      (∀ op ∈ ops, op ∈ all ∧ ∃ s i, op = .add s i) → runGlobOps t L ops = .ok (t', L') →
      (∀ k, t.globs.get k ≠ none ↔ ∃ x ∈ L, k = x.1.glob ∨ k = x.1.node) →
      (∀ x ∈ L, parseGlob x.1.glob = .ok (.ok x.1) ∧ GlobOp.add x.1.glob x.2 ∈ all) →
      (∀ k, t'.globs.get k ≠ none ↔ ∃ x ∈ L', k = x.1.glob ∨ k = x.1.node) ∧
      ∀ x ∈ L', parseGlob x.1.glob = .ok (.ok x.1) ∧ GlobOp.add x.1.glob x.2 ∈ all from
    key ops ops {} t [] L (fun op ho => ⟨ho, hadd op ho⟩) h (by simp [GoMap.get]) (by simp)
  intro ops all
  induction ops with
  | nil =>
    intro t t' L L' _ h h1 h2
    cases h
    exact ⟨h1, h2⟩
  | cons op ops ih =>
    intro t t' L L' ho h h1 h2
    obtain ⟨hall, s, i, rfl⟩ := ho op (by simp)
    obtain ⟨t1, r, e1, e2⟩ := C10.add_refused t s i
    simp only [runGlobOps, GlobOp.apply, e1, R.bind_ok] at h
    by_cases hr : r.err ≠ none ∨ s = []
    · rw [e2 hr] at h
      have : GlobOp.accepted r (.add s i) = [] := by
        simp only [GlobOp.accepted]
        rw [if_pos]
        rcases hr with h | h
        · left; cases hh : r.err <;> simp_all
        · right; exact h
      rw [this, List.append_nil] at h
      exact ih _ _ _ _ (fun op h => ho op (by simp [h])) h h1 h2
    · simp only [not_or, Decidable.not_not] at hr
      obtain ⟨g, a1, _, _, a4, a5, _, a7, _⟩ := C10.add_accepted t s i hr.2 _ _ e1 hr.1
      have hg := parseGlob_glob a1
      have : GlobOp.accepted r (.add s i) = [(g, i)] := by
        simp [GlobOp.accepted, hr.1, hr.2, a1]
      rw [this] at h
      refine ih _ _ _ _ (fun op h => ho op (by simp [h])) h ?_ ?_
      · intro k
        by_cases hk : k = s
        · subst hk
          rw [a4]
          simp only [ne_eq, reduceCtorEq, not_false_eq_true, true_iff]
          exact ⟨(g, i), by simp, .inl hg.symm⟩
        by_cases hk' : k = g.node
        · subst hk'
          rw [a5]
          simp only [ne_eq, reduceCtorEq, not_false_eq_true, true_iff]
          exact ⟨(g, i), by simp, .inr rfl⟩
        rw [a7 k hk hk', h1]
        constructor
        · rintro ⟨x, hx, hkx⟩
          exact ⟨x, by simp [hx], hkx⟩
        · rintro ⟨x, hx, hkx⟩
          rcases List.mem_append.1 hx with hx | hx
          · exact ⟨x, hx, hkx⟩
          · rw [List.mem_singleton.1 hx] at hkx
            rcases hkx with e | e
            · exact absurd (e.trans hg) hk
            · exact absurd e hk'
      · intro x hx
        rcases List.mem_append.1 hx with hx | hx
        · exact h2 x hx
        · rw [List.mem_singleton.1 hx]
          dsimp only
          rw [hg]
          exact ⟨a1, hall⟩

/-- For every history of `Add` and every text that can be parsed: with an index that is free, `Add`
reports `ErrGlobExist` exactly if the text or its normal form is the text or the normal form of an
accepted glob, and otherwise accepts. -/
theorem known_iff (ops : List GlobOp) (hadd : ∀ op ∈ ops, ∃ s i, op = .add s i) (t : GlobTree)
    (L : List (Glob × Int)) (h : runGlobTree ops = .ok (t, L)) (s : Str) (hs : s ≠ []) (g : Glob)
    (hg : parseGlob s = .ok (.ok g)) (j : Int) (hj : 0 ≤ j) (hfree : ∀ x ∈ L, x.2 ≠ j) :
    ∃ t' r, t.add s j = .ok (t', r) ∧ (r.err = none ∨ r.err = some .globExist) ∧
      (r.err = some .globExist ↔ ∃ x ∈ L, s = x.1.glob ∨ s = x.1.node ∨ g.node = x.1.glob ∨ g.node = x.1.node) := by
  obtain ⟨k1, k2⟩ := keys ops hadd t L h
  obtain ⟨t2, L2, hr, b1, b2⟩ := C10.books_partial ops hadd
  rw [h] at hr
  simp only [R.ok.injEq, Prod.mk.injEq] at hr
  obtain ⟨rfl, rfl⟩ := hr
  have hidx : t.globsIndex.get j = none := by
    cases hq : t.globsIndex.get j with
    | none => rfl
    | some q =>
      obtain ⟨g', hg', _⟩ := (b1 j q).1 hq
      exact absurd rfl (hfree _ hg')
  obtain ⟨t', r, e1, _⟩ := C10.add_refused t s j
  obtain ⟨_, _, _, q4, q5⟩ := C10.add_error t s j hs t' r e1
  have hex : r.err = some .globExist ↔ t.globs.get s ≠ none ∨ t.globs.get g.node ≠ none := by
    rw [q4]
    constructor
    · rintro ⟨_, h | ⟨_, g', hg', h⟩⟩
      · exact .inl h
      · rw [hg] at hg'
        cases hg'
        exact .inr h
    · rintro (h | h)
      · exact ⟨hj, .inl h⟩
      · exact ⟨hj, .inr ⟨hidx, g, hg, h⟩⟩
  refine ⟨t', r, e1, ?_, ?_⟩
  · by_cases hk : t.globs.get s ≠ none ∨ t.globs.get g.node ≠ none
    · exact .inr (hex.2 hk)
    · simp only [ne_eq, not_or, Decidable.not_not] at hk
      exact .inl (q5.2 ⟨hj, hk.1, hidx, g, hg, hk.2⟩)
  · rw [hex, k1, k1]
    constructor
    · rintro (⟨x, hx, h | h⟩ | ⟨x, hx, h | h⟩)
      · exact ⟨x, hx, .inl h⟩
      · exact ⟨x, hx, .inr (.inl h)⟩
      · exact ⟨x, hx, .inr (.inr (.inl h))⟩
      · exact ⟨x, hx, .inr (.inr (.inr h))⟩
    · rintro ⟨x, hx, h | h | h | h⟩
      · exact .inl ⟨x, hx, .inl h⟩
      · exact .inl ⟨x, hx, .inr h⟩
      · exact .inr ⟨x, hx, .inl h⟩
      · exact .inr ⟨x, hx, .inr h⟩

/-- Tidy globs whose braces hold words. -/
structure Plain (ts : List Tok) : Prop where
  ne : ts ≠ []
  ok : ∀ t ∈ ts, t.Ok
  wordy : ∀ t ∈ ts, t.Wordy
  tidy : ∀ t ∈ ts, t.Tidy

/-- The text. -/
def text (ts : List Tok) : Str := utf8 (renderGlob ts)

theorem parse_plain {ts : List Tok} (h : Plain ts) : ∃ g, parseGlob (text ts) = .ok (.ok g) ∧
    g.node = formText (pieces ts) := by
  obtain ⟨g, hg, hG, hn⟩ := parse_spec_words ts h.ok
  exact ⟨g, hg, node_pieces h.ok h.wordy hG (hn fun a ha => h.wordy _ ha)⟩

theorem text_ne {ts : List Tok} (h : Plain ts) : text ts ≠ [] := by
  intro e
  have h2 : renderGlob ts = [] := utf8_inj (e.trans rfl)
  cases ts with
  | nil => exact h.ne rfl
  | cons t ts =>
    rw [renderGlob_cons] at h2
    exact render_ne_nil t (List.append_eq_nil_iff.1 h2).1

/-- Full statement (not true of the code): for all globs.  After any `Add` calls with tidy globs whose
braces hold words, `Add` of another one with a free index reports `ErrGlobExist` exactly if the tree
holds a glob with the same pieces, and is accepted otherwise. -/
theorem recognised_partial (ops : List GlobOp) (hadd : ∀ op ∈ ops, ∃ ss i, op = .add (text ss) i ∧ Plain ss)
    (t : GlobTree) (L : List (Glob × Int)) (h : runGlobTree ops = .ok (t, L)) (us : List Tok)
    (hu : Plain us) (j : Int) (hj : 0 ≤ j) (hfree : ∀ x ∈ L, x.2 ≠ j) :
    ∃ t' r, t.add (text us) j = .ok (t', r) ∧ (r.err = none ∨ r.err = some .globExist) ∧
      (r.err = some .globExist ↔ ∃ ss i g, GlobOp.add (text ss) i ∈ ops ∧ (g, i) ∈ L ∧
        g.glob = text ss ∧ Plain ss ∧ pieces ss = pieces us) := by
  have hadd' : ∀ op ∈ ops, ∃ s i, op = .add s i := fun op ho => by
    obtain ⟨ss, i, e, _⟩ := hadd op ho
    exact ⟨_, _, e⟩
  obtain ⟨g, hg, hn⟩ := parse_plain hu
  obtain ⟨t', r, e1, e2, e3⟩ := known_iff ops hadd' t L h (text us) (text_ne hu) g hg j hj hfree
  obtain ⟨_, k2⟩ := keys ops hadd' t L h
  refine ⟨t', r, e1, e2, ?_⟩
  rw [e3]
  have src : ∀ x ∈ L, ∃ ss, x.1.glob = text ss ∧ Plain ss ∧ x.1.node = formText (pieces ss) ∧
      GlobOp.add (text ss) x.2 ∈ ops := by
    intro x hx
    obtain ⟨p1, p2⟩ := k2 x hx
    obtain ⟨ss, i, e, hp⟩ := hadd _ p2
    obtain ⟨he, rfl⟩ := GlobOp.add.inj e
    obtain ⟨g', hg', hn'⟩ := parse_plain hp
    rw [he, hg'] at p1
    simp only [R.ok.injEq, Except.ok.injEq] at p1
    rw [he] at p2
    exact ⟨ss, he, hp, p1 ▸ hn', p2⟩
  have same : ∀ ss, Plain ss → formText (pieces ss) = formText (pieces us) → pieces ss = pieces us :=
    fun ss hp e => (C07.form_iff_partial ss us hp.ok hu.ok hp.wordy hu.wordy hp.tidy hu.tidy).1 (by
      rw [C07.normalForm_pieces ss hp.ok hp.wordy, C07.normalForm_pieces us hu.ok hu.wordy, e])
  have idem : ∀ ss, Plain ss → normalForm (formText (pieces ss)) = .ok (.ok (formText (pieces ss))) := by
    intro ss hp
    obtain ⟨n, h1, h2⟩ := C07.idempotent_partial ss hp.ok hp.wordy hp.tidy
    rw [C07.normalForm_pieces ss hp.ok hp.wordy] at h1
    simp only [R.ok.injEq, Except.ok.injEq] at h1
    rw [h1]
    exact h2
  have form : ∀ ss, Plain ss → normalForm (text ss) = .ok (.ok (formText (pieces ss))) :=
    fun ss hp => C07.normalForm_pieces ss hp.ok hp.wordy
  constructor
  · rintro ⟨x, hx, hk⟩
    obtain ⟨ss, s1, s2, s3, s4⟩ := src x hx
    refine ⟨ss, x.2, x.1, s4, hx, s1, s2, same ss s2 ?_⟩
    rcases hk with e | e | e | e
    · rw [s1] at e
      have := form us hu
      rw [e, form ss s2] at this
      simpa using this
    · have := form us hu
      rw [e, s3, idem ss s2] at this
      simpa using this
    · have := form ss s2
      rw [← s1, ← e, hn, idem us hu] at this
      simpa using this.symm
    · rw [← s3, ← hn, e]
  · rintro ⟨ss, i, g', h1, h2, h3, hp, h4⟩
    obtain ⟨ss', s1, s2, s3, s4⟩ := src _ h2
    refine ⟨_, h2, .inr (.inr (.inr ?_))⟩
    have h5 : text ss' = text ss := s1.symm.trans h3
    have h6 := form ss' s2
    rw [h5, form ss hp] at h6
    rw [hn, s3, ← h4]
    simpa using h6

/-- `[ba]**?{q,p}`, then `[a-b]?*{p,q,p}`: refused. -/
example : Plain [.sub (.cls [.one 'b', .one 'a']), .sub .star, .sub .star, .sub .any, .alt [[.lit 'q'], [.lit 'p']]] ∧
    Plain [.sub (.cls [.range 'a' 'b']), .sub .any, .sub .star, .alt [[.lit 'p'], [.lit 'q'], [.lit 'p']]] ∧
    (do
      let (t, L) ← runGlobTree [.add (b!"[ba]**?{q,p}") 4, .add (b!"x") 5]
      let (_, r) ← t.add (b!"[a-b]?*{p,q,p}") 6
      let (_, r') ← t.add (b!"[a-b]?*?{p,q}") 6
      let (_, r'') ← t.add (b!"[a-b]?*{p,q,}") 6
      .ok (L.length = 2 ∧ r.err = some .globExist ∧ r.n = 4 ∧ r'.err = none ∧ r''.err = none : Bool) : R Bool) =
        .ok true :=
  ⟨⟨by simp, by decide +kernel, by decide +kernel, by decide +kernel⟩,
    ⟨by simp, by decide +kernel, by decide +kernel, by decide +kernel⟩, by decide +kernel⟩

/-- `a[*]` is refused after `a*`, though it is another glob. -/
theorem other_glob_wrong : (do
    let (t, _) ← runGlobTree [.add (b!"a*") 1]
    let (_, r) ← t.add (b!"a[*]") 2
    .ok (r.err = some .globExist : Bool) : R Bool) = .ok true := by decide +kernel

/-- `{a*,b?}` is accepted after `{[b]?,a*}`, though these are the same alternatives. -/
theorem same_glob_wrong : (do
    let (t, _) ← runGlobTree [.add (b!"{[b]?,a*}") 1]
    let (_, r) ← t.add (b!"{a*,b?}") 2
    .ok (r.err = none : Bool) : R Bool) = .ok true := by decide +kernel

end GoMatcher.C75
