import Verif.Props.C01_C03_Match
import Verif.Proofs.RenderInj

/-! # C07: the normal form of a glob

`Parse` stores a normal form in `Node`; the batch matchers file globs under it.  The full
statement would say for every glob that the normal form can be parsed, matches the same
texts and is its own normal form.  This is false (see the counter-examples at the end).  The theorems
hold for the globs of `Spec/Tidy`. -/

namespace GoMatcher

/-- `Parse(glob).Node`. -/
def normalForm (glob : Str) : R (Except GErr Str) := do
  match ← parseGlob glob with
  | .error e => .ok (.error e)
  | .ok g => .ok (.ok g.node)

theorem normalForm_ok {glob : Str} {g : Glob} (h : parseGlob glob = .ok (.ok g)) :
    normalForm glob = .ok (.ok g.node) := by
  unfold normalForm
  rw [h]
  rfl

namespace C07

/-- The normal form is the written form of a glob with the same meaning. -/
theorem meaning_partial (ts : List Tok) (hok : ∀ t ∈ ts, t.Ok) (ht : ∀ t ∈ ts, t.Tidy) :
    ∃ nts, normalForm (utf8 (renderGlob ts)) = .ok (.ok (utf8 (renderGlob nts))) ∧
      (∀ t ∈ nts, t.Written) ∧ ∀ cs, Fits nts cs ↔ Fits ts cs := by
  obtain ⟨g, hg, hG⟩ := parse_spec ts hok
  obtain ⟨nts, h1, h2, h3, _⟩ := hG.text hok ht
  exact ⟨nts, by rw [normalForm_ok hg, h2], h1, h3⟩

/-- A written form has only one meaning. -/
theorem written_unique (a b : List Tok) (ha : ∀ t ∈ a, t.Written) (hb : ∀ t ∈ b, t.Written)
    (h : renderGlob a = renderGlob b) : a = b := renderGlob_inj ha hb h

/-- Globs with the same normal form describe the same texts: filing globs under their
normal form loses nothing. -/
theorem same_form_partial (ts us : List Tok) (hok : ∀ t ∈ ts, t.Ok) (ht : ∀ t ∈ ts, t.Tidy)
    (hok' : ∀ t ∈ us, t.Ok) (ht' : ∀ t ∈ us, t.Tidy)
    (h : normalForm (utf8 (renderGlob ts)) = normalForm (utf8 (renderGlob us))) (cs : List Char) :
    Fits ts cs ↔ Fits us cs := by
  obtain ⟨a, a1, a2, a3⟩ := meaning_partial ts hok ht
  obtain ⟨b, b1, b2, b3⟩ := meaning_partial us hok' ht'
  rw [a1, b1] at h
  simp only [R.ok.injEq, Except.ok.injEq] at h
  rw [← a3, ← b3, renderGlob_inj a2 b2 (utf8_inj h)]

/-- If braces with wildcards have two alternatives of different meaning, the normal form is
accepted by the parser and describes the same texts. -/
theorem reparse_partial (ts : List Tok) (hok : ∀ t ∈ ts, t.Ok) (ht : ∀ t ∈ ts, t.Tidy)
    (hd : ∀ alts, Tok.alt alts ∈ ts → plainAlts alts = true ∨ TwoMeanings alts) :
    ∃ nts, normalForm (utf8 (renderGlob ts)) = .ok (.ok (utf8 (renderGlob nts))) ∧
      (∀ t ∈ nts, t.Ok) ∧ (∀ cs, Fits nts cs ↔ Fits ts cs) ∧
      ∃ n, normalForm (utf8 (renderGlob nts)) = .ok (.ok n) := by
  obtain ⟨g, hg, hG⟩ := parse_spec ts hok
  obtain ⟨nts, h1, h2, h3, h4, _⟩ := hG.text hok ht
  obtain ⟨g', hg', _⟩ := parse_spec nts (h4 hd)
  exact ⟨nts, by rw [normalForm_ok hg, h2], h4 hd, h3, _, normalForm_ok hg'⟩

/-- Globs without braces: the normal form matches exactly the texts the glob matches. -/
theorem match_same_noBraces_partial (ss : List Sub) (hok : ∀ s ∈ ss, s.Ok false)
    (ht : ∀ s ∈ ss, s.Tidy) (hclass : ∀ s ∈ ss, s.noStarClass) :
    ∃ n, normalForm (utf8 (renderSubs ss)) = .ok (.ok n) ∧
      ∀ cs : List Char, (∀ c ∈ cs, c.toNat ≠ 0xFFFD) →
        matchText n (utf8 cs) = matchText (utf8 (renderSubs ss)) (utf8 cs) := by
  have hok' : ∀ t ∈ ss.map Tok.sub, t.Ok := by
    intro t h
    obtain ⟨s, hs, rfl⟩ := List.mem_map.1 h
    exact hok s hs
  have ht' : ∀ t ∈ ss.map Tok.sub, t.Tidy := by
    intro t h
    obtain ⟨s, hs, rfl⟩ := List.mem_map.1 h
    exact ht s hs
  have hn' : ∀ t ∈ ss.map Tok.sub, t.noStarClass := by
    intro t h
    obtain ⟨s, hs, rfl⟩ := List.mem_map.1 h
    exact hclass s hs
  have hnoalt : ¬ HasAlt (ss.map Tok.sub) := by
    rintro ⟨alts, h⟩
    obtain ⟨s, _, e⟩ := List.mem_map.1 h
    cases e
  obtain ⟨g, hg, hG⟩ := parse_spec _ hok'
  obtain ⟨nts, h1, h2, h3, h4, h5⟩ := hG.text hok' ht'
  have hnok := h4 (fun alts h => absurd ⟨alts, h⟩ hnoalt)
  obtain ⟨g', hg', hG'⟩ := parse_spec nts hnok
  -- the tokens of the normal form are simple
  have hsub : ∃ ns : List Sub, nts = ns.map Tok.sub := by
    have hs := h5 hnoalt
    clear h1 h2 h3 h4 h5 hnok hg' hG'
    induction nts with
    | nil => exact ⟨[], rfl⟩
    | cons t nts ih =>
      obtain ⟨s, rfl⟩ := hs t (by simp)
      obtain ⟨ns, rfl⟩ := ih (fun t h => hs t (by simp [h]))
      exact ⟨s :: ns, rfl⟩
  obtain ⟨ns, rfl⟩ := hsub
  have hmax : ∀ l : List Sub, MaxOk (l.map Tok.sub) := by
    intro l
    left
    intro t ht alts e
    obtain ⟨s, _, rfl⟩ := List.mem_map.1 ht
    cases e
  refine ⟨g.node, by rw [← renderGlob_subs]; exact normalForm_ok hg, ?_⟩
  intro cs hcs
  have hstar := not_onlyStar _ hok' hn'
  obtain ⟨b, hb, b1, b2⟩ := matches_spec hG (shape_subs_plain true ss) hstar cs
  obtain ⟨b', hb', b1', b2'⟩ := matches_spec hG' (shape_subs_plain true ns)
    (by intro h; exact hstar (fun cs => by rw [← h3, h])) cs
  rw [← renderGlob_subs, matchText_ok hg hb, h2, matchText_ok hg' hb']
  have : b' = b := by
    rw [Bool.eq_iff_iff]
    constructor
    · intro h; exact b2 rfl (.inl hcs) (hmax ss) ((h3 cs).1 (b1' h))
    · intro h; exact b2' rfl (.inl hcs) (hmax ns) ((h3 cs).2 (b1 h))
  rw [this]

/-- Globs with braces: if the normal form is again a glob of the shapes for which `Match` is exact
(C01), it matches exactly the texts the glob matches. -/
theorem match_same_partial (ts nts : List Tok) (hok : ∀ t ∈ ts, t.Ok) (ht : ∀ t ∈ ts, t.Tidy)
    (hshape : Shape true .plain ts) (hmax : MaxOk ts) (hclass : ∀ t ∈ ts, t.noStarClass)
    (hn : normalForm (utf8 (renderGlob ts)) = .ok (.ok (utf8 (renderGlob nts))))
    (hok' : ∀ t ∈ nts, t.Ok) (hshape' : Shape true .plain nts) (hmax' : MaxOk nts)
    (cs : List Char) (hcs : ∀ c ∈ cs, c.toNat ≠ 0xFFFD) :
    matchText (utf8 (renderGlob nts)) (utf8 cs) = matchText (utf8 (renderGlob ts)) (utf8 cs) := by
  obtain ⟨ms, m1, m2, m3⟩ := meaning_partial ts hok ht
  have hw : ∀ t ∈ nts, t.Written := by
    intro t h
    have := hok' t h
    cases t with
    | sub s => exact this
    | alt alts => exact ⟨this.1, this.2.1⟩
  have e : nts = ms := by
    rw [hn] at m1
    simp only [R.ok.injEq, Except.ok.injEq] at m1
    exact renderGlob_inj hw m2 (utf8_inj m1)
  subst e
  have hstar := not_onlyStar _ hok hclass
  obtain ⟨g, hg, hG⟩ := parse_spec ts hok
  obtain ⟨g', hg', hG'⟩ := parse_spec nts hok'
  obtain ⟨b, hb, b1, b2⟩ := matches_spec hG hshape hstar cs
  obtain ⟨b', hb', b1', b2'⟩ := matches_spec hG' hshape'
    (by intro h; exact hstar (fun cs => by rw [← m3, h])) cs
  rw [matchText_ok hg hb, matchText_ok hg' hb']
  have : b' = b := by
    rw [Bool.eq_iff_iff]
    constructor
    · intro h; exact b2 rfl (.inl hcs) hmax ((m3 cs).1 (b1' h))
    · intro h; exact b2' rfl (.inl hcs) hmax' ((m3 cs).2 (b1 h))
  rw [this]

/-! ## Examples -/

/-- `a?*[c-a.b]{y*,x?}` with its normal form. -/
def ex1 : List Tok := [.sub (.lit 'a'), .sub .any, .sub .star, .sub (.cls [.range 'c' 'e', .one 'b']),
  .alt [[.lit 'y', .star], [.lit 'x', .any]]]

example : (∀ t ∈ ex1, t.Ok) ∧ (∀ t ∈ ex1, t.Tidy) ∧
    normalForm (utf8 (renderGlob ex1)) = .ok (.ok (utf8 "a*?[b-e]{x?,y*}".toList)) := by
  decide +kernel

/-- Two ways to write the same thing. -/
example : let ts : List Tok := [.sub (.cls [.one 'b', .one 'a', .one 'c']), .sub .any, .sub .star]
    let us : List Tok := [.sub (.cls [.range 'a' 'c']), .sub .star, .sub .star, .sub .any]
    (∀ t ∈ ts, t.Ok) ∧ (∀ t ∈ ts, t.Tidy) ∧ (∀ t ∈ us, t.Ok) ∧ (∀ t ∈ us, t.Tidy) ∧
    normalForm (utf8 (renderGlob ts)) = normalForm (utf8 (renderGlob us)) := by
  decide +kernel

example : let ts : List Tok := [.sub .star, .alt [[.lit 'b', .any], [.lit 'a']]]
    ∀ alts, Tok.alt alts ∈ ts → plainAlts alts = true ∨ TwoMeanings alts := by
  intro ts alts h
  simp only [ts, List.mem_cons, Tok.alt.injEq, reduceCtorEq, List.not_mem_nil, or_false, false_or] at h
  subst h
  refine Or.inr ⟨_, List.mem_cons_self, _, List.mem_cons_of_mem _ List.mem_cons_self, ?_⟩
  intro h
  have := (h ['a']).2 ((subsFit_lits ['a'] ['a']).2 rfl)
  simp only [subsFit, Sub.Fits] at this
  obtain ⟨a, b, e, rfl, _⟩ := this
  simp at e

example : let ss : List Sub := [.lit 'a', .cls [.one 'y', .one 'x'], .star, .any]
    (∀ s ∈ ss, s.Ok false) ∧ (∀ s ∈ ss, s.Tidy) ∧ (∀ s ∈ ss, s.noStarClass) := by decide +kernel

/-- A brace example for `match_same_partial`. -/
example : let ts : List Tok := [.sub .any, .sub .star, .alt [[.lit 'b'], [.lit 'a'], [.lit 'b']]]
    let nts : List Tok := [.sub .star, .sub .any, .alt [[.lit 'a'], [.lit 'b']]]
    (∀ t ∈ ts, t.Ok) ∧ (∀ t ∈ ts, t.Tidy) ∧ Shape true .plain ts ∧ MaxOk ts ∧
    (∀ t ∈ ts, t.noStarClass) ∧
    normalForm (utf8 (renderGlob ts)) = .ok (.ok (utf8 (renderGlob nts))) ∧
    (∀ t ∈ nts, t.Ok) ∧ Shape true .plain nts ∧ MaxOk nts := by decide +kernel

/-! ## Where the code is wrong -/

/-- `a[*]` and `a*` have the same normal form, but different meanings. -/
theorem special_class_wrong :
    let ts : List Tok := [.sub (.lit 'a'), .sub (.cls [.one '*'])]
    let us : List Tok := [.sub (.lit 'a'), .sub .star]
    (∀ t ∈ ts, t.Ok) ∧ (∀ t ∈ us, t.Ok) ∧
    normalForm (utf8 (renderGlob ts)) = normalForm (utf8 (renderGlob us)) ∧
    matchText (utf8 (renderGlob ts)) (utf8 ['a', 'b']) = .ok (.ok false) ∧
    matchText (utf8 (renderGlob us)) (utf8 ['a', 'b']) = .ok (.ok true) := by decide +kernel

/-- A run of class characters that ends in DEL is cut: `[~\x7f]` matches DEL, its normal form does
not. -/
theorem del_class_wrong :
    let ts : List Tok := [.sub (.cls [.one '~', .one '\x7f'])]
    (∀ t ∈ ts, t.Ok) ∧ normalForm (utf8 (renderGlob ts)) = .ok (.ok [91, 126, 93]) ∧
    matchText (utf8 (renderGlob ts)) [127] = .ok (.ok true) ∧
    matchText [91, 126, 93] [127] = .ok (.ok false) := by decide +kernel

/-- A run over a change of UTF-8 width gives a normal form that the parser refuses. -/
theorem width_class_wrong :
    let ts : List Tok := [.sub (.cls [.one '߿', .one 'ࠀ'])]
    (∀ t ∈ ts, t.Ok) ∧ ∃ n e, normalForm (utf8 (renderGlob ts)) = .ok (.ok n) ∧
      normalForm n = .ok (.error e) := by
  refine ⟨by decide +kernel, utf8 ['[', '߿', '-', 'ࠀ', ']'], ?_⟩
  exact ⟨_, by decide +kernel, by rfl⟩

/-- `{a*,[a]*}` has the normal form `{a*,a*}`, which is read as the literal text `a*`. -/
theorem collapse_wrong :
    let ts : List Tok := [.alt [[.lit 'a', .star], [.cls [.one 'a'], .star]]]
    (∀ t ∈ ts, t.Ok) ∧ (∀ t ∈ ts, t.Tidy) ∧
    normalForm (utf8 (renderGlob ts)) = .ok (.ok (utf8 "{a*,a*}".toList)) ∧
    matchText (utf8 (renderGlob ts)) (utf8 "ab".toList) = .ok (.ok true) ∧
    matchText (utf8 "{a*,a*}".toList) (utf8 "ab".toList) = .ok (.ok false) := by decide +kernel

/-- `{[b]?,a*}` has the normal form `{b?,a*}`, whose normal form is `{a*,b?}`. -/
theorem not_idempotent :
    let ts : List Tok := [.alt [[.cls [.one 'b'], .any], [.lit 'a', .star]]]
    (∀ t ∈ ts, t.Ok) ∧ (∀ t ∈ ts, t.Tidy) ∧
    normalForm (utf8 (renderGlob ts)) = .ok (.ok (utf8 "{b?,a*}".toList)) ∧
    normalForm (utf8 "{b?,a*}".toList) = .ok (.ok (utf8 "{a*,b?}".toList)) := by decide +kernel

end C07
end GoMatcher
