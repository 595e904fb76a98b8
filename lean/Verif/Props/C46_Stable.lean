import Verif.Props.C22_C24_Query
import Verif.Props.C07_Node

/-! # C46: the normalised text of a query

The full statement: for every query, the normalised text is accepted and gives the same
terms.  It is false; the counter-examples are at the end. -/

namespace GoMatcher

/-- What the parser did: the conditions, in some order. -/
theorem parseSeriesByTag_inv {lib : GoLib} {query : Str} {ts : List TTerm}
    (h : parseSeriesByTag lib query = .ok (.ok ts)) :
    ts.length ≤ 128 ∧ ts.Pairwise (fun a b => TTerm.less b a = false) ∧
      ∀ t ∈ ts, ∃ c, termOf lib c = .ok (.ok t) ∧
        ∃ cs, seriesByTagArgs query 128 = .ok (.ok cs) ∧ c ∈ cs := by
  unfold parseSeriesByTag at h
  obtain ⟨r, hr, h⟩ := R.bind_eq_ok.1 h
  cases r with
  | error e => simp at h
  | ok cs =>
    dsimp only at h
    have hl : cs.length ≤ 128 := by
      unfold seriesByTagArgs at hr
      dsimp only at hr
      split at hr
      · simp at hr
      · split at hr
        · simp at hr
        · exact argsLoop_length _ _ _ _ hr
    unfold parseConditions at h
    obtain ⟨q, hq, h⟩ := R.bind_eq_ok.1 h
    cases q with
    | error e => simp at h
    | ok us =>
      simp only [R.ok.injEq, Except.ok.injEq] at h
      subst h
      obtain ⟨h1, h2⟩ := (conditionsLoop_iff lib cs us).1 hq
      refine ⟨by rw [(lib.sort_perm us).length_eq, ← h1]; exact hl, lib.sort_sorted us, ?_⟩
      intro t ht
      rw [(lib.sort_perm us).mem_iff] at ht
      obtain ⟨i, hi, e⟩ := List.mem_iff_getElem.1 ht
      have hz : i < (cs.zip us).length := by simp only [List.length_zip]; omega
      have := h2 _ (List.getElem_mem hz)
      rw [List.getElem_zip] at this
      dsimp only at this
      rw [e] at this
      exact ⟨_, this, cs, hr, List.getElem_mem _⟩

/-- What `build` keeps and what it changes. -/
theorem build_spec {lib : GoLib} {t0 t : TTerm} (h : t0.build lib = .ok (.ok t)) :
    t.key = t0.key ∧ t.op = t0.op ∧
      ((t0.op = .mt ∨ t0.op = .nm) ∧ t = { t0 with re := some t0.value } ∧
          lib.reCompiles t0.value = true ∨
        (t0.op = .eq ∨ t0.op = .ne) ∧ (hasWildcard t0.value = false ∧ t = t0 ∨
          hasWildcard t0.value = true ∧ normalForm t0.value = .ok (.ok t.value))) := by
  unfold TTerm.build at h
  split at h
  · rename_i hop
    split at h
    · simp only [R.ok.injEq, Except.ok.injEq] at h
      subst h
      rename_i hc
      exact ⟨rfl, rfl, .inl ⟨hop, rfl, hc⟩⟩
    · simp at h
  · rename_i hop
    have hop' : t0.op = .eq ∨ t0.op = .ne := by
      cases h : t0.op <;> simp [h] at hop ⊢
    split at h
    · rename_i hw
      obtain ⟨r, hr, h⟩ := R.bind_eq_ok.1 h
      cases r with
      | error e => simp at h
      | ok g =>
        dsimp only at h
        split at h <;>
        · simp only [R.ok.injEq, Except.ok.injEq] at h
          subst h
          exact ⟨rfl, rfl, .inr ⟨hop', .inr ⟨hw, normalForm_ok hr⟩⟩⟩
    · rename_i hw
      simp only [R.ok.injEq, Except.ok.injEq] at h
      subst h
      exact ⟨rfl, rfl, .inr ⟨hop', .inl ⟨by simpa using hw, rfl⟩⟩⟩

/-- A term that can be read back from the printed condition: a key; no quote; the value of `=` and `!=`
starts with no `~` and has no outer white space; a glob value is its own normal form. -/
structure Printable (t : TTerm) : Prop where
  key : t.key ≠ []
  quoteKey : (39 : UInt8) ∉ t.key
  quoteValue : (39 : UInt8) ∉ t.value
  tilde : t.op = .eq ∨ t.op = .ne → t.value.head? ≠ some 126
  trimmed : t.op = .eq ∨ t.op = .ne → trimSpace t.value = t.value
  normal : t.op = .eq ∨ t.op = .ne → hasWildcard t.value = true →
    normalForm t.value = .ok (.ok t.value)

/-- Reading back one condition. -/
theorem termOf_text {lib : GoLib} {c : Str} {t : TTerm} (h : termOf lib c = .ok (.ok t))
    (hp : Printable t) :
    ∃ t', termOf lib t.text = .ok (.ok t') ∧ t'.id = t.id ∧
      (t.glob = none → (t.op = .eq ∨ t.op = .ne → hasWildcard t.value = false) → t' = t) := by
  unfold termOf at h
  cases hc : parseCondition c with
  | error e => rw [hc] at h; simp at h
  | ok t0 =>
    rw [hc] at h
    dsimp only at h
    obtain ⟨s1, s2, s3, s4, s5, s6, s7⟩ := parseCondition_spec hc
    obtain ⟨b1, b2, b3⟩ := build_spec h
    have htrim : trimSpace t.value = t.value := by
      rcases b3 with ⟨_, e, _⟩ | ⟨hop, _⟩
      · rw [e]; exact s4
      · rw [← b2] at hop; exact hp.trimmed hop
    have hread : parseCondition t.text = .ok { key := t.key, op := t.op, value := t.value } :=
      parseCondition_text t.key t.value t.op (by rw [b1]; exact s1) (by rw [b1]; exact s2)
        (by rw [b1]; exact s3) hp.key htrim hp.tilde
    unfold termOf
    rw [hread]
    dsimp only
    unfold TTerm.build
    dsimp only
    rcases b3 with ⟨hop, e, hre⟩ | ⟨hop, b3⟩
    · rw [← b2] at hop
      have hv : t.value = t0.value := by rw [e]
      rw [if_pos hop, hv, if_pos hre]
      refine ⟨_, rfl, by simp [TTerm.id, hv], fun _ _ => ?_⟩
      rw [e]
      cases t0
      simp_all
    · rw [← b2] at hop
      rw [if_neg (by rcases hop with h | h <;> simp [h])]
      by_cases hw : hasWildcard t.value = true
      · rw [if_pos hw]
        have hn := hp.normal hop hw
        unfold normalForm at hn
        obtain ⟨r, hr, hn⟩ := R.bind_eq_ok.1 hn
        cases r with
        | error e => simp at hn
        | ok g =>
          simp only [R.ok.injEq, Except.ok.injEq] at hn
          rw [hr, R.bind_ok]
          dsimp only
          split
          · exact ⟨_, rfl, by simp [TTerm.id, hn], fun _ hh => absurd (hh hop) (by simp [hw])⟩
          · exact ⟨_, rfl, by simp [TTerm.id, hn], fun _ hh => absurd (hh hop) (by simp [hw])⟩
      · rw [if_neg hw]
        refine ⟨_, rfl, rfl, fun hg _ => ?_⟩
        rcases b3 with ⟨_, e⟩ | ⟨hw0, _⟩
        · rw [e]
          cases t0
          simp_all
        · -- the glob was a plain text in disguise
          unfold TTerm.build at h
          rw [if_neg (by rw [← b2]; rcases hop with h | h <;> simp [h]), if_pos hw0] at h
          obtain ⟨r, hr, h⟩ := R.bind_eq_ok.1 h
          cases r with
          | error e => simp at h
          | ok g =>
            dsimp only at h
            split at h
            · simp only [R.ok.injEq, Except.ok.injEq] at h
              rw [← h]
              cases t0
              simp_all
            · simp only [R.ok.injEq, Except.ok.injEq] at h
              rw [← h] at hg
              simp at hg

namespace C46

/-- The normalised text is accepted, gives the same keys, operators and values in the same order, and
is its own normalised text. -/
theorem reparse_partial (lib : GoLib) (query : Str) (ts : List TTerm)
    (h : parseSeriesByTag lib query = .ok (.ok ts)) (hp : ∀ t ∈ ts, Printable t) :
    ∃ ts', parseSeriesByTag lib (termsText ts) = .ok (.ok ts') ∧
      ts'.map TTerm.id = ts.map TTerm.id ∧ termsText ts' = termsText ts := by
  obtain ⟨hl, hs, hc⟩ := parseSeriesByTag_inv h
  have hex : ∀ us : List TTerm, (∀ t ∈ us, t ∈ ts) → ∃ vs : List TTerm,
      us.length = vs.length ∧ (∀ x ∈ (us.map TTerm.text).zip vs, termOf lib x.1 = .ok (.ok x.2)) ∧
      vs.map TTerm.id = us.map TTerm.id := by
    intro us
    induction us with
    | nil => intro _; exact ⟨[], rfl, by simp, rfl⟩
    | cons u us ih =>
      intro hu
      simp only [List.forall_mem_cons] at hu
      obtain ⟨vs, e, z, i⟩ := ih hu.2
      obtain ⟨c, hc⟩ := hc u hu.1
      obtain ⟨v, v1, v2, _⟩ := termOf_text hc.1 (hp u hu.1)
      refine ⟨v :: vs, by simp [e], ?_, by simp [i, v2]⟩
      simp only [List.map_cons, List.zip_cons_cons, List.forall_mem_cons]
      exact ⟨v1, z⟩
  obtain ⟨vs, e, z, i⟩ := hex ts (fun _ h => h)
  have hloop := (conditionsLoop_iff lib (ts.map TTerm.text) vs).2 ⟨by simp [e], z⟩
  have hids : (lib.sortTerms vs).map TTerm.id = ts.map TTerm.id := by
    apply sorted_ids_unique (lib.sort_sorted vs) hs
    rw [← i]
    exact (lib.sort_perm vs).map _
  refine ⟨lib.sortTerms vs, ?_, hids, termsText_ids hids⟩
  unfold parseSeriesByTag
  rw [termsText_eq, seriesByTagArgs_text _ _ 128 (by simpa using hl)]
  · simp only [R.bind_ok, parseConditions, hloop]
  · intro c hc
    obtain ⟨t, ht, rfl⟩ := List.mem_map.1 hc
    have hpt := hp t ht
    refine ⟨by simp [TTerm.text, hpt.key], ?_⟩
    unfold TTerm.text
    simp only [List.mem_append, not_or]
    refine ⟨⟨hpt.quoteKey, ?_⟩, hpt.quoteValue⟩
    cases t.op <;> decide

/-- Without glob values the terms read back are the very terms printed. -/
theorem reparse_plain_partial (lib : GoLib) (query : Str) (ts : List TTerm)
    (h : parseSeriesByTag lib query = .ok (.ok ts)) (hp : ∀ t ∈ ts, Printable t)
    (hw : ∀ t ∈ ts, t.glob = none ∧ (t.op = .eq ∨ t.op = .ne → hasWildcard t.value = false)) :
    ∃ ts', parseSeriesByTag lib (termsText ts) = .ok (.ok ts') ∧ ts'.Perm ts ∧
      ts'.map TTerm.id = ts.map TTerm.id := by
  obtain ⟨hl, hs, hc⟩ := parseSeriesByTag_inv h
  have hloop : conditionsLoop lib (ts.map TTerm.text) = .ok (.ok ts) := by
    rw [conditionsLoop_iff]
    refine ⟨by simp, ?_⟩
    have : ∀ us : List TTerm, (∀ t ∈ us, t ∈ ts) →
        ∀ x ∈ (us.map TTerm.text).zip us, termOf lib x.1 = .ok (.ok x.2) := by
      intro us
      induction us with
      | nil => intro _ ; simp
      | cons u us ih =>
        intro hu
        simp only [List.forall_mem_cons] at hu
        simp only [List.map_cons, List.zip_cons_cons, List.forall_mem_cons]
        refine ⟨?_, ih hu.2⟩
        obtain ⟨c, hc⟩ := hc u hu.1
        obtain ⟨v, v1, v2, v3⟩ := termOf_text hc.1 (hp u hu.1)
        rw [v1, v3 (hw u hu.1).1 (hw u hu.1).2]
    exact this ts (fun _ h => h)
  obtain ⟨ts', h1, h2, _⟩ := reparse_partial lib query ts h hp
  refine ⟨ts', h1, ?_, h2⟩
  have : parseSeriesByTag lib (termsText ts) = .ok (.ok (lib.sortTerms ts)) := by
    unfold parseSeriesByTag
    rw [termsText_eq, seriesByTagArgs_text _ _ 128 (by simpa using hl)]
    · simp only [R.bind_ok, parseConditions, hloop]
    · intro c hc
      obtain ⟨t, ht, rfl⟩ := List.mem_map.1 hc
      have hpt := hp t ht
      refine ⟨by simp [TTerm.text, hpt.key], ?_⟩
      unfold TTerm.text
      simp only [List.mem_append, not_or]
      refine ⟨⟨hpt.quoteKey, ?_⟩, hpt.quoteValue⟩
      cases t.op <;> decide
  rw [this] at h1
  simp only [R.ok.injEq, Except.ok.injEq] at h1
  rw [← h1]
  exact lib.sort_perm ts

open C24 (normalQuery)

/-- Normalised text, and the normalised text of that. -/
def twice (lib : GoLib) (q : Str) : R (Except TagErr (Str × Str)) := do
  match ← normalQuery lib q with
  | .error e => .ok (.error e)
  | .ok n => do
    match ← normalQuery lib n with
    | .error e => .ok (.error e)
    | .ok m => .ok (.ok (n, m))

example : twice exLib (b!" seriesByTag( 'b = x[cba]*{z,y}' ,\"name =q\", 'c!=~^a')") =
    .ok (.ok (b!"seriesByTag('__name__=q','b=x[a-c]*{y,z}','c!=~^a')",
      b!"seriesByTag('__name__=q','b=x[a-c]*{y,z}','c!=~^a')")) := by decide +kernel

example : Printable { key := b!"b", op := .eq, value := b!"x[a-c]*{y,z}" } :=
  ⟨by decide, by decide, by decide, by decide, by decide +kernel, by decide +kernel⟩

/-- The value `~b`, separated by a space from `=`: printed as a regular expression match. -/
theorem tilde_wrong : twice exLib (b!"seriesByTag('a= ~b(')") = .ok (.error (.exprInvalid (b!"b("))) ∧
    normalQuery exLib (b!"seriesByTag('a= ~b(')") = .ok (.ok (b!"seriesByTag('a=~b(')")) := by
  decide +kernel

/-- A quote in a value. -/
theorem quote_wrong : normalQuery exLib (b!"seriesByTag(\"a=b'c\")") =
      .ok (.ok (b!"seriesByTag('a=b'c')")) ∧
    twice exLib (b!"seriesByTag(\"a=b'c\")") = .ok (.error (.notTerminated (b!"c'"))) := by
  decide +kernel

/-- An empty key. -/
theorem key_wrong : normalQuery exLib (b!"seriesByTag(' =c')") = .ok (.ok (b!"seriesByTag('=c')")) ∧
    twice exLib (b!"seriesByTag(' =c')") = .ok (.error (.exprInvalid (b!"=c"))) := by
  decide +kernel

/-- A class with only a star becomes a bare star; the answers differ. -/
theorem star_wrong :
    normalQuery exLib (b!"seriesByTag('a=[*]')") = .ok (.ok (b!"seriesByTag('a=*')")) ∧
    queryMap exLib (b!"seriesByTag('a=[*]')") [(b!"a", b!"x")] = .ok (.ok false) ∧
    queryMap exLib (b!"seriesByTag('a=*')") [(b!"a", b!"x")] = .ok (.ok true) := by
  decide +kernel

end C46

end GoMatcher
