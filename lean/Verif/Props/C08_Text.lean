import Verif.Props.C08_C09_GlobTree
import Verif.Props.C01_Text
import Verif.Proofs.NoPanic

/-! # C08, C09: histories of arbitrary glob texts

The theorems of `C08_C09_GlobTree` are about written globs.  Here the calls may carry any text
without U+FFFD and NUL, refused ones included: `Spec/GlobText` says how a text is read. -/

namespace GoMatcher

/-- `g` is read as `ts`.  Without braces classes without members may also be left out. -/
def Reading (g : List Char) (ts : List Tok) : Prop :=
  GlobText false g ts ∨ ∃ ss, SubText g ss ∧ ts = ss.map Tok.sub

/-- The text of every call has a reading with `P`, or no reading at all. -/
def TextsRead (P : List Tok → Prop) (ops : List GlobOp) : Prop :=
  ∀ op ∈ ops, ∃ g : List Char, op.text = utf8 g ∧ (∀ c ∈ g, c.toNat ≠ 0xFFFD ∧ c.toNat ≠ 0) ∧
    ((∃ ts, Reading g ts ∧ P ts) ∨ ¬ ∃ ts, GlobText true g ts)

theorem Reading.parse {g : List Char} {ts : List Tok} (h : Reading g ts) (hp : PlainText g) :
    ∃ gl, parseGlob (utf8 g) = .ok (.ok gl) ∧ GlobOk ts gl := by
  rcases h with h | ⟨ss, h, rfl⟩
  · exact parse_text hp h
  · exact parse_noBraces hp h

theorem Reading.globOk {g : List Char} {ts : List Tok} (h : Reading g ts) (hp : PlainText g)
    {gl : Glob} (hg : parseGlob (utf8 g) = .ok (.ok gl)) : GlobOk ts gl := by
  obtain ⟨gl', h1, h2⟩ := h.parse hp
  rw [hg] at h1
  injection h1 with h1
  injection h1 with h1
  rw [h1]
  exact h2

/-- A glob without the byte `*` has no star item. -/
theorem starFree_of_text {s : Str} {g : Glob} (h : parseGlob s = .ok (.ok g))
    (hs : (42 : UInt8) ∉ s) : ∀ x ∈ g.items, StarFree x := by
  intro x hx
  rcases parse_kinds kind_noStar h hs x hx with h | ⟨l, rfl⟩ | ⟨vals, mn, mx, rfl, h⟩
  · cases x <;> first | trivial | exact h.elim
  · trivial
  · intro v hv y hy n e
    have := h v hv y hy
    rw [e] at this
    exact this

/-- Everything that is known about a history of texts. -/
theorem history_text {P : List Tok → Prop} {ops : List GlobOp} (hp : ∀ op ∈ ops, op.Parsed)
    (hw : TextsRead P ops) : ∃ t L, runGlobTree ops = .ok (t, L) ∧ TreeOk L t.root ∧
      (∀ x ∈ L, parseGlob x.1.glob = .ok (.ok x.1) ∧ ∃ g ts, x.1.glob = utf8 g ∧ PlainText g ∧
        Reading g ts ∧ P ts ∧ GlobOk ts x.1) ∧
      ((∀ op ∈ ops, op.Normal) → L.Pairwise fun x y => x.1.node ≠ y.1.node) := by
  obtain ⟨t, L, h1, h2, h3, h4⟩ := runGlobTree_spec ops hp
  have hL : ∀ x ∈ L, parseGlob x.1.glob = .ok (.ok x.1) ∧ ∃ g ts, x.1.glob = utf8 g ∧ PlainText g ∧
        Reading g ts ∧ P ts ∧ GlobOk ts x.1 := by
    intro x hx
    obtain ⟨s, hs⟩ := h3 x hx
    have hs' := hs
    rw [← parseGlob_glob hs] at hs'
    refine ⟨hs', ?_⟩
    rcases runGlobOps_text ops _ _ _ _ h1 x hx with h | ⟨op, ho, e⟩
    · simp at h
    · obtain ⟨g, w1, w2, w3⟩ := hw op ho
      rw [e, w1] at hs'
      rcases w3 with ⟨ts, w3, w4⟩ | w3
      · exact ⟨g, ts, e.trans w1, w2, w3, w4, w3.globOk w2 hs'⟩
      · exact absurd (parse_inv w2 hs') w3
  refine ⟨t, L, h1, ?_, hL, h4⟩
  rw [h2]
  refine treeOk_treeOf L (fun x hx => ?_)
  obtain ⟨_, _, _, _, _, _, _, hG⟩ := hL x hx
  exact hG.loc_steps

/-- Texts without braces, accepted or not. -/
theorem textsRead_noBraces {ops : List GlobOp} (h : ∀ op ∈ ops, ∃ g : List Char,
    op.text = utf8 g ∧ (∀ c ∈ g, c.toNat ≠ 0xFFFD ∧ c.toNat ≠ 0) ∧ '{' ∉ g) :
    TextsRead (fun ts => ∃ ss : List Sub, ts = ss.map Tok.sub) ops := by
  intro op ho
  obtain ⟨g, h1, h2, h3⟩ := h op ho
  refine ⟨g, h1, h2, ?_⟩
  by_cases hx : ∃ ts, GlobText true g ts
  · obtain ⟨ts, hx⟩ := hx
    obtain ⟨ss, hs⟩ := hx.subs h3
    exact .inl ⟨_, .inr ⟨ss, hs, rfl⟩, ss, rfl⟩
  · exact .inr hx

theorem TextsRead.mono {P Q : List Tok → Prop} {ops : List GlobOp} (h : TextsRead P ops)
    (hpq : ∀ ts, P ts → Q ts) : TextsRead Q ops := by
  intro op ho
  obtain ⟨g, h1, h2, h3⟩ := h op ho
  refine ⟨g, h1, h2, h3.imp ?_ id⟩
  rintro ⟨ts, a, b⟩
  exact ⟨ts, a, hpq ts b⟩

namespace C08

/-- Full statement (not true of the code): every stored pair belongs to an accepted glob that
the text fits.  Here for texts whose reading has `Shape false` (see C02), and refused texts, after
every history of `Add` and `AddGlob`.  Missing: other readings, alternatives of which
empty classes leave nothing or just a star,
U+FFFD and NUL in globs. -/
theorem stored_fits_text_partial (ops : List GlobOp) (hp : ∀ op ∈ ops, op.Parsed)
    (hw : TextsRead (Shape false .plain) ops) :
    ∃ t L, runGlobTree ops = .ok (t, L) ∧ ∀ (cs : List Char),
      ∀ r, t.Returns (utf8 cs) r → ∀ e ∈ r.1, ∃ x ∈ L, e = (x.1.node, x.2) ∧
        ∀ g ts, x.1.glob = utf8 g → Reading g ts → Fits ts cs := by
  obtain ⟨t, L, h1, hT, hL, _⟩ := history_text hp hw
  refine ⟨t, L, h1, fun cs r ⟨fuel, hr⟩ e he => ?_⟩
  have hr' : t.root.matches fuel (utf8 cs) = .ok r := hr
  obtain ⟨x, hx, e1, _, e2⟩ := (root_spec (ex := false) hT
    (fun x hx => by obtain ⟨_, _, ts, _, _, _, b, a⟩ := hL x hx; exact ⟨ts, a, b⟩) fuel (cs := cs)
    ⟨r, hr'⟩).1 e ⟨r, hr', he⟩
  refine ⟨x, hx, e1, fun g ts h2 h3 => e2 ts ?_⟩
  obtain ⟨hx', g', _, h4, h5, _⟩ := hL x hx
  have : g = g' := utf8_inj (by rw [← h2, h4])
  subst this
  rw [h2] at hx'
  exact h3.globOk h5 hx'

/-- Full statement (not true of the code): a pair is stored iff it belongs to an accepted glob
whose own `Match` answers `true`.  Missing: see `stored_iff_partial`, and alternatives with empty
classes, U+FFFD and NUL in globs. -/
theorem stored_iff_text_partial (ops : List GlobOp) (hp : ∀ op ∈ ops, op.Parsed)
    (hn : ∀ op ∈ ops, op.Normal)
    (hw : TextsRead (fun ts => Shape true .plain ts ∧ MaxOk ts) ops) :
    ∃ t L, runGlobTree ops = .ok (t, L) ∧
      ((∀ x ∈ L, ∀ y ∈ L, Hides x.1 y.1 → (42 : UInt8) ∉ x.1.glob) →
      ∀ (cs : List Char), ((∀ x ∈ L, (91 : UInt8) ∉ x.1.glob) ∨ ∀ c ∈ cs, c.toNat ≠ 0xFFFD) →
        ∀ r, t.Returns (utf8 cs) r →
        ∀ e, e ∈ r.1 ↔ ∃ x ∈ L, e = (x.1.node, x.2) ∧ x.1.items ≠ [] ∧
          x.1.matches (utf8 cs) = .ok true) := by
  obtain ⟨t, L, h1, hT, hL, hpw⟩ := history_text hp hw
  refine ⟨t, L, h1, fun hh cs hcs r ⟨fuel, hr⟩ e => ?_⟩
  have hr' : t.root.matches fuel (utf8 cs) = .ok r := hr
  have hL' : Written true L := fun x hx => by
    obtain ⟨_, _, ts, _, _, _, b, a⟩ := hL x hx; exact ⟨ts, a, b.1⟩
  have hsp := root_spec hT hL' fuel (cs := cs) ⟨r, hr'⟩
  have hcl : ∀ x ∈ L, CleanSeq x.1.items cs := fun x hx =>
    hcs.elim (fun h => .inr (parse_noClass (hL x hx).1 (h x hx))) .inl
  have own : ∀ x ∈ L, x.1.items ≠ [] →
      ∃ ts, GlobOk ts x.1 ∧ (x.1.matches (utf8 cs) = .ok true ↔ Fits ts cs) := by
    intro x hx hi
    obtain ⟨_, _, ts, _, _, _, c, a⟩ := hL x hx
    obtain ⟨b', hb, k1, k2⟩ := matches_spec' a c.1 (fun h => absurd h hi) cs
    refine ⟨ts, a, ?_⟩
    rw [hb]
    constructor
    · intro h; injection h with h; exact k1 h
    · intro h; rw [k2 rfl (hcl x hx) c.2 h]
  constructor
  · intro he
    obtain ⟨x, hx, e1, e2, e3⟩ := hsp.1 e ⟨r, hr', he⟩
    obtain ⟨ts, a, b⟩ := own x hx e2
    exact ⟨x, hx, e1, e2, b.2 (e3 ts a)⟩
  · rintro ⟨x, hx, rfl, hi, hm⟩
    obtain ⟨L1, L2, rfl⟩ := List.append_of_mem hx
    obtain ⟨ts, a, b⟩ := own x hx hi
    obtain ⟨r', k1, k2⟩ := hsp.2 rfl (by
      intro y hy z hz _ hyz
      exact starFree_of_text (hL y hy).1 (hh y hy z hz hyz)) L1 x L2 rfl (by
      intro y hy
      have := hpw hn
      rw [List.pairwise_append] at this
      exact fun e => (List.pairwise_cons.1 this.2.1).1 y hy e.symm) hi (hcl x hx) ⟨ts, a, b.1 hm⟩
    rw [hr'] at k1
    injection k1 with k1
    rw [k1]
    exact k2

/-- Every history of calls with texts without `{`, malformed texts included: soundness.
Missing: braces. -/
theorem stored_fits_noBraces_partial (adds : List (List Char × Int))
    (hp : ∀ a ∈ adds, '{' ∉ a.1 ∧ ∀ c ∈ a.1, c.toNat ≠ 0xFFFD ∧ c.toNat ≠ 0) :
    ∃ t L, runGlobTree (adds.map fun a => .add (utf8 a.1) a.2) = .ok (t, L) ∧
      ∀ (cs : List Char),
      ∀ r, t.Returns (utf8 cs) r → ∀ e ∈ r.1, ∃ x ∈ L, e = (x.1.node, x.2) ∧
        ∀ g ss, x.1.glob = utf8 g → SubText g ss → subsFit ss cs := by
  obtain ⟨t, L, h1, h2⟩ := stored_fits_text_partial
    (adds.map fun a => .add (utf8 a.1) a.2) (by
      intro op ho
      obtain ⟨a, _, rfl⟩ := List.mem_map.1 ho
      trivial) ((textsRead_noBraces (by
      intro op ho
      obtain ⟨a, ha, rfl⟩ := List.mem_map.1 ho
      exact ⟨a.1, rfl, (hp a ha).2, (hp a ha).1⟩)).mono (by
      rintro ts ⟨ss, rfl⟩
      exact shape_subs_plain false ss))
  refine ⟨t, L, h1, fun cs r hr e he => ?_⟩
  obtain ⟨x, hx, e1, e2⟩ := h2 cs r hr e he
  refine ⟨x, hx, e1, fun g ss h3 h4 => ?_⟩
  rw [← fits_subs]
  exact e2 g _ h3 (.inr ⟨ss, h4, rfl⟩)

/-- Every history of calls with texts without `{`, malformed texts included: a pair is stored iff it
belongs to an accepted glob with wildcards whose own `Match` answers `true`, unless a glob with a
star begins another one.  Missing: braces. -/
theorem stored_iff_noBraces_partial (adds : List (List Char × Int))
    (hp : ∀ a ∈ adds, '{' ∉ a.1 ∧ ∀ c ∈ a.1, c.toNat ≠ 0xFFFD ∧ c.toNat ≠ 0) :
    ∃ t L, runGlobTree (adds.map fun a => .add (utf8 a.1) a.2) = .ok (t, L) ∧
      ((∀ x ∈ L, ∀ y ∈ L, Hides x.1 y.1 → (42 : UInt8) ∉ x.1.glob) →
      ∀ (cs : List Char), ((∀ x ∈ L, (91 : UInt8) ∉ x.1.glob) ∨ ∀ c ∈ cs, c.toNat ≠ 0xFFFD) →
        ∀ r, t.Returns (utf8 cs) r →
        ∀ e, e ∈ r.1 ↔ ∃ x ∈ L, e = (x.1.node, x.2) ∧ x.1.items ≠ [] ∧
          x.1.matches (utf8 cs) = .ok true) := by
  refine stored_iff_text_partial _ ?_ ?_ ((textsRead_noBraces ?_).mono ?_)
  · intro op ho
    obtain ⟨a, _, rfl⟩ := List.mem_map.1 ho
    trivial
  · intro op ho
    obtain ⟨a, _, rfl⟩ := List.mem_map.1 ho
    trivial
  · intro op ho
    obtain ⟨a, ha, rfl⟩ := List.mem_map.1 ho
    exact ⟨a.1, rfl, (hp a ha).2, (hp a ha).1⟩
  · rintro ts ⟨ss, rfl⟩
    exact ⟨shape_subs_plain true ss, C01.maxOk_subs ss⟩

/-- `a[]b*`, `[c-a]` (refused), `a[b-]?`, `*]` (refused), `[-x]*`. -/
def exAdds : List (List Char × Int) :=
  [("a[]b*".toList, 0), ("[c-a]".toList, 1), ("a[b-]?".toList, 2), ("*]".toList, 3),
   ("[-x]*".toList, 4)]

example : ∀ a ∈ exAdds, '{' ∉ a.1 ∧ ∀ c ∈ a.1, c.toNat ≠ 0xFFFD ∧ c.toNat ≠ 0 := by decide
/-- Three are accepted, none hides another, two are reported. -/
example : ∃ t L, runGlobTree (exAdds.map fun a => .add (utf8 a.1) a.2) = .ok (t, L) ∧
    (∀ x ∈ L, ∀ y ∈ L, Hides x.1 y.1 → (42 : UInt8) ∉ x.1.glob) ∧ L.length = 3 ∧
    t.Returns (b! "abc") ([(b! "ab*", 0), (b! "ab?", 2)], 2) := by
  have h : (do
    let (t, L) ← runGlobTree (exAdds.map fun a => .add (utf8 a.1) a.2)
    let r ← t.matches 60 (b! "abc")
    .ok (decide (L.length = 3) && (L.all fun x => L.all fun y => !mayHide x.1 y.1) &&
      decide (r = ([(b! "ab*", 0), (b! "ab?", 2)], 2))) : R Bool) = .ok true := by decide +kernel
  obtain ⟨⟨t, L⟩, h1, h⟩ := R.bind_eq_ok.1 h
  obtain ⟨r, h2, h⟩ := R.bind_eq_ok.1 h
  simp only [R.ok.injEq, Bool.and_eq_true, decide_eq_true_eq] at h
  refine ⟨t, L, h1, ?_, h.1.1, 60, by rw [h2, h.2]⟩
  intro x hx y hy hxy
  have h3 := List.all_eq_true.1 (List.all_eq_true.1 h.1.2 x hx) y hy
  simp [hides_mayHide hxy] at h3

/-- With braces: `x[]{a*}[a-c-]{b,?}` has an exact reading. -/
example : TextsRead (fun ts => Shape true .plain ts ∧ MaxOk ts)
    [.add (utf8 C01.exText) 3, .add (utf8 "{a,[}".toList) 4] := by
  intro op ho
  rcases List.mem_cons.1 ho with rfl | ho
  · exact ⟨_, rfl, by decide, .inl ⟨_, .inl C01.exText_reads, by decide +kernel⟩⟩
  · rw [List.mem_singleton.1 ho]
    have hp : PlainText "{a,[}".toList := by unfold PlainText; decide
    refine ⟨_, rfl, hp, .inr fun h => ?_⟩
    obtain ⟨gl, h⟩ := (C51.accepted_iff_partial _ hp).2 h
    have : parseGlob (utf8 "{a,[}".toList) = .ok (.error (.mismatch (b! "rune") (b! "["))) := by rfl
    rw [this] at h
    cases h

end C08

namespace C09

/-- Full statement (not true of the code): `Match` returns for every history and every byte string.
Here for texts whose reading has `Shape false` and stars at the end of alternatives only, and
refused texts.  Missing: other readings, alternatives of which
empty classes leave nothing or just a star, U+FFFD and NUL. -/
theorem terminates_text_partial (ops : List GlobOp) (hp : ∀ op ∈ ops, op.Parsed)
    (hw : TextsRead (fun ts => Shape false .plain ts ∧ StarsEnd ts) ops) :
    ∃ t L N, runGlobTree ops = .ok (t, L) ∧ ∀ s, ∃ r, t.matches (N + s.length) s = .ok r := by
  obtain ⟨t, L, h1, hT, hL, _⟩ := history_text hp hw
  obtain ⟨N, hN⟩ := root_safe hT (by
    intro x hx
    obtain ⟨_, _, ts, _, _, _, b, a⟩ := hL x hx
    exact ⟨ts, a, b⟩)
  exact ⟨t, L, N, h1, fun s => hN s (N + s.length) (Nat.le_refl _)⟩

/-- Every history of texts without `{`, malformed ones included: `Match` returns on all byte
strings, with a depth linear in their length.  Missing: braces. -/
theorem terminates_every_noBraces_partial (adds : List (List Char × Int))
    (hp : ∀ a ∈ adds, '{' ∉ a.1 ∧ ∀ c ∈ a.1, c.toNat ≠ 0xFFFD ∧ c.toNat ≠ 0) :
    ∃ t L N, runGlobTree (adds.map fun a => .add (utf8 a.1) a.2) = .ok (t, L) ∧
      ∀ s, ∃ r, t.matches (N + s.length) s = .ok r := by
  refine terminates_text_partial _ ?_ ((textsRead_noBraces ?_).mono ?_)
  · intro op ho
    obtain ⟨a, _, rfl⟩ := List.mem_map.1 ho
    trivial
  · intro op ho
    obtain ⟨a, ha, rfl⟩ := List.mem_map.1 ho
    exact ⟨a.1, rfl, (hp a ha).2, (hp a ha).1⟩
  · rintro ts ⟨ss, rfl⟩
    refine ⟨shape_subs_plain false ss, fun alts ha => ?_⟩
    obtain ⟨s, _, e⟩ := List.mem_map.1 ha
    cases e

example : runMatch (C08.exAdds.map fun a => .add (utf8 a.1) a.2) 60 [97, 98, 0xff] =
    .ok ([(b! "ab*", 0), (b! "ab?", 2)], 2) := by decide +kernel

end C09
end GoMatcher
