import Verif.Proofs.GlobTreeHist
import Verif.Proofs.TreeMono
import Verif.Props.C01_C03_Match

/-! # C08, C09: the batch matcher for globs

A history is a list of calls `Add`/`AddGlob` on an empty tree.  `runGlobTree ops` gives the
tree and the list of accepted globs with their indexes. -/

namespace GoMatcher

theorem finishGlob_glob (g : Glob) : (finishGlob g).glob = g.glob := by
  unfold finishGlob
  dsimp only
  (repeat' split) <;> rfl

/-- `Parse` records the text. -/
theorem parseGlob_glob {s : Str} {g : Glob} (h : parseGlob s = .ok (.ok g)) : g.glob = s := by
  unfold parseGlob at h
  split at h
  · cases h; rfl
  · obtain ⟨pref, _, h⟩ := R.bind_eq_ok.1 h
    obtain ⟨body, _, h⟩ := R.bind_eq_ok.1 h
    split at h
    · split at h
      · cases h
      · obtain ⟨⟨b, suff⟩, _, h⟩ := R.bind_eq_ok.1 h
        dsimp only at h
        split at h
        · simp only [R.ok.injEq, Except.ok.injEq] at h
          rw [← h, finishGlob_glob]
        · split at h
          · simp only [R.ok.injEq, Except.ok.injEq] at h
            rw [← h, finishGlob_glob]
          · obtain ⟨r, _, h⟩ := R.bind_eq_ok.1 h
            split at h
            · cases h
            · simp only [R.ok.injEq, Except.ok.injEq] at h
              rw [← h, finishGlob_glob]
    · cases h

/-- The text of the glob of a call. -/
def GlobOp.text : GlobOp → Str
  | .add s _ => s
  | .addGlob g _ => g.glob

theorem runGlobOps_text (ops : List GlobOp) (t0 t : GlobTree) (L0 L : List (Glob × Int))
    (h : runGlobOps t0 L0 ops = .ok (t, L)) :
    ∀ x ∈ L, x ∈ L0 ∨ ∃ op ∈ ops, x.1.glob = op.text := by
  induction ops generalizing t0 L0 with
  | nil =>
    simp only [runGlobOps, R.ok.injEq, Prod.mk.injEq] at h
    intro x hx
    rw [h.2]
    exact .inl hx
  | cons op ops ih =>
    rw [runGlobOps] at h
    obtain ⟨r, _, h⟩ := R.bind_eq_ok.1 h
    intro x hx
    rcases ih _ _ h x hx with h1 | ⟨op', ho, h1⟩
    · rcases List.mem_append.1 h1 with h1 | h1
      · exact .inl h1
      · refine .inr ⟨op, by simp, ?_⟩
        cases op with
        | add s i =>
          simp only [GlobOp.accepted] at h1
          split at h1
          · simp at h1
          · split at h1
            · rename_i g hg
              rw [List.mem_singleton.1 h1]
              exact parseGlob_glob hg
            · simp at h1
        | addGlob g i =>
          simp only [GlobOp.accepted] at h1
          split at h1
          · simp at h1
          · rw [List.mem_singleton.1 h1]; rfl
    · exact .inr ⟨op', by simp [ho], h1⟩

/-- The call `Match(s)` on the tree returns, with the calls of `Store` and the counter in `r`. -/
def GlobTree.Returns (t : GlobTree) (s : Str) (r : Ev) : Prop := ∃ fuel, t.matches fuel s = .ok r

/-- There is one answer. -/
theorem GlobTree.Returns.unique {t : GlobTree} {s : Str} {r r' : Ev} (h : t.Returns s r)
    (h' : t.Returns s r') : r = r' := by
  obtain ⟨f, h⟩ := h
  obtain ⟨f', h'⟩ := h'
  unfold GlobTree.matches at h h'
  rcases Nat.le_total f f' with hf | hf
  · have := tree_matches_mono hf t.root s (by rw [h]; simp)
    rw [h, h'] at this
    simpa using this.symm
  · have := tree_matches_mono hf t.root s (by rw [h']; simp)
    rw [h, h'] at this
    simpa using this

theorem utf8_mem_star {cs : List Char} (h : '*' ∈ cs) : (42 : UInt8) ∈ utf8 cs := by
  obtain ⟨a, b, rfl⟩ := List.append_of_mem h
  rw [utf8_append, utf8_cons]
  refine List.mem_append_right _ (List.mem_append_left _ ?_)
  decide

theorem mem_renderSubs_star {ss : List Sub} (h : .star ∈ ss) : '*' ∈ renderSubs ss := by
  unfold renderSubs
  rw [List.mem_flatMap]
  exact ⟨.star, h, by simp [Sub.render]⟩

theorem renderAlts_mem {alts : List (List Sub)} {a : List Sub} (h : a ∈ alts) {c : Char}
    (hc : c ∈ renderSubs a) : c ∈ renderAlts alts := by
  induction alts with
  | nil => simp at h
  | cons b l ih =>
    cases l with
    | nil =>
      rw [List.mem_singleton.1 h] at hc
      exact hc
    | cons d l =>
      rw [renderAlts]
      rcases List.mem_cons.1 h with rfl | h
      · exact List.mem_append_left _ hc
      · exact List.mem_append_right _ (List.mem_cons_of_mem _ (ih h))

/-- A glob whose text contains no `*` has no star token. -/
theorem not_hasStar {ts : List Tok} (h : (42 : UInt8) ∉ utf8 (renderGlob ts)) : ¬ HasStar ts := by
  intro hs
  apply h
  apply utf8_mem_star
  unfold renderGlob
  rw [List.mem_flatMap]
  rcases hs with hs | ⟨alts, a, h1, h2, h3⟩
  · exact ⟨_, hs, by simp [Tok.render, Sub.render]⟩
  · refine ⟨_, h1, ?_⟩
    simp only [Tok.render]
    exact List.mem_cons_of_mem _ (List.mem_append_left _ (renderAlts_mem h2 (mem_renderSubs_star h3)))

/-- The glob of every call is the text of tokens with the property `P`. -/
def TextsOf (P : List Tok → Prop) (ops : List GlobOp) : Prop :=
  ∀ op ∈ ops, ∃ ts, (∀ t ∈ ts, t.Ok) ∧ P ts ∧ op.text = utf8 (renderGlob ts)

theorem globOk_of_glob {s : Str} {g : Glob} (h : parseGlob s = .ok (.ok g)) {ts : List Tok}
    (hok : ∀ t ∈ ts, t.Ok) (ht : g.glob = utf8 (renderGlob ts)) : GlobOk ts g := by
  obtain ⟨g', h1, h2⟩ := parse_spec ts hok
  rw [parseGlob_glob h] at ht
  rw [← ht, h] at h1
  simp only [R.ok.injEq, Except.ok.injEq] at h1
  rw [h1]
  exact h2

/-- Everything that is known about a history of written globs. -/
theorem history {P : List Tok → Prop} {ops : List GlobOp} (hp : ∀ op ∈ ops, op.Parsed)
    (hw : TextsOf P ops) : ∃ t L, runGlobTree ops = .ok (t, L) ∧ TreeOk L t.root ∧
      (∀ x ∈ L, ∃ ts, GlobOk ts x.1 ∧ (∀ t ∈ ts, t.Ok) ∧ P ts ∧ x.1.glob = utf8 (renderGlob ts)) ∧
      (∀ x ∈ L, ∃ s, parseGlob s = .ok (.ok x.1)) ∧
      ((∀ op ∈ ops, op.Normal) → L.Pairwise fun x y => x.1.node ≠ y.1.node) := by
  obtain ⟨t, L, h1, h2, h3, h4⟩ := runGlobTree_spec ops hp
  have hL : ∀ x ∈ L, ∃ ts, GlobOk ts x.1 ∧ (∀ t ∈ ts, t.Ok) ∧ P ts ∧
      x.1.glob = utf8 (renderGlob ts) := by
    intro x hx
    rcases runGlobOps_text ops _ _ _ _ h1 x hx with h | ⟨op, ho, e⟩
    · simp at h
    · obtain ⟨ts, w1, w2, w3⟩ := hw op ho
      obtain ⟨s, hs⟩ := h3 x hx
      exact ⟨ts, globOk_of_glob hs w1 (e.trans w3), w1, w2, e.trans w3⟩
  refine ⟨t, L, h1, ?_, hL, h3, h4⟩
  rw [h2]
  refine treeOk_treeOf L (fun x hx => ?_)
  obtain ⟨ts, hG, _⟩ := hL x hx
  exact hG.loc_steps

/-- Runs the calls and then `Match`. -/
def runMatch (ops : List GlobOp) (fuel : Nat) (s : Str) : R Ev := do
  let (t, _) ← runGlobTree ops
  t.matches fuel s

theorem runMatch_returns {ops : List GlobOp} {fuel : Nat} {s : Str} {r : Ev}
    (h : runMatch ops fuel s = .ok r) :
    ∃ t L, runGlobTree ops = .ok (t, L) ∧ t.Returns s r := by
  obtain ⟨⟨t, L⟩, h1, h2⟩ := R.bind_eq_ok.1 h
  exact ⟨t, L, h1, fuel, h2⟩

/-- `Parse(glob)` and `Match(s)` for all globs of a list. -/
def ownMatches (globs : List Str) (s : Str) : List (R (Except GErr Bool)) :=
  globs.map fun g => matchText g s

namespace C08

/-- Full statement (not true of the code): every stored pair belongs to an accepted glob that
the text fits.  Here for globs of shape `Shape false` (see C02) after
every history of `Add` and `AddGlob`. -/
theorem stored_fits_partial (ops : List GlobOp) (hp : ∀ op ∈ ops, op.Parsed)
    (hw : TextsOf (Shape false .plain) ops) :
    ∃ t L, runGlobTree ops = .ok (t, L) ∧ ∀ (cs : List Char),
      ∀ r, t.Returns (utf8 cs) r → ∀ e ∈ r.1, ∃ x ∈ L, e = (x.1.node, x.2) ∧
        ∀ ts : List Tok, (∀ t ∈ ts, t.Ok) → x.1.glob = utf8 (renderGlob ts) → Fits ts cs := by
  obtain ⟨t, L, h1, hT, hL, hs, _⟩ := history hp hw
  refine ⟨t, L, h1, fun cs r ⟨fuel, hr⟩ e he => ?_⟩
  have hr' : t.root.matches fuel (utf8 cs) = .ok r := hr
  obtain ⟨x, hx, e1, _, e2⟩ := (root_spec (ex := false) hT
    (fun x hx => by obtain ⟨ts, a, _, b, _⟩ := hL x hx; exact ⟨ts, a, b⟩) fuel (cs := cs)
    ⟨r, hr'⟩).1 e ⟨r, hr', he⟩
  obtain ⟨s, hs⟩ := hs x hx
  exact ⟨x, hx, e1, fun ts h2 h3 => e2 ts (globOk_of_glob hs h2 h3)⟩

/-- The restrictions for exactness of the single matcher (C01). -/
def Exact (ts : List Tok) : Prop :=
  Shape true .plain ts ∧ MaxOk ts ∧ ∀ t ∈ ts, t.noStarClass

/-- Full statement (not true of the code): a pair is stored iff it belongs to an accepted glob
whose own `Match` answers `true`.  Missing here:
* globs without any wildcard are accepted but never reported (`x.1.items = []`, see
  `plain_never_stored` below);
* a glob with a star whose items are a beginning of those of another accepted glob (`Hides`)
  may be lost, see `star_prefix_wrong`;
* globs outside the shapes of C01, texts with U+FFFD if some glob has a class;
* `AddGlob` with globs not in normal form (see `addGlob_wrong` in C10). -/
theorem stored_iff_partial (ops : List GlobOp) (hp : ∀ op ∈ ops, op.Parsed)
    (hn : ∀ op ∈ ops, op.Normal) (hw : TextsOf Exact ops) :
    ∃ t L, runGlobTree ops = .ok (t, L) ∧
      ((∀ x ∈ L, ∀ y ∈ L, Hides x.1 y.1 → (42 : UInt8) ∉ x.1.glob) →
      ∀ (cs : List Char), ((∀ x ∈ L, (91 : UInt8) ∉ x.1.glob) ∨ ∀ c ∈ cs, c.toNat ≠ 0xFFFD) →
        ∀ r, t.Returns (utf8 cs) r →
        ∀ e, e ∈ r.1 ↔ ∃ x ∈ L, e = (x.1.node, x.2) ∧ x.1.items ≠ [] ∧
          x.1.matches (utf8 cs) = .ok true) := by
  obtain ⟨t, L, h1, hT, hL, hs, hpw⟩ := history hp hw
  refine ⟨t, L, h1, fun hh cs hcs r ⟨fuel, hr⟩ e => ?_⟩
  have hr' : t.root.matches fuel (utf8 cs) = .ok r := hr
  have hL' : Written true L := fun x hx => by obtain ⟨ts, a, _, b, _⟩ := hL x hx; exact ⟨ts, a, b.1⟩
  have hsp := root_spec hT hL' fuel (cs := cs) ⟨r, hr'⟩
  have hcl : ∀ x ∈ L, CleanSeq x.1.items cs := by
    intro x hx
    obtain ⟨s, hs⟩ := hs x hx
    exact hcs.elim (fun h => .inr (parse_noClass hs (by rw [← parseGlob_glob hs]; exact h x hx))) .inl
  have own : ∀ x ∈ L, ∃ ts, GlobOk ts x.1 ∧ (x.1.matches (utf8 cs) = .ok true ↔ Fits ts cs) := by
    intro x hx
    obtain ⟨ts, a, b, c, _⟩ := hL x hx
    obtain ⟨b', hb, k1, k2⟩ := matches_spec a c.1 (not_onlyStar ts b c.2.2) cs
    refine ⟨ts, a, ?_⟩
    rw [hb]
    constructor
    · intro h; injection h with h; exact k1 h
    · intro h; rw [k2 rfl (hcl x hx) c.2.1 h]
  constructor
  · intro he
    obtain ⟨x, hx, e1, e2, e3⟩ := hsp.1 e ⟨r, hr', he⟩
    obtain ⟨ts, a, b⟩ := own x hx
    exact ⟨x, hx, e1, e2, b.2 (e3 ts a)⟩
  · rintro ⟨x, hx, rfl, hi, hm⟩
    obtain ⟨L1, L2, rfl⟩ := List.append_of_mem hx
    obtain ⟨ts, a, b⟩ := own x hx
    obtain ⟨r', k1, k2⟩ := hsp.2 rfl (by
      intro y hy z hz _ hyz
      obtain ⟨us, c, _, _, d⟩ := hL y hy
      refine c.nostar (not_hasStar ?_)
      rw [← d]
      exact hh y hy z hz hyz) L1 x L2 rfl (by
      intro y hy
      have := hpw hn
      rw [List.pairwise_append] at this
      exact fun e => (List.pairwise_cons.1 this.2.1).1 y hy e.symm) hi (hcl x hx) ⟨ts, a, b.1 hm⟩
    rw [hr'] at k1
    injection k1 with k1
    rw [k1]
    exact k2

/-- One glob alone: the pair is stored iff the glob matches. -/
theorem one_glob_partial (ts : List Tok) (hok : ∀ t ∈ ts, t.Ok) (hex : Exact ts) (i : Int)
    (hi : 0 ≤ i) : ∃ g, parseGlob (utf8 (renderGlob ts)) = .ok (.ok g) ∧ (g.items ≠ [] →
      ∃ t r, ({} : GlobTree).add (utf8 (renderGlob ts)) i = .ok (t, r) ∧
      ∀ (cs : List Char), ('[' ∉ renderGlob ts ∨ ∀ c ∈ cs, c.toNat ≠ 0xFFFD) →
        ∀ r, t.Returns (utf8 cs) r → ∀ e, e ∈ r.1 ↔ e = (g.node, i) ∧ Fits ts cs) := by
  obtain ⟨g, hg, hG⟩ := parse_spec ts hok
  refine ⟨g, hg, fun hne => ?_⟩
  have hs : utf8 (renderGlob ts) ≠ [] := by
    intro e
    rw [e] at hg
    have : g = { glob := [], node := [], minLen := 0, maxLen := 0 } := by
      have h0 : parseGlob [] = .ok (.ok { glob := [], node := [], minLen := 0, maxLen := 0 }) := rfl
      rw [h0] at hg
      simp only [R.ok.injEq, Except.ok.injEq] at hg
      exact hg.symm
    rw [this] at hne
    exact hne rfl
  obtain ⟨t, L, h1, h2⟩ := stored_iff_partial [.add (utf8 (renderGlob ts)) i] (by simp [GlobOp.Parsed])
    (by simp [GlobOp.Normal]) (by
      intro op ho
      rw [List.mem_singleton.1 ho]
      exact ⟨ts, hok, hex, rfl⟩)
  simp only [runGlobOps] at h1
  obtain ⟨⟨t', r⟩, h3, h1⟩ := R.bind_eq_ok.1 h1
  simp only [R.ok.injEq, Prod.mk.injEq, List.nil_append] at h1
  obtain ⟨rfl, rfl⟩ := h1
  refine ⟨t', r, h3, fun cs hcs r' hr e => ?_⟩
  have hacc : GlobOp.accepted r (.add (utf8 (renderGlob ts)) i) = [(g, i)] := by
    have h3' : ({} : GlobTree).add (utf8 (renderGlob ts)) i = .ok (t', r) := h3
    simp only [GlobTree.add] at h3'
    rw [if_neg hs, if_neg (by omega)] at h3'
    simp only [GoMap.get, hg, R.bind_ok, R.ok.injEq,
      Prod.mk.injEq] at h3'
    simp only [GlobOp.accepted, hg, hs, ← h3'.2]
    rfl
  rw [hacc] at h2
  have hcs' : (∀ x ∈ [(g, i)], (91 : UInt8) ∉ x.1.glob) ∨ ∀ c ∈ cs, c.toNat ≠ 0xFFFD := by
    refine hcs.imp (fun h x hx => ?_) id
    rw [List.mem_singleton.1 hx, parseGlob_glob hg]
    exact not_bracket h
  rw [h2 ?_ cs hcs' r' hr e]
  · obtain ⟨b, hb, k1, k2⟩ := matches_spec hG hex.1 (not_onlyStar ts hok hex.2.2) cs
    constructor
    · rintro ⟨x, hx, rfl, _, hm⟩
      rw [List.mem_singleton.1 hx] at hm ⊢
      rw [hb] at hm
      injection hm with hm
      exact ⟨rfl, k1 hm⟩
    · rintro ⟨rfl, hf⟩
      exact ⟨(g, i), by simp, rfl, hne, by rw [hb, k2 rfl (parse_clean hg hcs) hex.2.1 hf]⟩
  · intro x hx y hy hxy
    rw [List.mem_singleton.1 hx, List.mem_singleton.1 hy] at hxy
    obtain ⟨_, A, s, hr, e1, e2⟩ := hxy
    rw [e1] at e2
    have := congrArg List.length e2
    simp only [List.length_append] at this
    have : s.length = 0 := by omega
    exact absurd (List.length_eq_zero_iff.1 this) hr

/-- The returned counter is the number of calls of `Store`, for every tree. -/
theorem counter (t : GlobTree) (s : Str) (r : Ev) (h : t.Returns s r) : r.2 = r.1.length := by
  obtain ⟨fuel, h⟩ := h
  exact cnt_matches fuel t.root s r h

/-! ### Examples: the hypotheses are met -/

/-- `ab*c?`, `a[b-d]*`, `a?{x,yz}`, `?b*c`, `*.e`, `a{,b}` -/
def exGlobs : List (List Tok) :=
  [[.sub (.lit 'a'), .sub (.lit 'b'), .sub .star, .sub (.lit 'c'), .sub .any],
   [.sub (.lit 'a'), .sub (.cls [.range 'b' 'd']), .sub .star],
   [.sub (.lit 'a'), .sub .any, .alt [[.lit 'x'], [.lit 'y', .lit 'z']]],
   [.sub .any, .sub (.lit 'b'), .sub .star, .sub (.lit 'c')],
   [.sub .star, .sub (.lit '.'), .sub (.lit 'e')],
   [.sub (.lit 'a'), .alt [[], [.lit 'b']]]]

def exOps : List GlobOp :=
  exGlobs.zipIdx.map fun x => .add (utf8 (renderGlob x.1)) x.2

example : exGlobs.map renderGlob = ["ab*c?".toList, "a[b-d]*".toList, "a?{x,yz}".toList,
    "?b*c".toList, "*.e".toList, "a{,b}".toList] := by decide +kernel

theorem exTexts : TextsOf Exact exOps := by
  intro op ho
  obtain ⟨x, hx, rfl⟩ := List.mem_map.1 ho
  have : ∀ ts ∈ exGlobs, (∀ t ∈ ts, t.Ok) ∧ Shape true .plain ts ∧ MaxOk ts ∧
      ∀ t ∈ ts, t.noStarClass := by decide +kernel
  obtain ⟨h1, h2⟩ := this x.1 (by
    obtain ⟨⟨_, _⟩, h⟩ := List.mem_iff_getElem?.1 hx
    all_goals (simp only [List.getElem?_zipIdx, Option.map_eq_some_iff] at h;
               obtain ⟨a, h3, rfl⟩ := h; exact List.mem_of_getElem? h3))
  exact ⟨x.1, h1, h2, rfl⟩

example : (∀ op ∈ exOps, op.Parsed) ∧ (∀ op ∈ exOps, op.Normal) := by
  constructor <;> intro op ho <;> obtain ⟨x, hx, rfl⟩ := List.mem_map.1 ho <;> trivial

/-- Decides more than `Hides`. -/
def mayHide (x y : Glob) : Bool :=
  x.suff = y.suff && (x.node.take (x.node.length - x.suff.length)).isPrefixOf y.node &&
    x.node.length < y.node.length

theorem hides_mayHide {x y : Glob} (h : Hides x y) : mayHide x y = true := by
  obtain ⟨h1, A, r, hr, h2, h3⟩ := h
  have hl := List.length_pos_iff.2 hr
  have e : x.node.take (x.node.length - x.suff.length) = A := by
    rw [h2]; simp
  unfold mayHide
  rw [e, h2, h3]
  simp [h1]
  omega

/-- All six globs are accepted, none hides another, and three of them are reported. -/
theorem ex_run : ∃ t L, runGlobTree exOps = .ok (t, L) ∧
    (∀ x ∈ L, ∀ y ∈ L, Hides x.1 y.1 → (42 : UInt8) ∉ x.1.glob) ∧ L.length = 6 ∧
    t.Returns (utf8 "abycc".toList) ([(b!"ab*c?", 0), (b!"a[b-d]*", 1), (b!"?b*c", 3)], 3) := by
  have h : (do
    let (t, L) ← runGlobTree exOps
    let r ← t.matches 60 (utf8 "abycc".toList)
    .ok (decide (L.length = 6) && (L.all fun x => L.all fun y => !mayHide x.1 y.1) &&
      decide (r = ([(b!"ab*c?", 0), (b!"a[b-d]*", 1), (b!"?b*c", 3)], 3))) : R Bool) =
      .ok true := by decide +kernel
  obtain ⟨⟨t, L⟩, h1, h⟩ := R.bind_eq_ok.1 h
  obtain ⟨r, h2, h⟩ := R.bind_eq_ok.1 h
  simp only [R.ok.injEq, Bool.and_eq_true, decide_eq_true_eq] at h
  refine ⟨t, L, h1, ?_, h.1.1, 60, by rw [h2, h.2]⟩
  intro x hx y hy hxy
  have h3 := List.all_eq_true.1 (List.all_eq_true.1 h.1.2 x hx) y hy
  simp [hides_mayHide hxy] at h3

/-! ### The restrictions are needed: counter-examples -/

/-- A glob without wildcards is accepted and matches itself, but is never reported. -/
theorem plain_wrong :
    (∃ t L, runGlobTree [.add (b!"abc") 0] = .ok (t, L) ∧ L.length = 1 ∧
      t.Returns (b!"abc") ([], 0)) ∧
    matchText (b!"abc") (b!"abc") = .ok (.ok true) := by
  refine ⟨⟨_, _, rfl, rfl, 1, rfl⟩, by decide +kernel⟩

/-- `a*` alone is reported for `ab`; after `a*b*` has been added too it is not. -/
theorem star_prefix_wrong :
    runMatch [.add (b!"a*") 0] 60 (b!"ab") = .ok ([(b!"a*", 0)], 1) ∧
    runMatch [.add (b!"a*") 0, .add (b!"a*b*") 1] 60 (b!"ab") = .ok ([(b!"a*b*", 1)], 1) ∧
    ownMatches [b!"a*", b!"a*b*"] (b!"ab") = [.ok (.ok true), .ok (.ok true)] := by
  decide +kernel

/-- The same behind a star: `*[ab]` is lost when `*[ab]c?` is added. -/
theorem star_class_prefix_wrong :
    runMatch [.add (b!"*[ab]") 0] 60 (b!"xa") = .ok ([(b!"*[a-b]", 0)], 1) ∧
    runMatch [.add (b!"*[ab]") 0, .add (b!"*[ab]c?") 1] 60 (b!"xa") = .ok ([], 0) ∧
    ownMatches [b!"*[ab]"] (b!"xa") = [.ok (.ok true)] := by
  decide +kernel

/-- `*{*?b,c}` is reported for `b`, which has no character for the `?`. -/
theorem star_group_any_wrong :
    let ts : List Tok := [.sub .star, .alt [[.star, .any, .lit 'b'], [.lit 'c']]]
    (∀ t ∈ ts, t.Ok) ∧ ¬ Shape false .plain ts ∧ ¬ Fits ts ['b'] ∧
    runMatch [.add (utf8 (renderGlob ts)) 0] 60 (utf8 ['b']) = .ok ([(b!"*{*?b,c}", 0)], 1) := by
  decide +kernel

/-- The same pair may be stored more than once. -/
theorem stored_twice :
    runMatch [.add (b!"*{b,cd}*.df") 7] 60 (b!"a.D.bcd.df") =
      .ok ([(b!"*{b,cd}*.df", 7), (b!"*{b,cd}*.df", 7)], 2) := by
  decide +kernel

end C08

namespace C09

/-- Full statement (not true of the code): `Match` returns for every history and every byte
string.  Here for globs of shape `Shape false` in which a star inside braces ends its
alternative (`StarsEnd`); the text may be any byte string. -/
theorem terminates_partial (ops : List GlobOp) (hp : ∀ op ∈ ops, op.Parsed)
    (hw : TextsOf (fun ts => Shape false .plain ts ∧ StarsEnd ts) ops) :
    ∃ t L, runGlobTree ops = .ok (t, L) ∧ ∀ s, ∃ r, t.Returns s r := by
  obtain ⟨t, L, h1, hT, hL, _⟩ := history hp hw
  obtain ⟨N, hN⟩ := root_safe hT (by
    intro x hx
    obtain ⟨ts, a, _, b, _⟩ := hL x hx
    exact ⟨ts, a, b⟩)
  refine ⟨t, L, h1, fun s => ?_⟩
  obtain ⟨r, hr⟩ := hN s (N + s.length) (Nat.le_refl _)
  exact ⟨r, N + s.length, hr⟩

/-- The depth of the recursion grows at most linearly with the length of the text. -/
theorem depth_partial (ops : List GlobOp) (hp : ∀ op ∈ ops, op.Parsed)
    (hw : TextsOf (fun ts => Shape false .plain ts ∧ StarsEnd ts) ops) :
    ∃ t L N, runGlobTree ops = .ok (t, L) ∧ ∀ s, ∃ r, t.matches (N + s.length) s = .ok r := by
  obtain ⟨t, L, h1, hT, hL, _⟩ := history hp hw
  obtain ⟨N, hN⟩ := root_safe hT (by
    intro x hx
    obtain ⟨ts, a, _, b, _⟩ := hL x hx
    exact ⟨ts, a, b⟩)
  exact ⟨t, L, N, h1, fun s => hN s (N + s.length) (Nat.le_refl _)⟩

/-- No restriction on globs without braces.  Missing: braces. -/
theorem terminates_noBraces_partial (adds : List (List Sub × Int))
    (hok : ∀ x ∈ adds, ∀ s ∈ x.1, s.Ok false) :
    ∃ t L, runGlobTree (adds.map fun x => .add (utf8 (renderSubs x.1)) x.2) = .ok (t, L) ∧
      ∀ s, ∃ r, t.Returns s r := by
  refine terminates_partial _ ?_ ?_
  · intro op ho
    obtain ⟨x, _, rfl⟩ := List.mem_map.1 ho
    trivial
  · intro op ho
    obtain ⟨x, hx, rfl⟩ := List.mem_map.1 ho
    refine ⟨x.1.map Tok.sub, ?_, ⟨shape_subs_plain false x.1, ?_⟩, ?_⟩
    · intro t ht
      obtain ⟨s, hs, rfl⟩ := List.mem_map.1 ht
      exact hok x hx s hs
    · intro alts ha
      obtain ⟨s, hs, e⟩ := List.mem_map.1 ha
      cases e
    · rw [renderGlob_subs]
      rfl

/-! ### Examples: the hypotheses are met -/

/-- `a{b*,c?*d}*`, `*{e,f}[0-9]`, `?*`. -/
def exGlobs : List (List Tok) :=
  [[.sub (.lit 'a'), .alt [[.lit 'b', .star], [.lit 'c', .any, .star, .lit 'd']], .sub .star],
   [.sub .star, .alt [[.lit 'e'], [.lit 'f']], .sub (.cls [.range '0' '9'])],
   [.sub .any, .sub .star]]

example : ∀ ts ∈ exGlobs, (∀ t ∈ ts, t.Ok) ∧ Shape false .plain ts := by decide +kernel
example : ∀ ts ∈ exGlobs, StarsEnd ts := by simp [exGlobs, StarsEnd, starsEnd]
example : runMatch (exGlobs.zipIdx.map fun x => .add (utf8 (renderGlob x.1)) x.2) 60
    [97, 98, 0xff, 101, 57] =
    .ok ([(b!"a{b*,c*?d}*", 0), (b!"*{e,f}[0-9]", 1), (b!"*?", 2)], 3) := by decide +kernel

/-! ### The restrictions are needed: counter-examples -/

theorem starItemsT_mono {f g : Nat} (h : f ≤ g) : IMatcher.Le (Tree.starItemsT f) (Tree.starItemsT g) := by
  induction h with
  | refl => exact fun _ _ _ => R.Le.refl _
  | step _ ih => exact fun t s l => (ih t s l).trans ((tree_succ _).2.2.2 t s l)

/-- The loop of `matchItemsInTree` at a star that is not the last item goes on for ever with the
same position. -/
theorem itemsT_star_loops (t : Tree) (s : Str) (i : Item) (rest : List Item) (g : Nat) (r : Ev)
    (h : Tree.starItemsT g t s (i :: rest) = .ok r) (fuel : Nat) :
    Tree.itemsT fuel t s (.star 0 :: i :: rest) = .timeout := by
  induction fuel with
  | zero => rw [Tree.itemsT]
  | succ n ih =>
    have hstep : Tree.itemsT (n + 1) t s (.star 0 :: i :: rest) =
        addR (Tree.starItemsT n t s (i :: rest)) (Tree.itemsT n t s (.star 0 :: i :: rest)) := by
      rw [Tree.itemsT]
      simp [Tree.itemsStep, Item.minLen, Item.matchAt, skipRunes, sliceFrom, Tree.itemsFlag]
      omega
    rw [hstep, ih]
    have : Tree.starItemsT n t s (i :: rest) ≠ .panic := by
      intro hp
      rcases Nat.le_total n g with hn | hn
      · have := starItemsT_mono hn t s (i :: rest) (by rw [hp]; simp)
        rw [h, hp] at this
        cases this
      · have := starItemsT_mono hn t s (i :: rest) (by rw [h]; simp)
        rw [h, hp] at this
        cases this
    cases hx : Tree.starItemsT n t s (i :: rest) with
    | ok _ => rfl
    | timeout => rfl
    | panic => exact absurd hx this

def loopItem : Item := .group [.chain [.byte 97, .star 0, .str [98]] 2 0, .str [99]] 1 1

def loopNode : Tree := .node loopItem false (some (b!"{a*b,c}", 0)) []

def loopTree : GlobTree where
  root := .node (.any 0) false none [loopNode]
  globs := [(b!"{a*b,c}", 0)]
  globsIndex := [(0, b!"{a*b,c}")]

def loopGlob : Glob where
  glob := b!"{a*b,c}"
  node := b!"{a*b,c}"
  minLen := 1
  maxLen := 1
  items := [loopItem]

/-- `{a*b,c}` is accepted, and `Match("ab")` does not return, whatever the number of steps. -/
theorem star_in_braces_loops :
    (let ts : List Tok := [.alt [[.lit 'a', .star, .lit 'b'], [.lit 'c']]]
    (∀ t ∈ ts, t.Ok) ∧ Shape true .plain ts ∧ renderGlob ts = "{a*b,c}".toList) ∧
    ∃ t L, runGlobTree [.add (b!"{a*b,c}") 0] = .ok (t, L) ∧ L.length = 1 ∧
      ∀ fuel, t.matches fuel (b!"ab") = .timeout := by
  refine ⟨(by decide +kernel), loopTree, [(loopGlob, 0)], rfl, rfl, fun fuel => ?_⟩
  have hj : ∃ r, Tree.starItemsT 10 loopNode [98] [.str [98]] = .ok r := ⟨_, rfl⟩
  obtain ⟨r, hr⟩ := hj
  have h1 := itemsT_star_loops loopNode [98] (.str [98]) [] 10 r hr
  match fuel with
  | 0 => rfl
  | 1 => rfl
  | n + 2 =>
    have h2 : Tree.itemsT (n + 1) loopNode (b!"ab") [.byte 97, .star 0, .str [98]] =
        Tree.itemsT n loopNode [98] [.star 0, .str [98]] := by
      rw [Tree.itemsT]; rfl
    have h3 : Tree.matchT (n + 2) loopNode (b!"ab") = .timeout := by
      have : Tree.matchT (n + 2) loopNode (b!"ab") =
        addR noEv (addR (Tree.itemsT (n + 1) loopNode (b!"ab") [.byte 97, .star 0, .str [98]])
          (addR (Tree.itemsT (n + 1) loopNode (b!"ab") [.str [99]]) noEv)) := by
        rw [Tree.matchT]; rfl
      rw [this, h2, h1]
      rfl
    show addR (Tree.matchT (n + 2) loopNode (b!"ab")) noEv = .timeout
    rw [h3]
    rfl

/-- `*{?,a}` panics. -/
theorem any_behind_star_panics :
    let ts : List Tok := [.sub .star, .alt [[.any], [.lit 'a']]]
    (∀ t ∈ ts, t.Ok) ∧ ¬ Shape false .plain ts ∧
    runMatch [.add (utf8 (renderGlob ts)) 0] 60 (b!"a") = .panic := by
  decide +kernel

end C09
end GoMatcher
