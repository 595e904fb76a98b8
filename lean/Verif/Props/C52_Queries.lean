import Verif.Proofs.QueryText
import Verif.Props.C46_Stable
import Verif.Props.C51_Accepted
import Verif.Props.C08_Text

/-! # C52: which queries are accepted, and what they mean

`Spec/Query` describes the text of a query. -/

namespace GoMatcher

theorem GlobOk.unique {ts us : List Tok} {g : Glob} (h : GlobOk ts g) (k : GlobOk us g)
    (cs : List Char) : Fits ts cs ↔ Fits us cs := by
  by_cases hi : g.items = []
  · obtain ⟨w, h1, h2⟩ := h.plain hi
    obtain ⟨w', k1, k2⟩ := k.plain hi
    rw [h2, k2, utf8_inj (h1.symm.trans k1)]
  · obtain ⟨P, S, h1, h2, _, _, h3⟩ := h.wild hi
    obtain ⟨P', S', k1, k2, _, _, k3⟩ := k.wild hi
    rw [h3, k3, utf8_inj (h1.symm.trans k1), utf8_inj (h2.symm.trans k2)]

namespace C52

/-- The value of a condition is well formed: a regular expression that compiles, or a glob
(`Spec/GlobBytes`). -/
def ValueOk (lib : GoLib) (op : TagOp) (v : Str) : Prop :=
  (op = .mt ∨ op = .nm → lib.reCompiles v = true) ∧ (op = .eq ∨ op = .ne → Row GlobPiece v)

/-- The term `t` stands for the condition text `c`.  The value of a glob is its normal form; a
glob with items is kept. -/
def Stands (c : Str) (t : TTerm) : Prop :=
  ∃ v, CondText c t.key t.op v ∧
    ((t.op = .mt ∨ t.op = .nm) ∧ t.value = v ∧ t.re = some v ∨
     (t.op = .eq ∨ t.op = .ne) ∧ ∃ g, parseGlob v = .ok (.ok g) ∧ t.value = g.node ∧
       (g.items = [] ∧ t.hasWildcard = false ∨
        g.items ≠ [] ∧ t.hasWildcard = true ∧ t.glob = some g))

theorem op_split (op : TagOp) : (op = .mt ∨ op = .nm) ∧ ¬ (op = .eq ∨ op = .ne) ∨
    (op = .eq ∨ op = .ne) ∧ ¬ (op = .mt ∨ op = .nm) := by cases op <;> simp

theorem parse_noWild {v : Str} (h : hasWildcard v = false) :
    parseGlob v = .ok (.ok { glob := v, node := v, minLen := v.length, maxLen := v.length }) := by
  have : indexWildcard v = none := by
    refine indexP_none.2 ?_
    intro c hc
    rw [hasWildcard, List.any_eq_false] at h
    simpa using h c hc
  rw [parseGlob, this]

/-- What `build` makes of a glob. -/
theorem build_glob (lib : GoLib) (k v : Str) {op : TagOp} (hop : op = .eq ∨ op = .ne) {g : Glob}
    (hg : parseGlob v = .ok (.ok g)) :
    ∃ t, TTerm.build lib { key := k, op := op, value := v } = .ok (.ok t) ∧ t.key = k ∧ t.op = op ∧
      t.value = g.node ∧ (g.items = [] ∧ t.hasWildcard = false ∨
        g.items ≠ [] ∧ t.hasWildcard = true ∧ t.glob = some g) := by
  unfold TTerm.build
  rw [if_neg (by rcases hop with rfl | rfl <;> simp)]
  by_cases hw : hasWildcard v = true
  · rw [if_pos hw]
    dsimp only
    rw [hg, R.bind_ok]
    dsimp only
    by_cases h0 : g.items.length = 0
    · rw [if_pos h0]
      exact ⟨_, rfl, rfl, rfl, rfl, .inl ⟨List.eq_nil_of_length_eq_zero h0, rfl⟩⟩
    · rw [if_neg h0]
      exact ⟨_, rfl, rfl, rfl, rfl, .inr ⟨fun e => h0 (by rw [e]; rfl), rfl, rfl⟩⟩
  · rw [if_neg hw]
    rw [parse_noWild (by simpa using hw)] at hg
    simp only [R.ok.injEq, Except.ok.injEq] at hg
    subst hg
    exact ⟨_, rfl, rfl, rfl, rfl, .inl ⟨rfl, rfl⟩⟩

theorem build_iff (lib : GoLib) (k : Str) (op : TagOp) (v : Str) :
    (∃ t, TTerm.build lib { key := k, op := op, value := v } = .ok (.ok t)) ↔ ValueOk lib op v := by
  rcases op_split op with ⟨h1, h2⟩ | ⟨h1, h2⟩
  · have : (∃ t, TTerm.build lib { key := k, op := op, value := v } = .ok (.ok t)) ↔
        lib.reCompiles v = true := by
      unfold TTerm.build
      rw [if_pos h1]
      dsimp only
      cases lib.reCompiles v <;> simp
    rw [this]
    exact ⟨fun h => ⟨fun _ => h, fun h => absurd h h2⟩, fun h => h.1 h1⟩
  · constructor
    · rintro ⟨t, ht⟩
      refine ⟨fun h => absurd h h2, fun _ => ?_⟩
      rw [← (C51.accepted_iff v).1]
      unfold TTerm.build at ht
      rw [if_neg h2] at ht
      split at ht
      · obtain ⟨r, hr, ht⟩ := R.bind_eq_ok.1 ht
        cases r with
        | error e => simp at ht
        | ok g => exact ⟨g, hr⟩
      · rename_i hw
        exact ⟨_, parse_noWild (by simpa using hw)⟩
    · intro h
      obtain ⟨g, hg⟩ := (C51.accepted_iff v).1.2 (h.2 h1)
      obtain ⟨t, ht, _⟩ := build_glob lib k v h1 hg
      exact ⟨t, ht⟩

/-- One condition. -/
theorem termOf_iff (lib : GoLib) (c : Str) :
    (∃ t, termOf lib c = .ok (.ok t)) ↔ ∃ k op v, CondText c k op v ∧ ValueOk lib op v := by
  constructor
  · rintro ⟨t, ht⟩
    unfold termOf at ht
    split at ht
    · simp at ht
    · rename_i t0 h0
      obtain ⟨_, _, _, _, e1, e2, e3⟩ := parseCondition_spec h0
      have : t0 = { key := t0.key, op := t0.op, value := t0.value } := by
        cases t0
        simp only at e1 e2 e3
        simp [e1, e2, e3]
      rw [this] at h0 ht
      exact ⟨_, _, _, (condText_iff _ _ _ _).2 h0, (build_iff lib _ _ _).1 ⟨t, ht⟩⟩
  · rintro ⟨k, op, v, h1, h2⟩
    obtain ⟨t, ht⟩ := (build_iff lib k op v).2 h2
    refine ⟨t, ?_⟩
    unfold termOf
    rw [(condText_iff _ _ _ _).1 h1]
    exact ht

theorem termOf_stands {lib : GoLib} {c : Str} {t : TTerm} (h : termOf lib c = .ok (.ok t)) :
    Stands c t := by
  unfold termOf at h
  split at h
  · simp at h
  · rename_i t0 h0
    obtain ⟨_, _, _, _, e1, e2, e3⟩ := parseCondition_spec h0
    have e : t0 = { key := t0.key, op := t0.op, value := t0.value } := by
      cases t0
      simp only at e1 e2 e3
      simp [e1, e2, e3]
    rw [e] at h0
    rcases op_split t0.op with ⟨h1, h2⟩ | ⟨h1, h2⟩
    · unfold TTerm.build at h
      rw [if_pos h1] at h
      split at h
      · simp only [R.ok.injEq, Except.ok.injEq] at h
        subst h
        exact ⟨t0.value, (condText_iff _ _ _ _).2 h0, .inl ⟨h1, rfl, rfl⟩⟩
      · simp at h
    · rw [e] at h
      obtain ⟨g, hg⟩ := (C51.accepted_iff t0.value).1.2 (((build_iff lib _ _ _).1 ⟨t, h⟩).2 h1)
      obtain ⟨t', k1, k2, k3, k4, k5⟩ := build_glob lib t0.key t0.value h1 hg
      rw [h] at k1
      simp only [R.ok.injEq, Except.ok.injEq] at k1
      subst k1
      refine ⟨t0.value, ?_, .inr ⟨by rw [k3]; exact h1, g, hg, k4, k5⟩⟩
      rw [k2, k3]
      exact (condText_iff _ _ _ _).2 h0

/-- A query is accepted if and only if it is `seriesByTag(`, a list of quoted conditions and `)`, up to
outer blanks, with at most 128 conditions, all well formed.  Everything else is an error. -/
theorem accepted_iff (lib : GoLib) (q : Str) :
    ((∃ ts, parseSeriesByTag lib q = .ok (.ok ts)) ↔
      ∃ cs, QueryText q cs ∧ cs.length ≤ 128 ∧
        ∀ c ∈ cs, ∃ k op v, CondText c k op v ∧ ValueOk lib op v) ∧
    ((∃ e, parseSeriesByTag lib q = .ok (.error e)) ↔
      ¬ ∃ cs, QueryText q cs ∧ cs.length ≤ 128 ∧
        ∀ c ∈ cs, ∃ k op v, CondText c k op v ∧ ValueOk lib op v) := by
  have key : (∃ ts, parseSeriesByTag lib q = .ok (.ok ts)) ↔
      ∃ cs, QueryText q cs ∧ cs.length ≤ 128 ∧
        ∀ c ∈ cs, ∃ k op v, CondText c k op v ∧ ValueOk lib op v := by
    constructor
    · rintro ⟨ts, h⟩
      unfold parseSeriesByTag at h
      obtain ⟨r, hr, h⟩ := R.bind_eq_ok.1 h
      cases r with
      | error e => simp at h
      | ok cs =>
        obtain ⟨h1, h2⟩ := (args_iff _ _ _).1 hr
        refine ⟨cs, h1, h2, fun c hc => ?_⟩
        dsimp only at h
        unfold parseConditions at h
        obtain ⟨x, hx, h⟩ := R.bind_eq_ok.1 h
        cases x with
        | error e => simp at h
        | ok us =>
          obtain ⟨e1, e2⟩ := (conditionsLoop_iff lib cs us).1 hx
          obtain ⟨i, hi, rfl⟩ := List.mem_iff_getElem.1 hc
          have := e2 (cs[i], us[i]) (by
            rw [List.mem_iff_getElem]
            exact ⟨i, by simp only [List.length_zip]; omega, by simp⟩)
          exact (termOf_iff lib _).1 ⟨_, this⟩
    · rintro ⟨cs, h1, h2, h3⟩
      unfold parseSeriesByTag
      rw [(args_iff _ _ _).2 ⟨h1, h2⟩, R.bind_ok]
      dsimp only
      unfold parseConditions
      obtain ⟨x, hx⟩ := conditionsLoop_total lib cs
      rw [hx, R.bind_ok]
      cases x with
      | error e =>
        obtain ⟨c, hc, e', he⟩ := (conditionsLoop_error lib cs).1 ⟨e, hx⟩
        obtain ⟨t, ht⟩ := (termOf_iff lib c).2 (h3 c hc)
        rw [he] at ht
        simp at ht
      | ok us => exact ⟨_, rfl⟩
  refine ⟨key, ?_⟩
  rw [← key]
  obtain ⟨r, hr⟩ := parseSeriesByTag_total lib q
  cases r with
  | ok ts => simp [hr]
  | error e => simp [hr]

/-- A text has at most one list of conditions. -/
theorem conditions_unique {q : Str} {cs cs' : List Str} (h : QueryText q cs) (h' : QueryText q cs') :
    cs = cs' := by
  have a := (args_iff q (max cs.length cs'.length) cs).2 ⟨h, Nat.le_max_left _ _⟩
  have b := (args_iff q (max cs.length cs'.length) cs').2 ⟨h', Nat.le_max_right _ _⟩
  rw [a] at b
  simpa using b

/-- A condition is read in one way only. -/
theorem condition_unique {c k k' v v' : Str} {op op' : TagOp} (h : CondText c k op v)
    (h' : CondText c k' op' v') : k = k' ∧ op = op' ∧ v = v' := by
  have a := (condText_iff _ _ _ _).1 h
  rw [(condText_iff _ _ _ _).1 h'] at a
  simp only [Except.ok.injEq, TTerm.mk.injEq, and_true] at a
  exact ⟨a.1.symm, a.2.1.symm, a.2.2.symm⟩

/-- The terms of an accepted query stand for its conditions, one for one, and are sorted by key
(`__name__` first), operator and value. -/
theorem terms_stand (lib : GoLib) (q : Str) (ts : List TTerm)
    (h : parseSeriesByTag lib q = .ok (.ok ts)) :
    ts.Pairwise (fun a b => TTerm.less b a = false) ∧
    ∃ cs us, QueryText q cs ∧ ts.Perm us ∧ us.length = cs.length ∧ ∀ x ∈ cs.zip us, Stands x.1 x.2 := by
  unfold parseSeriesByTag at h
  obtain ⟨r, hr, h⟩ := R.bind_eq_ok.1 h
  cases r with
  | error e => simp at h
  | ok cs =>
    dsimp only at h
    unfold parseConditions at h
    obtain ⟨x, hx, h⟩ := R.bind_eq_ok.1 h
    cases x with
    | error e => simp at h
    | ok us =>
      simp only [R.ok.injEq, Except.ok.injEq] at h
      subst h
      obtain ⟨e1, e2⟩ := (conditionsLoop_iff lib cs us).1 hx
      exact ⟨lib.sort_sorted us, cs, us, ((args_iff _ _ _).1 hr).1, lib.sort_perm us, e1.symm,
        fun x hx => termOf_stands (e2 x hx)⟩

/-! ## Meaning -/

/-- The glob text `v` has a reading for which `Glob.Match` is exact (C01). -/
def GlobFine (v : Str) : Prop :=
  ∃ g ts, v = utf8 g ∧ (∀ c ∈ g, c.toNat ≠ 0xFFFD ∧ c.toNat ≠ 0) ∧ Reading g ts ∧
    Shape true .plain ts ∧ MaxOk ts

/-- The value `x` satisfies the condition `op v`. -/
def ValueFits (lib : GoLib) (op : TagOp) (v x : Str) : Prop :=
  (op = .mt ∨ op = .nm → (lib.reMatch v x = true ↔ op = .mt)) ∧
  (op = .eq ∨ op = .ne → ∀ g ts cs, v = utf8 g → Reading g ts → x = utf8 cs → (Fits ts cs ↔ op = .eq))

/-- The tags satisfy the condition text `c`: the tag is absent and the operator negative, or its
value fits. -/
def CondHolds (lib : GoLib) (tags : GoMap Str Str) (c : Str) : Prop :=
  ∃ k op v, CondText c k op v ∧
    (tags.get k = none ∧ (op = .ne ∨ op = .nm) ∨ ∃ x, tags.get k = some x ∧ ValueFits lib op v x)

/-- The condition has no glob with a class. -/
def NoClassIn (c : Str) : Prop :=
  ∀ k op v, CondText c k op v → op = .eq ∨ op = .ne → (91 : UInt8) ∉ v

/-- A term answers as its condition text says. -/
theorem stands_matches {lib : GoLib} {c : Str} {t : TTerm} (h : Stands c t)
    (hf : ∀ k op v, CondText c k op v → op = .eq ∨ op = .ne → GlobFine v)
    {cs : List Char} (hcs : NoClassIn c ∨ ∀ c ∈ cs, c.toNat ≠ 0xFFFD) :
    ∃ b, t.matches lib (utf8 cs) = .ok b ∧
      ∀ v, CondText c t.key t.op v → (b = true ↔ ValueFits lib t.op v (utf8 cs)) := by
  obtain ⟨v, hc, ⟨hop, h1, h2⟩ | ⟨hop, g, hg, hv, h3⟩⟩ := h
  · have hno : ¬ (t.op = .eq ∨ t.op = .ne) := by
      rcases hop with h | h <;> simp [h]
    refine ⟨decide (lib.reMatch v (utf8 cs) = true ↔ t.op = .mt), ?_, ?_⟩
    · unfold TTerm.matches TTerm.reMatch
      rw [h2]
      rcases hop with h | h <;> rw [h] <;> cases hx : lib.reMatch v (utf8 cs) <;> simp [R.not, hx]
    · intro v' hv'
      obtain ⟨_, _, rfl⟩ := condition_unique hc hv'
      rw [decide_eq_true_eq]
      exact ⟨fun h => ⟨fun _ => h, fun h => absurd h hno⟩, fun h => h.1 hop⟩
  · have hno : ¬ (t.op = .mt ∨ t.op = .nm) := by
      rcases hop with h | h <;> simp [h]
    obtain ⟨w, ts, rfl, hw, hr, hs, hm⟩ := hf _ _ _ hc hop
    have hG := hr.globOk hw hg
    have hcmp : ∃ b, (if t.hasWildcard then t.globMatch (utf8 cs) else
        R.ok (decide (utf8 cs = t.value))) = .ok b ∧ (b = true ↔ Fits ts cs) := by
      rcases h3 with ⟨hi, hw'⟩ | ⟨hi, hw', hgl⟩
      · obtain ⟨u, hu, hf⟩ := hG.plain hi
        rw [hw', if_neg (by simp)]
        refine ⟨_, rfl, ?_⟩
        rw [hf, decide_eq_true_eq, hv, hu]
        exact ⟨fun h => utf8_inj h, fun h => by rw [h]⟩
      · rw [hw', if_pos rfl]
        obtain ⟨b, h1, h2, h3⟩ := matches_spec' hG hs (fun h => absurd h hi) cs
        exact ⟨b, by rw [TTerm.globMatch, hgl]; exact h1, h2, h3 rfl (hcs.elim (fun h => .inr (parse_noClass hg (h _ _ _ hc hop))) .inl) hm⟩
    obtain ⟨b, hb, hb'⟩ := hcmp
    have key : ∀ b' : Bool, (b' = true ↔ (Fits ts cs ↔ t.op = .eq)) →
        ∀ v, CondText c t.key t.op v → (b' = true ↔ ValueFits lib t.op v (utf8 cs)) := by
      intro b' hb'' v hv'
      obtain ⟨_, _, rfl⟩ := condition_unique hc hv'
      rw [hb'']
      constructor
      · intro h
        refine ⟨fun e => absurd e hno, fun _ w' us cs' e1 e2 e3 => ?_⟩
        have := utf8_inj e1
        subst this
        have := utf8_inj e3
        subst this
        rw [← h]
        exact (e2.globOk hw hg).unique hG cs
      · intro h
        exact h.2 hop w ts cs rfl hr rfl
    rcases hop with h | h
    · refine ⟨b, ?_, key b (by rw [hb']; simp [h])⟩
      unfold TTerm.matches
      rw [h]
      exact hb
    · refine ⟨!b, ?_, key (!b) (by rw [← hb']; simp [h])⟩
      unfold TTerm.matches
      rw [h]
      dsimp only
      split at hb
      · rename_i hw'
        rw [if_pos hw', hb]
        rfl
      · rename_i hw'
        rw [if_neg hw']
        simp only [R.ok.injEq] at hb
        rw [← hb]

theorem zip_left {α β : Type} {as : List α} {bs : List β} (h : bs.length = as.length) {a : α}
    (ha : a ∈ as) : ∃ b ∈ bs, (a, b) ∈ as.zip bs := by
  obtain ⟨i, hi, rfl⟩ := List.mem_iff_getElem.1 ha
  exact ⟨bs[i], List.getElem_mem _, List.mem_iff_getElem.2 ⟨i, by simp only [List.length_zip]; omega, by simp⟩⟩

theorem zip_right {α β : Type} {as : List α} {bs : List β} (h : bs.length = as.length) {b : β}
    (hb : b ∈ bs) : ∃ a ∈ as, (a, b) ∈ as.zip bs := by
  obtain ⟨i, hi, rfl⟩ := List.mem_iff_getElem.1 hb
  exact ⟨as[i], List.getElem_mem _, List.mem_iff_getElem.2 ⟨i, by simp only [List.length_zip]; omega, by simp⟩⟩

/-- From the text of a query to its answer.  Full statement (not true of the code, see C01): for
every accepted query and all tags the answer is `true` iff all conditions hold.  Missing: globs
whose reading has another shape, U+FFFD in globs, and U+FFFD in tags if some glob has a class. -/
theorem meaning_partial (lib : GoLib) (q : Str) (cs : List Str) (hq : QueryText q cs)
    (hl : cs.length ≤ 128)
    (hre : ∀ c ∈ cs, ∃ k op v, CondText c k op v ∧ (op = .mt ∨ op = .nm → lib.reCompiles v = true))
    (hgl : ∀ c ∈ cs, ∀ k op v, CondText c k op v → op = .eq ∨ op = .ne → GlobFine v)
    (tags : GoMap Str Str)
    (htags : ∀ k x, tags.get k = some x → ∃ w : List Char, x = utf8 w ∧
      ((∀ c ∈ cs, NoClassIn c) ∨ ∀ c ∈ w, c.toNat ≠ 0xFFFD)) :
    ∃ b, queryMap lib q tags = .ok (.ok b) ∧ (b = true ↔ ∀ c ∈ cs, CondHolds lib tags c) := by
  have hacc : ∃ ts, parseSeriesByTag lib q = .ok (.ok ts) := by
    refine (accepted_iff lib q).1.2 ⟨cs, hq, hl, fun c hc => ?_⟩
    obtain ⟨k, op, v, h1, h2⟩ := hre c hc
    refine ⟨k, op, v, h1, h2, fun hop => ?_⟩
    obtain ⟨w, ts, rfl, hw, hr, _⟩ := hgl c hc k op v h1 hop
    obtain ⟨g, hg, _⟩ := hr.parse hw
    exact (C51.accepted_iff _).1.1 ⟨g, hg⟩
  obtain ⟨ts, hts⟩ := hacc
  obtain ⟨_, cs', us, h1, h2, h3, h4⟩ := terms_stand lib q ts hts
  have := conditions_unique hq h1
  subst this
  have hterm : ∀ t ∈ ts, ∃ c ∈ cs, Stands c t := by
    intro t ht
    obtain ⟨c, hc, hz⟩ := zip_right h3 (h2.mem_iff.1 ht)
    exact ⟨c, hc, h4 _ hz⟩
  have hans : Answers lib ts tags := by
    intro t ht x hx
    obtain ⟨c, hc, hs⟩ := hterm t ht
    obtain ⟨w, rfl, hw⟩ := htags _ _ hx
    obtain ⟨b, hb, _⟩ := stands_matches (lib := lib) hs (hgl c hc) (hw.imp (fun h => h c hc) id)
    exact ⟨b, hb⟩
  have hiff : ∀ c t, c ∈ cs → Stands c t → (TermHolds lib tags t ↔ CondHolds lib tags c) := by
    intro c t hc hs
    obtain ⟨v, hv⟩ : ∃ v, CondText c t.key t.op v := by
      obtain ⟨v, hv, _⟩ := hs
      exact ⟨v, hv⟩
    have hcond : CondHolds lib tags c ↔ (tags.get t.key = none ∧ (t.op = .ne ∨ t.op = .nm) ∨
        ∃ x, tags.get t.key = some x ∧ ValueFits lib t.op v x) := by
      constructor
      · rintro ⟨k, op, v', h, h'⟩
        obtain ⟨rfl, rfl, rfl⟩ := condition_unique hv h
        exact h'
      · intro h
        exact ⟨_, _, _, hv, h⟩
    rw [hcond]
    unfold TermHolds
    cases hg : tags.get t.key with
    | none => simp
    | some x =>
      obtain ⟨w, rfl, hw⟩ := htags _ _ hg
      obtain ⟨b, hb, hb'⟩ := stands_matches (lib := lib) hs (hgl c hc) (hw.imp (fun h => h c hc) id)
      simp only [reduceCtorEq, false_and, Option.some.injEq, exists_eq_left', false_or]
      rw [← hb' v hv, hb]
      simp
  obtain ⟨b, hb, hb'⟩ := C22.match_exact lib ts tags hans
  refine ⟨b, by unfold queryMap; rw [hts, R.bind_ok]; dsimp only; rw [hb, R.bind_ok], ?_⟩
  rw [hb']
  constructor
  · intro h c hc
    obtain ⟨t, ht, hz⟩ := zip_left h3 hc
    exact (hiff c t hc (h4 _ hz)).1 (h t (h2.mem_iff.2 ht))
  · intro h t ht
    obtain ⟨c, hc, hs⟩ := hterm t ht
    exact (hiff c t hc hs).2 (h c hc)

/-- An accepted glob without `{` is fine. -/
theorem globFine_noBraces {g : List Char} (hp : ∀ c ∈ g, c.toNat ≠ 0xFFFD ∧ c.toNat ≠ 0)
    (hb : '{' ∉ g) (hr : Row GlobPiece (utf8 g)) : GlobFine (utf8 g) := by
  obtain ⟨gl, hg⟩ := (C51.accepted_iff _).1.2 hr
  obtain ⟨ts, hx⟩ := parse_inv hp hg
  obtain ⟨ss, hs⟩ := hx.subs hb
  exact ⟨g, _, rfl, hp, .inr ⟨ss, hs, rfl⟩, shape_subs_plain true ss, C01.maxOk_subs ss⟩

/-- Every accepted query whose globs have no braces, U+FFFD and NUL: the answer is `true` iff all
conditions hold.  Missing: braces. -/
theorem meaning_noBraces_partial (lib : GoLib) (q : Str) (ts : List TTerm)
    (h : parseSeriesByTag lib q = .ok (.ok ts)) (cs : List Str) (hq : QueryText q cs)
    (hgl : ∀ c ∈ cs, ∀ k op v, CondText c k op v → op = .eq ∨ op = .ne →
      ∃ g, v = utf8 g ∧ (∀ c ∈ g, c.toNat ≠ 0xFFFD ∧ c.toNat ≠ 0) ∧ '{' ∉ g)
    (tags : GoMap Str Str)
    (htags : ∀ k x, tags.get k = some x → ∃ w : List Char, x = utf8 w ∧
      ((∀ c ∈ cs, NoClassIn c) ∨ ∀ c ∈ w, c.toNat ≠ 0xFFFD)) :
    ∃ b, matchByTagsMap lib ts tags = .ok b ∧ (b = true ↔ ∀ c ∈ cs, CondHolds lib tags c) := by
  obtain ⟨cs', h1, h2, h3⟩ := (accepted_iff lib q).1.1 ⟨ts, h⟩
  have := conditions_unique hq h1
  subst this
  obtain ⟨b, hb, hb'⟩ := meaning_partial lib q cs hq h2 (fun c hc => by
      obtain ⟨k, op, v, e1, e2, _⟩ := h3 c hc
      exact ⟨k, op, v, e1, e2⟩) (fun c hc k op v hv hop => by
      obtain ⟨g, rfl, h4, h5⟩ := hgl c hc k op v hv hop
      obtain ⟨k', op', v', e1, _, e2⟩ := h3 c hc
      obtain ⟨rfl, rfl, rfl⟩ := condition_unique hv e1
      exact globFine_noBraces h4 h5 (e2 hop)) tags htags
  refine ⟨b, ?_, hb'⟩
  unfold queryMap at hb
  rw [h, R.bind_ok] at hb
  dsimp only at hb
  obtain ⟨b', h6, h7⟩ := R.bind_eq_ok.1 hb
  simp only [R.ok.injEq, Except.ok.injEq] at h7
  rw [h6, h7]

/-! ## Examples -/

/-- Two kinds of quotes, an empty condition, free blanks, white space inside a condition. -/
def exQuery : Str := b!" seriesByTag(\"name=a*\", '',' b !=~ c''d=e~') "

def exConds : List Str := [b!"name=a*", b!" b !=~ c", b!"d=e~"]

theorem exQuery_text : QueryText exQuery exConds :=
  ⟨1, 1, b!"\"name=a*\", '',' b !=~ c''d=e~'", rfl,
    .text (q := 34) (w := b!"name=a*") (.inr rfl) (by decide) (by decide) <|
    .sep (.inr rfl) <| .sep (.inl rfl) <| .empty (.inl rfl) <| .sep (.inr rfl) <|
    .text (q := 39) (w := b!" b !=~ c") (.inl rfl) (by decide) (by decide) <|
    .text (q := 39) (w := b!"d=e~") (s := []) (.inl rfl) (by decide) (by decide) .nil⟩

theorem exConds_text : CondText (b!"name=a*") (b!"__name__") .eq (b!"a*") ∧
    CondText (b!" b !=~ c") (b!"b") .nm (b!"c") ∧ CondText (b!"d=e~") (b!"d") .eq (b!"e~") := by
  refine ⟨⟨b!"name", b!"a*", rfl, by decide, by decide, by decide, ⟨b!"name", ?_, fun _ => rfl, fun h => absurd rfl h⟩, ?_⟩,
    ⟨b!" b ", b!" c", rfl, by decide, by decide, by decide, ⟨b!"b", ?_, fun h => absurd h (by decide), fun _ => rfl⟩, ?_⟩,
    ⟨b!"d", b!"e~", rfl, by decide, by decide, by decide, ⟨b!"d", ?_, fun h => absurd h (by decide), fun _ => rfl⟩, ?_⟩⟩
  · exact ⟨⟨[], [], by decide, by decide, rfl⟩, by decide +kernel⟩
  · exact ⟨⟨[], [], by decide, by decide, rfl⟩, by decide +kernel⟩
  · exact ⟨⟨[' '], [' '], by decide, by decide, by decide +kernel⟩, by decide +kernel⟩
  · exact ⟨⟨[' '], [], by decide, by decide, by decide +kernel⟩, by decide +kernel⟩
  · exact ⟨⟨[], [], by decide, by decide, rfl⟩, by decide +kernel⟩
  · exact ⟨⟨[], [], by decide, by decide, rfl⟩, by decide +kernel⟩

/-- U+3000 before, U+00A0 and a bad byte behind: the bad byte stops the trimming. -/
example : Trims [0xE3, 0x80, 0x80, 98, 0xC2, 0xA0, 0xFF, 0xC2, 0xA0] [98, 0xC2, 0xA0, 0xFF] :=
  ⟨⟨['\u3000'], [Char.ofNat 0xA0], by decide, by decide, by decide +kernel⟩, by decide +kernel⟩

/-- The hypotheses of `accepted_iff` and `meaning_noBraces_partial` for the query. -/
theorem exQuery_ok : ∀ c ∈ exConds, ∃ k op v, CondText c k op v ∧ ValueOk exLib op v := by
  obtain ⟨h1, h2, h3⟩ := exConds_text
  intro c hc
  simp only [exConds, List.mem_cons, List.not_mem_nil, or_false] at hc
  rcases hc with rfl | rfl | rfl
  · refine ⟨_, _, _, h1, by simp, fun _ => ⟨[[97], [42]], rfl, ?_⟩⟩
    intro p hp
    simp only [List.mem_cons, List.not_mem_nil, or_false] at hp
    rcases hp with rfl | rfl
    · exact .inl (.inl ⟨97, rfl, by decide⟩)
    · exact .inl (.inl ⟨42, rfl, by decide⟩)
  · exact ⟨_, _, _, h2, fun _ => by decide, by simp⟩
  · refine ⟨_, _, _, h3, by simp, fun _ => ⟨[[101], [126]], rfl, ?_⟩⟩
    intro p hp
    simp only [List.mem_cons, List.not_mem_nil, or_false] at hp
    rcases hp with rfl | rfl
    · exact .inl (.inl ⟨101, rfl, by decide⟩)
    · exact .inl (.inl ⟨126, rfl, by decide⟩)

example : ∃ ts, parseSeriesByTag exLib exQuery = .ok (.ok ts) :=
  (accepted_iff exLib exQuery).1.2 ⟨exConds, exQuery_text, by decide, exQuery_ok⟩

example : ∀ c ∈ exConds, ∀ k op v, CondText c k op v → op = .eq ∨ op = .ne →
    ∃ g, v = utf8 g ∧ (∀ c ∈ g, c.toNat ≠ 0xFFFD ∧ c.toNat ≠ 0) ∧ '{' ∉ g := by
  obtain ⟨h1, h2, h3⟩ := exConds_text
  intro c hc k op v hv hop
  simp only [exConds, List.mem_cons, List.not_mem_nil, or_false] at hc
  rcases hc with rfl | rfl | rfl
  · obtain ⟨rfl, rfl, rfl⟩ := condition_unique h1 hv
    exact ⟨['a', '*'], by decide +kernel, by decide, by decide⟩
  · obtain ⟨rfl, rfl, rfl⟩ := condition_unique h2 hv
    simp at hop
  · obtain ⟨rfl, rfl, rfl⟩ := condition_unique h3 hv
    exact ⟨['e', '~'], by decide +kernel, by decide, by decide⟩

/-- The terms are sorted, `__name__` first. -/
example : C24.normalQuery exLib exQuery =
    .ok (.ok (b!"seriesByTag('__name__=a*','b!=~c','d=e~')")) := by decide +kernel
/-- The tag `b` may be absent; `__name__` and `d` must be there. -/
example : queryMap exLib exQuery [(b!"__name__", b!"ax"), (b!"d", b!"e~")] = .ok (.ok true) ∧
    queryMap exLib exQuery [(b!"__name__", b!"ax"), (b!"b", b!"xc"), (b!"d", b!"e~")] = .ok (.ok false) ∧
    queryMap exLib exQuery [(b!"__name__", b!"ax")] = .ok (.ok false) := by decide +kernel
/-- Refused: no key, no operator, a reversed class, text outside the quotes. -/
example : C24.normalQuery exLib (b!"seriesByTag('=a')") = .ok (.error (.exprInvalid (b!"=a"))) ∧
    C24.normalQuery exLib (b!"seriesByTag('a~b')") = .ok (.error (.exprInvalid (b!"~b"))) ∧
    C24.normalQuery exLib (b!"seriesByTag('a=[c-b]')") = .ok (.error (.glob (.mismatch (b! "rune") (b! "[c-b]")))) ∧
    C24.normalQuery exLib (b!"seriesByTag('a=b';)") = .ok (.error (.notTerminated (b!";"))) := by
  decide +kernel

end C52
end GoMatcher
