import Verif.Spec.QueryFaults
import Verif.Proofs.Faults
import Verif.Proofs.QueryText
import Verif.Proofs.GGlob
import Verif.Proofs.TagTerm

/-! # The errors of dotted globs and of queries -/

namespace GoMatcher

/-! ## Dotted globs -/

theorem cutDot_cases (s : Str) : (46 ∉ s ∧ cutDot s = (s, [], false)) ∨
    ∃ p t, s = p ++ 46 :: t ∧ 46 ∉ p ∧ cutDot s = (p, t, true) := by
  induction s with
  | nil => exact .inl ⟨by simp, rfl⟩
  | cons c s ih =>
    by_cases hc : c = 46
    · subst hc
      exact .inr ⟨[], s, rfl, by simp, by simp [cutDot]⟩
    · rcases ih with ⟨h1, h2⟩ | ⟨p, t, rfl, h1, h2⟩
      · left
        refine ⟨by simp [h1, Ne.symm hc], ?_⟩
        rw [cutDot, if_neg hc, h2]
      · right
        refine ⟨c :: p, t, rfl, by simp [h1, Ne.symm hc], ?_⟩
        rw [cutDot, if_neg hc, h2]

theorem cutDot_end {p : Str} (h : 46 ∉ p) : cutDot p = (p, [], false) := by
  rcases cutDot_cases p with ⟨_, h⟩ | ⟨a, b, rfl, _, _⟩
  · exact h
  · exact absurd h (by simp)

theorem cutDot_at {p t : Str} (h : 46 ∉ p) : cutDot (p ++ 46 :: t) = (p, t, true) := by
  induction p with
  | nil => simp [cutDot]
  | cons c p ih =>
    simp only [List.mem_cons, not_or] at h
    rw [List.cons_append, cutDot, if_neg (Ne.symm h.1), ih h.2]

theorem ggParseLoop_fault (path s : Str) (e : GGErr) (h : ggParseLoop path s = .ok (.error e)) :
    NodeFault path e s := by
  fun_induction ggParseLoop path s with
  | case1 => cases h
  | case2 c t r h0 =>
    cases h
    rcases cutDot_cases (c :: t) with ⟨_, h2⟩ | ⟨p, t', h1, _, h2⟩
    · simp [r, h2] at h0
    · simp only [r, h2] at h0
      subst h0
      rw [h1]
      exact .empty
  | case3 c t r h0 ih =>
    obtain ⟨g, hg⟩ := parseGlob_total r.1
    rw [hg] at h
    simp only [R.bind_ok] at h
    rcases cutDot_cases (c :: t) with ⟨h1, h2⟩ | ⟨p, t', h1, h1', h2⟩
    · simp only [r, h2] at h hg ih
      cases g with
      | error e' => cases h; exact .last (by simp) h1 (parse_error_iff.1 hg)
      | ok g => rw [ggParseLoop] at h; cases h
    · simp only [r, h2] at h hg h0 ih
      rw [h1]
      cases g with
      | error e' => cases h; exact .part h0 h1' (parse_error_iff.1 hg)
      | ok g =>
        refine .next h0 h1' ((parse_accept _).1 ⟨g, hg⟩) (ih ?_)
        obtain ⟨x, hx⟩ := ggParseLoop_total path t'
        rw [hx] at h ⊢
        cases x with
        | error e' => exact h
        | ok gs => cases h

theorem nodeFault_parse {path s : Str} {e : GGErr} (h : NodeFault path e s) :
    ggParseLoop path s = .ok (.error e) := by
  induction h with
  | empty =>
    rw [ggParseLoop]
    simp [cutDot]
  | @last e p h1 h2 h3 =>
    cases p with
    | nil => exact absurd rfl h1
    | cons c p =>
      rw [ggParseLoop]
      rw [cutDot_end h2, if_neg h1, parse_error_iff.2 h3]
      rfl
  | @part e p t h1 h2 h3 =>
    cases p with
    | nil => exact absurd rfl h1
    | cons c p =>
      rw [List.cons_append, ggParseLoop]
      rw [← List.cons_append, cutDot_at h2, if_neg h1, parse_error_iff.2 h3]
      rfl
  | @next e p t h1 h2 h3 _ ih =>
    obtain ⟨g, hg⟩ := (parse_accept _).2 h3
    cases p with
    | nil => exact absurd rfl h1
    | cons c p =>
      rw [List.cons_append, ggParseLoop]
      rw [← List.cons_append, cutDot_at h2, if_neg h1, hg, R.bind_ok]
      dsimp only
      rw [ih]
      rfl

theorem trimDot_cases (s : Str) : (s.getLast? ≠ some 46 ∧ trimDot s = s) ∨
    s = trimDot s ++ [46] := by
  unfold trimDot
  split
  · rename_i h
    right
    obtain ⟨l, rfl⟩ := List.getLast?_eq_some_iff.1 h
    simp
  · rename_i h
    exact .inl ⟨h, rfl⟩

theorem trimDot_dot (t : Str) : trimDot (t ++ [46]) = t := by
  unfold trimDot
  rw [if_pos (by simp)]
  simp

/-- The error of `gglob.Parse` is the one reported. -/
theorem parseGGlob_error_iff {s : Str} {e : GGErr} :
    parseGGlob s = .ok (.error e) ↔ NodeReports e s := by
  have h0 : parseGGlob s = .ok (.error e) ↔
      ggParseLoop (trimDot s) (trimDot s) = .ok (.error e) := by
    unfold parseGGlob
    rw [pathLevel_eq]
    dsimp only
    obtain ⟨x, hx⟩ := ggParseLoop_total (trimDot s) (trimDot s)
    rw [hx]
    cases x <;> simp
  have h1 : ggParseLoop (trimDot s) (trimDot s) = .ok (.error e) ↔
      NodeFault (trimDot s) e (trimDot s) := ⟨ggParseLoop_fault _ _ _, nodeFault_parse⟩
  rw [h0, h1]
  constructor
  · intro h
    rcases trimDot_cases s with ⟨h2, h3⟩ | h2
    · rw [h3] at h
      exact .inl ⟨h2, h⟩
    · exact .inr ⟨_, h2, h⟩
  · rintro (⟨h2, h⟩ | ⟨t, rfl, h⟩)
    · rcases trimDot_cases s with ⟨_, h3⟩ | h3
      · rw [h3]; exact h
      · exact absurd (by rw [h3]; simp) h2
    · rw [trimDot_dot]; exact h

/-! ## Lists of quoted texts -/

theorem quote_iff {c : UInt8} : c ∈ (b! "'\"") ↔ c = 39 ∨ c = 34 := by
  have : (b! "'\"") = [39, 34] := rfl
  rw [this]
  simp

theorem sep_iff {c : UInt8} : c ∈ (b! " ,") ↔ c = 32 ∨ c = 44 := by
  have : (b! " ,") = [32, 44] := rfl
  rw [this]
  simp

theorem stray_iff {c : UInt8} : c ∉ (b! "'\" ,") ↔ ¬ (c = 39 ∨ c = 34) ∧ ¬ (c = 32 ∨ c = 44) := by
  have : (b! "'\" ,") = [39, 34, 32, 44] := rfl
  rw [this]
  simp only [List.mem_cons, List.not_mem_nil, or_false, not_or, and_assoc]

theorem parseQuoted_end {c : UInt8} {t : Str} (hc : c = 39 ∨ c = 34) (h : c ∉ t) :
    parseQuoted (c :: t) = .ok (.error (.notTerminated t)) := by
  unfold parseQuoted
  dsimp only
  rw [if_neg (by rcases hc with rfl | rfl <;> simp)]
  have := cutByte_split c t
  rw [if_neg]
  intro h2
  exact h (by rw [this.2 h2]; simp)

theorem argsLoop_fault (q : Str) (n : Nat) (s : Str) (e : TagErr)
    (h : argsLoop q n s = .ok (.error e)) : ListFault q n e s := by
  fun_induction argsLoop q n s with
  | case1 => cases h
  | case2 room c t hc rest hq hlt ih =>
    obtain ⟨c', hc', hn, e1⟩ := (parseQuoted_iff _ _ _).1 hq
    simp only [List.cons.injEq] at e1
    obtain ⟨rfl, rfl⟩ := e1
    exact .skip (quote_iff.2 hc) (ih h)
  | case3 c t hc arg rest hq hlt harg =>
    obtain ⟨c', hc', hn, e1⟩ := (parseQuoted_iff _ _ _).1 hq
    simp only [List.cons.injEq] at e1
    obtain ⟨rfl, rfl⟩ := e1
    cases h
    exact .over (quote_iff.2 hc) hn harg
  | case4 c t hc arg rest hq hlt harg room ih =>
    obtain ⟨c', hc', hn, e1⟩ := (parseQuoted_iff _ _ _).1 hq
    simp only [List.cons.injEq] at e1
    obtain ⟨rfl, rfl⟩ := e1
    refine .text (quote_iff.2 hc) hn harg (ih ?_)
    obtain ⟨x, hx, h⟩ := R.bind_eq_ok.1 h
    rw [hx]
    cases x with
    | error e' => exact h
    | ok as => cases h
  | case5 room c t hc e' hq =>
    cases h
    unfold parseQuoted at hq
    dsimp only at hq
    rw [if_neg (by rcases hc with rfl | rfl <;> simp)] at hq
    rcases byte_span c t with hno | ⟨a, b, rfl, hno⟩
    · have := parseQuoted_end hc hno
      unfold parseQuoted at this
      dsimp only at this
      rw [if_neg (by rcases hc with rfl | rfl <;> simp), hq] at this
      cases this
      exact .quote (quote_iff.2 hc) hno
    · rw [cutByte_at c a b hno] at hq
      simp at hq
  | case6 => cases h
  | case7 => cases h
  | case8 room c t hc hs ih => exact .sep (sep_iff.2 hs) (ih h)
  | case9 room c t hc hs =>
    cases h
    exact .stray (stray_iff.2 ⟨hc, hs⟩)

theorem listFault_args {q s : Str} {n : Nat} {e : TagErr} (h : ListFault q n e s) :
    argsLoop q n s = .ok (.error e) := by
  have closed : ∀ {c : UInt8} {w s : Str}, c = 39 ∨ c = 34 → c ∉ w →
      parseQuoted (c :: (w ++ c :: s)) = .ok (.ok (w, s)) :=
    fun hc hw => (parseQuoted_iff _ _ _).2 ⟨_, hc, hw, rfl⟩
  induction h with
  | stray h =>
    rw [stray_iff] at h
    rw [argsLoop, if_neg h.1, if_neg h.2]
  | quote hc h =>
    rw [quote_iff] at hc
    rw [argsLoop, if_pos hc]
    split
    · rename_i h'; rw [parseQuoted_end hc h] at h'; cases h'
    · rename_i h'; rw [parseQuoted_end hc h] at h'; cases h'; rfl
    · rename_i h'; rw [parseQuoted_end hc h] at h'; cases h'
    · rename_i h'; rw [parseQuoted_end hc h] at h'; cases h'
  | over hc hw hne =>
    rw [quote_iff] at hc
    rw [argsLoop, if_pos hc]
    split
    · rename_i h'; rw [closed hc hw] at h'; cases h'; simp [hne]
    · rename_i h'; rw [closed hc hw] at h'; cases h'
    · rename_i h'; rw [closed hc hw] at h'; cases h'
    · rename_i h'; rw [closed hc hw] at h'; cases h'
  | @sep n e c s hc _ ih =>
    rw [sep_iff] at hc
    rw [argsLoop, if_neg (by rcases hc with rfl | rfl <;> decide), if_pos hc, ih]
  | @skip n e c s hc _ ih =>
    rw [quote_iff] at hc
    rw [argsLoop, if_pos hc]
    have := closed (w := []) (s := s) hc (by simp)
    rw [List.nil_append] at this
    split
    · rename_i h'; rw [this] at h'; cases h'; simp [ih]
    · rename_i h'; rw [this] at h'; cases h'
    · rename_i h'; rw [this] at h'; cases h'
    · rename_i h'; rw [this] at h'; cases h'
  | @text n e c w s hc hw hne _ ih =>
    rw [quote_iff] at hc
    rw [argsLoop, if_pos hc]
    split
    · rename_i h'; rw [closed hc hw] at h'; cases h'; simp [hne, ih]
    · rename_i h'; rw [closed hc hw] at h'; cases h'
    · rename_i h'; rw [closed hc hw] at h'; cases h'
    · rename_i h'; rw [closed hc hw] at h'; cases h'

/-! ## Conditions -/

theorem opByte_iff {x : UInt8} : OpByte x ↔ isOpByte x = true := by
  have : (b! "=~!") = [61, 126, 33] := rfl
  unfold OpByte
  rw [this]
  simp [isOpByte]

theorem parseOp_bad {k r : Str} (h : r.head? = some 126 ∨ ∃ t, r = 33 :: t ∧ t.head? ≠ some 61) :
    parseOp k r = .error (.exprInvalid r) := by
  unfold parseOp
  have h1 : hasPrefix r (b!"=") = false := by
    rcases h with h | ⟨t, rfl, _⟩
    · cases r with
      | nil => cases h
      | cons x r =>
        simp only [List.head?_cons, Option.some.injEq] at h
        subst h
        rfl
    · rfl
  have h2 : hasPrefix r (b!"!=") = false := by
    rcases h with h | ⟨t, rfl, h⟩
    · cases r with
      | nil => cases h
      | cons x r =>
        simp only [List.head?_cons, Option.some.injEq] at h
        subst h
        rfl
    · cases t with
      | nil => rfl
      | cons y t =>
        simp only [List.head?_cons, ne_eq, Option.some.injEq] at h
        simp [hasPrefix, List.isPrefixOf, Ne.symm h]
  rw [h1, h2]
  rfl

theorem parseOp_error {k r : Str} {e : TagErr} {x : UInt8} {t : Str} (hr : r = x :: t)
    (hx : isOpByte x = true) (h : parseOp k r = .error e) :
    e = .exprInvalid r ∧ (r.head? = some 126 ∨ ∃ t, r = 33 :: t ∧ t.head? ≠ some 61) := by
  subst hr
  have hx' : x = 61 ∨ x = 126 ∨ x = 33 := by simpa [isOpByte, or_assoc] using hx
  unfold parseOp at h
  split at h
  · split at h <;> cases h
  · rename_i h1
    split at h
    · split at h <;> cases h
    · rename_i h2
      cases h
      refine ⟨rfl, ?_⟩
      rcases hx' with rfl | rfl | rfl
      · exact absurd rfl h1
      · exact .inl rfl
      · refine .inr ⟨t, rfl, ?_⟩
        cases t with
        | nil => simp
        | cons y t =>
          simp only [List.head?_cons, ne_eq, Option.some.injEq]
          rintro rfl
          exact h2 rfl

theorem indexP_span {p : UInt8 → Bool} {k r : Str} {x : UInt8} (hk : ∀ b ∈ k, p b = false)
    (hx : p x = true) : indexP p (k ++ x :: r) = some k.length := by
  induction k with
  | nil => simp [indexP, hx]
  | cons b k ih =>
    rw [List.cons_append, indexP, hk b (by simp), ih fun b hb => hk b (by simp [hb])]
    simp

theorem term_error_iff (lib : GoLib) (c : Str) (e : TagErr) :
    termOf lib c = .ok (.error e) ↔ CondFault lib e c := by
  constructor
  · intro h
    unfold termOf at h
    split at h
    · rename_i e' h0
      cases h
      unfold parseCondition at h0
      cases hi : indexP isOpByte c with
      | none =>
        rw [hi] at h0
        cases h0
        exact .noOp fun x hx hop => by
          have := indexP_none.1 hi x hx
          rw [opByte_iff.1 hop] at this
          cases this
      | some pos =>
        rw [hi] at h0
        dsimp only at h0
        obtain ⟨x, t, hd, hx⟩ := indexP_at hi
        obtain ⟨hlt, hpre⟩ := indexP_pre hi
        split at h0
        · rename_i hp
          cases h0
          have : pos = 0 := by omega
          subst this
          rw [List.drop_zero] at hd
          rw [hd]
          exact .noKey (opByte_iff.2 hx)
        · rename_i hp
          obtain ⟨rfl, h2⟩ := parseOp_error hd hx h0
          have := CondFault.badOp (lib := lib) (k := c.take pos) (r := c.drop pos) (by
            intro h
            have := congrArg List.length h
            simp only [List.length_take, List.length_nil] at this
            omega) (by
            intro y hy hop
            have := hpre y hy
            rw [opByte_iff.1 hop] at this
            cases this) h2
          rwa [List.take_append_drop] at this
    · rename_i t0 h0
      obtain ⟨_, _, _, _, e1, e2, e3⟩ := parseCondition_spec h0
      have e0 : t0 = { key := t0.key, op := t0.op, value := t0.value } := by
        cases t0
        simp only at e1 e2 e3
        simp [e1, e2, e3]
      rw [e0] at h0
      have hc := (condText_iff _ _ _ _).2 h0
      unfold TTerm.build at h
      split at h
      · rename_i hop
        split at h
        · cases h
        · rename_i hre
          cases h
          exact .regexp hc hop (by simpa using hre)
      · rename_i hop
        split at h
        · obtain ⟨x, hx, h⟩ := R.bind_eq_ok.1 h
          cases x with
          | error e' =>
            cases h
            refine .glob hc ?_ (parse_error_iff.1 hx)
            cases ho : t0.op <;> simp [ho] at hop ⊢
          | ok g =>
            dsimp only at h
            split at h <;> cases h
        · cases h
  · intro h
    unfold termOf
    cases h with
    | noOp h =>
      have : indexP isOpByte c = none := indexP_none.2 fun x hx => by
        cases ho : isOpByte x with
        | false => rfl
        | true => exact absurd (opByte_iff.2 ho) (h x hx)
      unfold parseCondition
      rw [this]
    | @noKey x t h =>
      unfold parseCondition
      rw [indexP, if_pos (opByte_iff.1 h)]
      rfl
    | @badOp k r hk hk' hr =>
      have hx : ∃ x t, r = x :: t ∧ isOpByte x = true := by
        rcases hr with hr | ⟨t, rfl, _⟩
        · cases r with
          | nil => cases hr
          | cons x t =>
            simp only [List.head?_cons, Option.some.injEq] at hr
            subst hr
            exact ⟨_, _, rfl, rfl⟩
        · exact ⟨_, _, rfl, rfl⟩
      obtain ⟨x, t, rfl, hx⟩ := hx
      unfold parseCondition
      rw [indexP_span (fun b hb => by
        cases ho : isOpByte b with
        | false => rfl
        | true => exact absurd (opByte_iff.2 ho) (hk' b hb)) hx]
      dsimp only
      rw [if_neg (by
        have := List.length_pos_iff.2 hk
        omega), List.drop_left, parseOp_bad hr]
    | regexp hc hop hre =>
      rw [(condText_iff _ _ _ _).1 hc]
      dsimp only
      unfold TTerm.build
      rw [if_pos hop]
      dsimp only
      rw [hre]
      rfl
    | @glob _ k v op e' hc hop hr =>
      rw [(condText_iff _ _ _ _).1 hc]
      dsimp only
      unfold TTerm.build
      rw [if_neg (by rcases hop with rfl | rfl <;> simp)]
      dsimp only
      have hw : hasWildcard v = true := by
        cases hw : hasWildcard v with
        | true => rfl
        | false => exact absurd (plain_row hw) hr.notRow
      rw [if_pos hw, parse_error_iff.2 hr]
      rfl

theorem conditions_error_iff (lib : GoLib) (cs : List Str) (e : TagErr) :
    conditionsLoop lib cs = .ok (.error e) ↔
      ∃ l c r, cs = l ++ c :: r ∧ (∀ x ∈ l, ∀ e', ¬ CondFault lib e' x) ∧ CondFault lib e c := by
  have step : ∀ c cs, conditionsLoop lib (c :: cs) = (do
      match ← termOf lib c with
      | .error e => .ok (.error e)
      | .ok t => do
        match ← conditionsLoop lib cs with
        | .error e => .ok (.error e)
        | .ok ts => .ok (.ok (t :: ts))) := by
    intro c cs
    rw [conditionsLoop]
    unfold termOf
    cases parseCondition c with
    | error e => rfl
    | ok t => rfl
  induction cs with
  | nil => simp [conditionsLoop]
  | cons c cs ih =>
    rw [step]
    obtain ⟨x, hx⟩ := termOf_total lib c
    rw [hx, R.bind_ok]
    cases x with
    | error e' =>
      have hf := (term_error_iff lib c e').1 hx
      simp only [R.ok.injEq, Except.error.injEq]
      constructor
      · rintro rfl
        exact ⟨[], c, cs, rfl, by simp, hf⟩
      · rintro ⟨l, c', r, h1, h2, h3⟩
        cases l with
        | nil =>
          simp only [List.nil_append, List.cons.injEq] at h1
          rw [← h1.1, ← term_error_iff, hx] at h3
          simpa using h3
        | cons y l =>
          simp only [List.cons_append, List.cons.injEq] at h1
          exact absurd hf (by rw [h1.1]; exact h2 y (by simp) e')
    | ok t =>
      have hn : ∀ e', ¬ CondFault lib e' c := by
        intro e' hf
        rw [← term_error_iff, hx] at hf
        simp at hf
      dsimp only
      obtain ⟨y, hy⟩ := conditionsLoop_total lib cs
      refine Iff.trans (b := conditionsLoop lib cs = .ok (.error e)) ?_ (ih.trans ?_)
      · rw [hy, R.bind_ok]
        cases y <;> simp
      constructor
      · rintro ⟨l, c', r, rfl, h2, h3⟩
        refine ⟨c :: l, c', r, rfl, ?_, h3⟩
        intro x hx
        rcases List.mem_cons.1 hx with rfl | hx
        · exact hn
        · exact h2 x hx
      · rintro ⟨l, c', r, h1, h2, h3⟩
        cases l with
        | nil =>
          simp only [List.nil_append, List.cons.injEq] at h1
          rw [← h1.1] at h3
          exact absurd h3 (hn e)
        | cons y l =>
          simp only [List.cons_append, List.cons.injEq] at h1
          exact ⟨l, c', r, h1.2, fun x hx => h2 x (by simp [hx]), h3⟩

/-! ## Queries -/

theorem args_call {q s : Str} (n : Nat) (h : CallText q s) : seriesByTagArgs q n = argsLoop q n s := by
  obtain ⟨m, k, hq⟩ := h
  have e : trimBlank q = (b!"seriesByTag(") ++ (s ++ b!")") := by
    have := trimBlank_pad m k ((b!"seriesByTag(") ++ (s ++ b!")")) (by simp) (by
      rw [List.getLast?_append, List.getLast?_append]; simp)
    rw [← this, hq]
    simp only [List.append_assoc]
  unfold seriesByTagArgs
  dsimp only
  rw [e, if_neg (by
    simp only [Bool.not_eq_true', Bool.not_eq_false, hasPrefix, List.isPrefixOf_iff_prefix]
    exact List.prefix_append _ _), if_neg (by
    rw [List.getLast?_append, List.getLast?_append]; simp)]
  have : (((b!"seriesByTag(") ++ (s ++ b!")")).drop 12).dropLast = s := by
    have : ((b!"seriesByTag(") ++ (s ++ b!")")).drop 12 = s ++ b!")" :=
      List.drop_left (l₁ := b!"seriesByTag(")
    rw [this]
    exact List.dropLast_concat
  rw [this]

theorem args_noCall {q : Str} (n : Nat) (h : ¬ ∃ s, CallText q s) :
    seriesByTagArgs q n = .ok (.error (.queryInvalid q)) := by
  unfold seriesByTagArgs
  dsimp only
  split
  · rfl
  · rename_i hp
    split
    · rfl
    · rename_i hl
      exfalso
      apply h
      obtain ⟨m, k, e⟩ := trimBlank_split q
      simp only [Bool.not_eq_true, Bool.not_eq_false', hasPrefix, List.isPrefixOf_iff_prefix] at hp
      simp only [ne_eq, Decidable.not_not] at hl
      obtain ⟨r, hr⟩ := hp
      refine ⟨r.dropLast, m, k, ?_⟩
      have hne : r ≠ [] := by
        rintro rfl
        rw [← hr] at hl
        revert hl
        decide
      have e2 : r.getLast? = some 41 := by
        rw [← hr, List.getLast?_append] at hl
        cases hx : r.getLast? with
        | none => exact absurd (List.getLast?_eq_none_iff.1 hx) hne
        | some y => rw [hx] at hl; simpa using hl
      have e3 : r.dropLast ++ [41] = r := by
        rw [List.getLast?_eq_some_getLast hne] at e2
        injection e2 with e2
        rw [← e2]
        exact List.dropLast_concat_getLast hne
      have e4 : (b!"seriesByTag(") ++ r.dropLast ++ b!")" = trimBlank q := by
        rw [List.append_assoc, ← hr]
        congr 1
      rw [← e4] at e
      rw [e]
      simp only [List.append_assoc]

/-- The error of `ParseSeriesByTag` is the one reported. -/
theorem query_error_iff {lib : GoLib} {q : Str} {e : TagErr} :
    parseSeriesByTag lib q = .ok (.error e) ↔ QueryReports lib e q := by
  have conds : ∀ cs, parseConditions lib cs = .ok (.error e) ↔
      conditionsLoop lib cs = .ok (.error e) := by
    intro cs
    unfold parseConditions
    obtain ⟨x, hx⟩ := conditionsLoop_total lib cs
    rw [hx]
    cases x <;> simp
  have step : parseSeriesByTag lib q = .ok (.error e) ↔
      seriesByTagArgs q 128 = .ok (.error e) ∨
      ∃ cs, seriesByTagArgs q 128 = .ok (.ok cs) ∧ parseConditions lib cs = .ok (.error e) := by
    unfold parseSeriesByTag
    rw [R.bind_eq_ok]
    constructor
    · rintro ⟨x, hx, h⟩
      cases x with
      | error e' => cases h; exact .inl hx
      | ok cs => exact .inr ⟨cs, hx, h⟩
    · rintro (h | ⟨cs, h1, h2⟩)
      · exact ⟨_, h, rfl⟩
      · exact ⟨_, h1, h2⟩
  rw [step]
  have h3 : (∃ cs, seriesByTagArgs q 128 = .ok (.ok cs) ∧ parseConditions lib cs = .ok (.error e)) ↔
      ∃ l c r, QueryText q (l ++ c :: r) ∧ (l ++ c :: r).length ≤ 128 ∧
        (∀ x ∈ l, ∀ e', ¬ CondFault lib e' x) ∧ CondFault lib e c := by
    constructor
    · rintro ⟨cs, h1, h2⟩
      obtain ⟨h4, h5⟩ := (args_iff _ _ _).1 h1
      obtain ⟨l, c, r, rfl, h6, h7⟩ := (conditions_error_iff _ _ _).1 ((conds cs).1 h2)
      exact ⟨l, c, r, h4, h5, h6, h7⟩
    · rintro ⟨l, c, r, h4, h5, h6, h7⟩
      exact ⟨_, (args_iff _ _ _).2 ⟨h4, h5⟩,
        (conds _).2 ((conditions_error_iff _ _ _).2 ⟨l, c, r, rfl, h6, h7⟩)⟩
  rw [h3, QueryReports, ← or_assoc]
  refine or_congr_left ?_
  by_cases hc : ∃ s, CallText q s
  · obtain ⟨s, hs⟩ := hc
    rw [args_call 128 hs]
    constructor
    · intro h
      exact .inr ⟨s, hs, argsLoop_fault _ _ _ _ h⟩
    · rintro (⟨_, h⟩ | ⟨s', hs', h⟩)
      · exact absurd ⟨s, hs⟩ h
      · rw [← args_call 128 hs, args_call 128 hs']
        exact listFault_args h
  · rw [args_noCall 128 hc]
    simp only [R.ok.injEq, Except.error.injEq]
    constructor
    · intro h
      exact .inl ⟨h.symm, hc⟩
    · rintro (⟨h, _⟩ | ⟨s, hs, _⟩)
      · exact h.symm
      · exact absurd ⟨s, hs⟩ hc

end GoMatcher
