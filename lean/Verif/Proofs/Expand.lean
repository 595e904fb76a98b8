import Verif.Model.Expand

/-! # What `Expressions.Expand` computes -/

namespace GoMatcher

/-- The code points from `c` to `stop`; U+FFFD ends the iteration. -/
def codesFrom (c stop : Nat) : List Nat := (List.range' c (stop + 1 - c)).takeWhile (· ≠ runeError)

theorem codesFrom_nil {c stop : Nat} (h : stop < c) : codesFrom c stop = [] := by
  simp [codesFrom, Nat.sub_eq_zero_of_le (Nat.succ_le_of_lt h)]

theorem codesFrom_error (stop : Nat) : codesFrom runeError stop = [] := by
  unfold codesFrom
  cases h : stop + 1 - runeError with
  | zero => rfl
  | succ n => simp [List.range'_succ]

theorem codesFrom_cons {c stop : Nat} (h : c ≤ stop) (hc : c ≠ runeError) :
    codesFrom c stop = c :: codesFrom (c + 1) stop := by
  unfold codesFrom
  have : stop + 1 - c = (stop + 1 - (c + 1)) + 1 := by omega
  rw [this, List.range'_succ, List.takeWhile_cons]
  simp [hc]

/-- The texts of a class. -/
def rangesAlts (rs : List XRunes) : List Str := rs.flatMap fun r => (codesFrom r.start r.stop).map encodeRune

/-- The texts that the iterator of an expression goes through. -/
def XExpr.alts (e : XExpr) : List Str :=
  match e.typ with
  | .str | .wild => [e.body]
  | .list => e.list
  | .runes => rangesAlts e.runes

/-- An expression as the parser leaves it. -/
structure XExpr.Fresh (e : XExpr) : Prop where
  pos : e.pos = some 0
  list : e.typ = .list → e.list ≠ []
  runes : e.typ = .runes → e.runes ≠ []
  each : ∀ r ∈ e.runes, r.pos = some r.start

theorem XRunes.reset_of {r : XRunes} (h : r.pos = some r.start) : r.reset = r := by
  cases r; simp_all [XRunes.reset]

theorem XExpr.Fresh.reset {e : XExpr} (h : e.Fresh) : e.reset = e := by
  have : e.runes.map XRunes.reset = e.runes := by
    conv => rhs; rw [← List.map_id e.runes]
    apply List.map_congr_left
    intro r hr
    exact XRunes.reset_of (h.each r hr)
  cases e
  simp only [XExpr.reset] at this ⊢
  rw [this]
  have := h.pos
  simp_all

/-- `e` is the expression `e0` during an iteration, with the texts `rem` to come. -/
def Iter (e0 e : XExpr) (rem : List Str) : Prop :=
  e.reset = e0 ∧
  match e.typ with
  | .str | .wild => (e.pos = some 0 ∧ rem = [e.body]) ∨ (e.pos = none ∧ rem = [])
  | .list => (∃ p, e.pos = some p ∧ p < e.list.length ∧ rem = e.list.drop p) ∨ (e.pos = none ∧ rem = [])
  | .runes => ∃ a r b c, e.pos = some a.length ∧ e.runes = a ++ r :: b ∧ r.pos = some c ∧
      rem = (codesFrom c r.stop).map encodeRune ++ rangesAlts b

theorem iter_fresh {e : XExpr} (h : e.Fresh) : Iter e e e.alts := by
  refine ⟨h.reset, ?_⟩
  unfold XExpr.alts
  cases ht : e.typ with
  | str => exact .inl ⟨h.pos, rfl⟩
  | wild => exact .inl ⟨h.pos, rfl⟩
  | list =>
    refine .inl ⟨0, h.pos, ?_, by simp⟩
    exact List.length_pos_iff.2 (h.list ht)
  | runes =>
    cases hr : e.runes with
    | nil => exact absurd hr (h.runes ht)
    | cons r b =>
      exact ⟨[], r, b, r.start, by simpa using h.pos, rfl, h.each r (by simp [hr]), by simp [rangesAlts]⟩

theorem map_reset_set {l : List XRunes} {p : Nat} {r : XRunes} (h : l[p]?.map XRunes.reset = some r.reset) :
    (l.set p r).map XRunes.reset = l.map XRunes.reset := by
  rw [List.map_set]
  cases hp : l[p]? with
  | none => simp [hp] at h
  | some q =>
    simp only [hp, Option.map_some, Option.some.injEq] at h
    rw [← h]
    obtain ⟨h1, h2⟩ := List.getElem?_eq_some_iff.1 hp
    apply List.ext_getElem
    · simp
    · intro i h3 h4
      rw [List.getElem_set]
      split
      · rename_i e
        subst e
        simp [h2]
      · rfl

theorem next_reset (r : XRunes) : r.next.2.reset = r.reset := by
  unfold XRunes.next
  split
  · rfl
  · split <;> rfl

theorem reset_reset (r : XRunes) : r.reset.reset = r.reset := rfl

theorem runesNext_spec (fuel : Nat) (e : XExpr) (a : List XRunes) (r : XRunes) (b : List XRunes) (c : Nat)
    (hp : e.pos = some a.length) (hr : e.runes = a ++ r :: b) (hc : r.pos = some c)
    (hf : b.length < fuel) :
    match (codesFrom c r.stop).map encodeRune ++ rangesAlts b with
    | [] => ∃ e', runesNext fuel e = .ok (e', none) ∧ e'.typ = e.typ ∧ e'.reset = e.reset
    | x :: xs => ∃ e' c', runesNext fuel e = .ok (e', some c') ∧ x = encodeRune c' ∧ e'.typ = e.typ ∧
        e'.reset = e.reset ∧
        ∃ a r b c, e'.pos = some a.length ∧ e'.runes = a ++ r :: b ∧ r.pos = some c ∧
          xs = (codesFrom c r.stop).map encodeRune ++ rangesAlts b := by
  induction b generalizing fuel e a r c with
  | nil =>
    obtain ⟨fuel, rfl⟩ : ∃ k, fuel = k + 1 := ⟨fuel - 1, by simp at hf; omega⟩
    have hget : e.runes[a.length]? = some r := by rw [hr]; simp
    have hres : (e.runes.set a.length r.next.2).map XRunes.reset = e.runes.map XRunes.reset :=
      map_reset_set (by rw [hget]; simp [next_reset])
    rw [runesNext, hp]
    dsimp only
    rw [hget]
    dsimp only
    have hlen : ¬ a.length + 1 < (e.runes.set a.length r.next.2).length := by simp [hr]
    by_cases hstop : c ≤ r.stop
    · by_cases hce : c = runeError
      · subst hce
        have hn : r.next.1 = runeError := by
          unfold XRunes.next; rw [hc]; dsimp only; rw [if_neg (by omega)]
        rw [codesFrom_error, if_pos hn, if_neg hlen]
        exact ⟨_, rfl, rfl, by simp [XExpr.reset, hres]⟩
      · have hn : r.next = (c, { r with pos := some (c + 1) }) := by
          unfold XRunes.next; rw [hc]; dsimp only; rw [if_neg (by omega)]
        rw [codesFrom_cons hstop hce]
        simp only [List.map_cons, List.cons_append]
        rw [if_neg (by rw [hn]; exact hce)]
        refine ⟨_, r.next.1, rfl, by rw [hn], rfl, by simp [XExpr.reset, hres], ?_⟩
        refine ⟨a, { r with pos := some (c + 1) }, [], c + 1, rfl, ?_, rfl, rfl⟩
        dsimp only
        rw [hn, hr]
        simp
    · have hn : r.next.1 = runeError := by
        unfold XRunes.next; rw [hc]; dsimp only; rw [if_pos (by omega)]
      rw [codesFrom_nil (by omega), if_pos hn, if_neg hlen]
      exact ⟨_, rfl, rfl, by simp [XExpr.reset, hres]⟩
  | cons q b ih =>
    obtain ⟨fuel, rfl⟩ : ∃ k, fuel = k + 1 := ⟨fuel - 1, by simp at hf; omega⟩
    have hget : e.runes[a.length]? = some r := by rw [hr]; simp
    have hres : (e.runes.set a.length r.next.2).map XRunes.reset = e.runes.map XRunes.reset :=
      map_reset_set (by rw [hget]; simp [next_reset])
    have hlen : a.length + 1 < (e.runes.set a.length r.next.2).length := by simp [hr]
    have hset : e.runes.set a.length r.next.2 = (a ++ [r.next.2]) ++ q :: b := by
      rw [hr]; simp
    have hget2 : (e.runes.set a.length r.next.2)[a.length + 1]? = some q := by
      rw [hset, List.getElem?_append_right (by simp)]
      simp
    -- skipping to the next range
    have skip : r.next.1 = runeError →
        match (codesFrom q.start q.stop).map encodeRune ++ rangesAlts b with
        | [] => ∃ e', runesNext (fuel + 1) e = .ok (e', none) ∧ e'.typ = e.typ ∧ e'.reset = e.reset
        | x :: xs => ∃ e' c', runesNext (fuel + 1) e = .ok (e', some c') ∧ x = encodeRune c' ∧
            e'.typ = e.typ ∧ e'.reset = e.reset ∧
            ∃ a r b c, e'.pos = some a.length ∧ e'.runes = a ++ r :: b ∧ r.pos = some c ∧
              xs = (codesFrom c r.stop).map encodeRune ++ rangesAlts b := by
      intro hn
      have hset2 : (e.runes.set a.length r.next.2).set (a.length + 1) q.reset =
          (a ++ [r.next.2]) ++ q.reset :: b := by
        rw [hset]
        have : a.length + 1 = (a ++ [r.next.2]).length := by simp
        rw [this, List.set_append_right _ _ (by simp)]
        simp
      have hres2 : ((e.runes.set a.length r.next.2).set (a.length + 1) q.reset).map XRunes.reset =
          e.runes.map XRunes.reset := by
        rw [map_reset_set (by rw [hget2]; simp [reset_reset]), hres]
      have := ih fuel { e with pos := some (a.length + 1), runes := (e.runes.set a.length r.next.2).set (a.length + 1) q.reset }
        (a ++ [r.next.2]) q.reset q.start (by simp) hset2 rfl (by simp at hf; omega)
      have hrun : runesNext (fuel + 1) e = runesNext fuel { e with pos := some (a.length + 1), runes := (e.runes.set a.length r.next.2).set (a.length + 1) q.reset } := by
        rw [runesNext, hp]
        dsimp only
        rw [hget]
        dsimp only
        rw [if_pos hn, if_pos hlen, hget2]
      rw [hrun]
      have hE : ({ e with pos := some (a.length + 1), runes := (e.runes.set a.length r.next.2).set (a.length + 1) q.reset } : XExpr).reset = e.reset := by
        simp only [XExpr.reset]
        rw [hres2]
      rw [hE] at this
      exact this
    have hra : rangesAlts (q :: b) = (codesFrom q.start q.stop).map encodeRune ++ rangesAlts b := by
      simp [rangesAlts]
    by_cases hstop : c ≤ r.stop
    · by_cases hce : c = runeError
      · subst hce
        have hn : r.next.1 = runeError := by
          unfold XRunes.next; rw [hc]; dsimp only; rw [if_neg (by omega)]
        rw [codesFrom_error, hra]
        exact skip hn
      · have hn : r.next = (c, { r with pos := some (c + 1) }) := by
          unfold XRunes.next; rw [hc]; dsimp only; rw [if_neg (by omega)]
        rw [codesFrom_cons hstop hce]
        simp only [List.map_cons, List.cons_append]
        rw [runesNext, hp]
        dsimp only
        rw [hget]
        dsimp only
        rw [if_neg (by rw [hn]; exact hce)]
        refine ⟨_, r.next.1, rfl, by rw [hn], rfl, by simp [XExpr.reset, hres], ?_⟩
        refine ⟨a, { r with pos := some (c + 1) }, q :: b, c + 1, rfl, ?_, rfl, rfl⟩
        dsimp only
        rw [hn, hr]
        simp
    · have hn : r.next.1 = runeError := by
        unfold XRunes.next; rw [hc]; dsimp only; rw [if_pos (by omega)]
      rw [codesFrom_nil (by omega), hra]
      exact skip hn

theorem appendNext_nil {e0 e : XExpr} (h : Iter e0 e []) (out : Str) :
    ∃ e', e.appendNext out = .ok (e', none) ∧ e'.reset = e0 := by
  obtain ⟨h1, h2⟩ := h
  unfold XExpr.appendNext
  cases ht : e.typ with
  | str =>
    rw [ht] at h2
    rcases h2 with ⟨_, h2⟩ | ⟨h2, _⟩
    · simp at h2
    · rw [h2]; exact ⟨e, rfl, h1⟩
  | wild =>
    rw [ht] at h2
    rcases h2 with ⟨_, h2⟩ | ⟨h2, _⟩
    · simp at h2
    · rw [h2]; exact ⟨e, rfl, h1⟩
  | list =>
    rw [ht] at h2
    rcases h2 with ⟨p, _, h3, h2⟩ | ⟨h2, _⟩
    · have := congrArg List.length h2
      simp at this
      omega
    · rw [h2]; exact ⟨e, rfl, h1⟩
  | runes =>
    rw [ht] at h2
    obtain ⟨a, r, b, c, p1, p2, p3, p4⟩ := h2
    have := runesNext_spec (e.runes.length + 1) e a r b c p1 p2 p3 (by rw [p2]; simp; omega)
    rw [← p4] at this
    obtain ⟨e', q1, q2, q3⟩ := this
    rw [p1]
    dsimp only
    rw [q1, R.bind_ok]
    exact ⟨e', rfl, by rw [q3, h1]⟩

theorem appendNext_cons {e0 e : XExpr} {x : Str} {xs : List Str} (h : Iter e0 e (x :: xs)) (out : Str) :
    ∃ e', e.appendNext out = .ok (e', some (out ++ x)) ∧ Iter e0 e' xs := by
  obtain ⟨h1, h2⟩ := h
  unfold XExpr.appendNext
  cases ht : e.typ with
  | str =>
    rw [ht] at h2
    rcases h2 with ⟨h2, h3⟩ | ⟨_, h2⟩
    · rw [h2]
      simp only [List.cons.injEq] at h3
      rw [h3.1, h3.2]
      refine ⟨_, rfl, by simpa [XExpr.reset, ht] using h1, ?_⟩
      simp
    · simp at h2
  | wild =>
    rw [ht] at h2
    rcases h2 with ⟨h2, h3⟩ | ⟨_, h2⟩
    · rw [h2]
      simp only [List.cons.injEq] at h3
      rw [h3.1, h3.2]
      refine ⟨_, rfl, by simpa [XExpr.reset, ht] using h1, ?_⟩
      simp
    · simp at h2
  | list =>
    rw [ht] at h2
    rcases h2 with ⟨p, h2, h3, h4⟩ | ⟨_, h2⟩
    · rw [h2]
      dsimp only
      have hd : e.list.drop p = e.list[p] :: e.list.drop (p + 1) := List.drop_eq_getElem_cons h3
      rw [hd] at h4
      simp only [List.cons.injEq] at h4
      have : e.list[p]? = some x := by
        rw [List.getElem?_eq_some_iff]; exact ⟨h3, h4.1.symm⟩
      rw [this]
      dsimp only
      refine ⟨_, rfl, by simpa [XExpr.reset, ht] using h1, ?_⟩
      dsimp only
      by_cases hl : p + 1 < e.list.length
      · rw [if_pos hl]
        exact .inl ⟨p + 1, rfl, hl, h4.2⟩
      · rw [if_neg hl]
        refine .inr ⟨rfl, ?_⟩
        rw [h4.2, List.drop_eq_nil_iff]
        omega
    · simp at h2
  | runes =>
    rw [ht] at h2
    obtain ⟨a, r, b, c, p1, p2, p3, p4⟩ := h2
    have := runesNext_spec (e.runes.length + 1) e a r b c p1 p2 p3 (by rw [p2]; simp; omega)
    rw [← p4] at this
    obtain ⟨e', c', q1, q2, q3, q4, q5⟩ := this
    rw [p1]
    dsimp only
    rw [q1, R.bind_ok]
    refine ⟨e', by rw [q2], by rw [q4, h1], ?_⟩
    rw [q3, ht]
    exact q5

/-- What `expand` adds to the result for the expressions, apart from the common prefix. -/
def outs : List XExpr → Int → Int → Int → List Str
  | [], _, _, _ => [[]]
  | e :: es, count, max, depth =>
    let c := nextCount e count max
    let m := nextMax e count max depth
    let d := nextDepth e depth
    if m = 0 then (outs es c m d).map (e.body ++ ·)
    else e.alts.flatMap fun a => (outs es c m d).map (a ++ ·)

theorem loop_spec (next : List XExpr → List Str → Str → R XOut) (es : List XExpr) (O : List Str)
    (hn : ∀ result buf, ∃ junk, next es result buf =
      .ok (result ++ O.map (buf ++ ·), buf ++ junk, es))
    (fuel : Nat) (e0 e : XExpr) (rem : List Str) (h : Iter e0 e rem) (hf : rem.length < fuel)
    (result : List Str) (buf : Str) :
    expandLoop next false buf.length fuel e es result buf =
      .ok (result ++ rem.flatMap (fun a => O.map (fun x => (buf ++ a) ++ x)), buf, e0, es) := by
  induction fuel generalizing e rem result with
  | zero => omega
  | succ fuel ih =>
    rw [expandLoop]
    cases rem with
    | nil =>
      obtain ⟨e', h1, h2⟩ := appendNext_nil h buf
      rw [h1, R.bind_ok]
      simp [h2]
    | cons x xs =>
      obtain ⟨e', h1, h2⟩ := appendNext_cons h buf
      rw [h1, R.bind_ok]
      dsimp only
      obtain ⟨junk, hj⟩ := hn result (buf ++ x)
      rw [hj, R.bind_ok]
      dsimp only
      rw [sliceTo, if_pos (by simp)]
      have ht : (buf ++ x ++ junk).take buf.length = buf := by
        rw [List.append_assoc, List.take_left]
      rw [R.bind_ok, ht, if_neg (by simp), ih e' xs h2 (by simp at hf; omega)]
      simp [List.append_assoc]

theorem codesFrom_length (c stop : Nat) : (codesFrom c stop).length ≤ stop + 1 - c := by
  unfold codesFrom
  exact Nat.le_trans (List.takeWhile_prefix _).length_le (by simp)

theorem rangesAlts_length (rs : List XRunes) : (rangesAlts rs).length ≤ runesSize rs := by
  induction rs with
  | nil => simp [rangesAlts]
  | cons r rs ih =>
    have : rangesAlts (r :: rs) = (codesFrom r.start r.stop).map encodeRune ++ rangesAlts rs := by
      simp [rangesAlts]
    rw [this, runesSize, List.length_append, List.length_map]
    have := codesFrom_length r.start r.stop
    omega

theorem alts_lt_rounds (e : XExpr) : e.alts.length < e.rounds := by
  unfold XExpr.alts XExpr.rounds
  cases e.typ with
  | str => simp
  | wild => simp
  | list => simp; omega
  | runes => have := rangesAlts_length e.runes; simp; omega

/-- `Expand`: all results, and the expressions are left as they were. -/
theorem expandAll_spec (exps : List XExpr) (h : ∀ e ∈ exps, e.Fresh) (n : Nat) (hn : exps.length ≤ n)
    (result : List Str) (c m d : Int) (buf : Str) :
    ∃ junk, expandAll n exps result c m d false buf =
      .ok (result ++ (outs exps c m d).map (buf ++ ·), buf ++ junk, exps) := by
  induction exps generalizing n result c m d buf with
  | nil => exact ⟨[], by cases n <;> simp [expandAll, outs]⟩
  | cons e es ih =>
    obtain ⟨n, rfl⟩ : ∃ k, n = k + 1 := ⟨n - 1, by simp at hn; omega⟩
    have ih := ih (fun e h' => h e (by simp [h'])) n (by simpa using hn)
    rw [expandAll, outs]
    by_cases hm : nextMax e c m d = 0
    · rw [if_pos hm, if_pos hm]
      obtain ⟨junk, hj⟩ := ih result (nextCount e c m) (nextMax e c m d) (nextDepth e d) (buf ++ e.body)
      rw [hj, R.bind_ok]
      exact ⟨e.body ++ junk, by simp [Function.comp_def, List.append_assoc]⟩
    · rw [if_neg hm, if_neg hm]
      rw [loop_spec _ es (outs es (nextCount e c m) (nextMax e c m d) (nextDepth e d))
        (fun result buf => ih result _ _ _ buf) _ e e e.alts (iter_fresh (h e (by simp)))
        (alts_lt_rounds e), R.bind_ok]
      exact ⟨[], by simp [List.map_flatMap, Function.comp_def, List.append_assoc]⟩

/-- `ExpandTry`: the first result only. -/
theorem expandTry_spec (exps : List XExpr) (h : ∀ e ∈ exps, e.Fresh ∧ e.alts ≠ []) (n : Nat)
    (hn : exps.length ≤ n) (result : List Str) (c m d : Int) (buf : Str) :
    ∃ x xs junk exps', outs exps c m d = x :: xs ∧ expandAll n exps result c m d true buf =
      .ok (result ++ [buf ++ x], buf ++ junk, exps') := by
  induction exps generalizing n result c m d buf with
  | nil => exact ⟨[], [], [], [], rfl, by cases n <;> simp [expandAll]⟩
  | cons e es ih =>
    obtain ⟨n, rfl⟩ : ∃ k, n = k + 1 := ⟨n - 1, by simp at hn; omega⟩
    have ih := ih (fun e h' => h e (by simp [h'])) n (by simpa using hn)
    rw [expandAll, outs]
    by_cases hm : nextMax e c m d = 0
    · rw [if_pos hm, if_pos hm]
      obtain ⟨x, xs, junk, es', h1, h2⟩ := ih result (nextCount e c m) (nextMax e c m d) (nextDepth e d) (buf ++ e.body)
      rw [h1, h2, R.bind_ok]
      exact ⟨e.body ++ x, xs.map (e.body ++ ·), e.body ++ junk, e :: es', rfl, by simp [List.append_assoc]⟩
    · rw [if_neg hm, if_neg hm]
      obtain ⟨hF, hne⟩ := h e (by simp)
      have hrnd : ∃ k, e.rounds = k + 1 := ⟨e.list.length + runesSize e.runes + 1, rfl⟩
      obtain ⟨k, hk⟩ := hrnd
      rw [hk, expandLoop]
      have hI := iter_fresh hF
      cases ha : e.alts with
      | nil => exact absurd ha hne
      | cons a as =>
        rw [ha] at hI
        obtain ⟨e', h1, h2⟩ := appendNext_cons hI buf
        rw [h1, R.bind_ok]
        dsimp only
        obtain ⟨x, xs, junk, es', h3, h4⟩ := ih result (nextCount e c m) (nextMax e c m d) (nextDepth e d) (buf ++ a)
        rw [h4, R.bind_ok]
        dsimp only
        rw [sliceTo, if_pos (by simp)]
        have ht : (buf ++ a ++ junk).take buf.length = buf := by
          rw [List.append_assoc, List.take_left]
        rw [R.bind_ok, ht, if_pos rfl, R.bind_ok]
        exact ⟨a ++ x, _, [], e' :: es', by rw [h3]; rfl, by simp [List.append_assoc]⟩

/-- What `Expressions.Expand` answers. -/
def topOuts (exps : List XExpr) (max depth : Int) : List Str :=
  match exps with
  | [e] => if e.typ = .str then [e.body] else outs exps 0 max (if depth > 0 then depth + 1 else depth)
  | _ => outs exps 0 max (if depth > 0 then depth + 1 else depth)

theorem topOuts_many {exps : List XExpr} (h : ∀ e, exps = [e] → False) (max depth : Int) :
    topOuts exps max depth = outs exps 0 max (if depth > 0 then depth + 1 else depth) := by
  unfold topOuts
  split
  · exact (h _ rfl).elim
  · rfl

/-- The capacity given to `make` is accepted, or `make` is not reached. -/
def CapFine (exps : List XExpr) : Prop :=
  (∃ e, exps = [e] ∧ e.typ = .str) ∨ capOk (capCount 1 exps) = true

theorem expressionsExpand_spec (exps : List XExpr) (h : ∀ e ∈ exps, e.Fresh) (hc : CapFine exps)
    (max depth : Int) :
    expressionsExpand exps max depth false = .ok (topOuts exps max depth, exps) := by
  have key : capOk (capCount 1 exps) = true →
      (if !capOk (capCount 1 exps) then (.panic : R (List Str × List XExpr))
      else do
        let o ← expandAll exps.length exps [] 0 max (if depth > 0 then depth + 1 else depth) false []
        .ok (o.1, o.2.2)) = .ok (outs exps 0 max (if depth > 0 then depth + 1 else depth), exps) := by
    intro hk
    rw [if_neg (by simp [hk])]
    obtain ⟨junk, hj⟩ := expandAll_spec exps h exps.length (Nat.le_refl _) [] 0 max
      (if depth > 0 then depth + 1 else depth) []
    rw [hj, R.bind_ok]
    simp
  unfold expressionsExpand
  split
  · rename_i e
    by_cases he : e.typ = .str
    · rw [if_pos he]
      unfold topOuts
      dsimp only
      rw [if_pos he]
    · rw [if_neg he]
      unfold topOuts
      dsimp only
      rw [if_neg he]
      apply key
      rcases hc with ⟨e', h1, h2⟩ | hc
      · simp only [List.cons.injEq, and_true] at h1
        subst h1
        exact absurd h2 he
      · exact hc
  · rename_i hne
    rw [topOuts_many hne]
    apply key
    rcases hc with ⟨e', h1, h2⟩ | hc
    · exact absurd h1 (hne e')
    · exact hc

theorem expressionsTry_spec (exps : List XExpr) (h : ∀ e ∈ exps, e.Fresh ∧ e.alts ≠ []) (hc : CapFine exps)
    (max depth : Int) :
    ∃ x xs exps', topOuts exps max depth = x :: xs ∧
      expressionsExpand exps max depth true = .ok ([x], exps') := by
  have key : capOk (capCount 1 exps) = true →
      ∃ x xs exps', outs exps 0 max (if depth > 0 then depth + 1 else depth) = x :: xs ∧
      (if !capOk (capCount 1 exps) then (.panic : R (List Str × List XExpr))
      else do
        let o ← expandAll exps.length exps [] 0 max (if depth > 0 then depth + 1 else depth) true []
        .ok (o.1, o.2.2)) = .ok ([x], exps') := by
    intro hk
    simp only [hk, Bool.not_true, Bool.false_eq_true, if_false]
    obtain ⟨x, xs, junk, exps', h1, h2⟩ := expandTry_spec exps h exps.length (Nat.le_refl _) [] 0 max
      (if depth > 0 then depth + 1 else depth) []
    rw [h2, R.bind_ok]
    exact ⟨x, xs, exps', h1, by simp⟩
  unfold expressionsExpand
  split
  · rename_i e
    by_cases he : e.typ = .str
    · rw [if_pos he]
      unfold topOuts
      dsimp only
      rw [if_pos he]
      exact ⟨e.body, [], _, rfl, rfl⟩
    · rw [if_neg he]
      unfold topOuts
      dsimp only
      rw [if_neg he]
      apply key
      rcases hc with ⟨e', h1, h2⟩ | hc
      · simp only [List.cons.injEq, and_true] at h1
        subst h1
        exact absurd h2 he
      · exact hc
  · rename_i hne
    rw [topOuts_many hne]
    apply key
    rcases hc with ⟨e', h1, h2⟩ | hc
    · exact absurd h1 (hne e')
    · exact hc

end GoMatcher
