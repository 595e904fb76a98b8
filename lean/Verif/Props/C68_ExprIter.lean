import Verif.Proofs.ExprIter

/-! # C68: an expression of the package `expand` as an iterator

`appendNext`, `reset`, `count` and `minLen` of the expressions that `ParseExpr` returns
(/repo/expand/expression.go:48-122). -/

namespace GoMatcher
namespace C68

/-- Calls of `appendNext`, each with any buffer, append the texts in turn and then report
`io.EOF`, leaving the iterator in the state `e'`. -/
inductive Drains : XExpr → List Str → XExpr → Prop where
  | eof {e e' : XExpr} : (∀ out, e.appendNext out = .ok (e', none)) → Drains e [] e'
  | next {e e1 e' : XExpr} {x : Str} {xs : List Str} :
    (∀ out, e.appendNext out = .ok (e1, some (out ++ x))) → Drains e1 xs e' → Drains e (x :: xs) e'

/-- The texts of an expression: the body, the words, or the members of the class in order. -/
def texts (e : XExpr) : List Str :=
  match e.typ with
  | .str | .wild => [e.body]
  | .list => e.list
  | .runes => e.runes.flatMap fun r => (List.range' r.start (r.stop + 1 - r.start)).map encodeRune

/-- No class contains U+FFFD. -/
def NoError (e : XExpr) : Prop := ∀ r ∈ e.runes, ¬ (r.start ≤ 0xFFFD ∧ 0xFFFD ≤ r.stop)

theorem drains_iter {e0 e : XExpr} {xs : List Str} (h : Iter e0 e xs) : ∃ e', Drains e xs e' ∧ e'.reset = e0 := by
  induction xs generalizing e with
  | nil =>
    obtain ⟨e', h1, h2⟩ := appendNext_nil h []
    exact ⟨e', .eof fun out => appendNext_out h1 out, h2⟩
  | cons x xs ih =>
    obtain ⟨e1, h1, h2⟩ := appendNext_cons h []
    obtain ⟨e', h3, h4⟩ := ih h2
    exact ⟨e', .next (fun out => appendNext_out h1 out) h3, h4⟩

theorem drains_unique {e e1 e2 : XExpr} {xs ys : List Str} (h1 : Drains e xs e1) (h2 : Drains e ys e2) :
    xs = ys ∧ e1 = e2 := by
  induction h1 generalizing ys with
  | eof a =>
    cases h2 with
    | eof b => have := (a []).symm.trans (b []); simp at this; exact ⟨rfl, this⟩
    | next b _ => have := (a []).symm.trans (b []); simp at this
  | next a _ ih =>
    cases h2 with
    | eof b => have := (a []).symm.trans (b []); simp at this
    | next b h =>
      have := (a []).symm.trans (b [])
      simp at this
      obtain ⟨rfl, rfl⟩ := this
      obtain ⟨rfl, rfl⟩ := ih h
      exact ⟨rfl, rfl⟩

theorem parsed_good {s : Str} {exps : List XExpr} (h : parseExpr s = .ok exps) {e : XExpr} (he : e ∈ exps) :
    ∃ K, GoodExpr K e := by
  by_cases hK : (s.length : Int) ≤ 0x110000
  · exact ⟨0x110000, parseExpr_good s hK (by omega) h e he⟩
  · exact ⟨s.length, parseExpr_good s (Int.le_refl _) (by omega) h e he⟩

/-- Every parsed expression gives at least one and at most `count` texts, ends, and is as before
after `reset`. -/
theorem drains (s : Str) (exps : List XExpr) (h : parseExpr s = .ok exps) (e : XExpr) (he : e ∈ exps) :
    e.reset = e ∧ ∃ xs e', Drains e xs e' ∧ e'.reset = e ∧ xs ≠ [] ∧ (xs.length : Int) ≤ e.count := by
  obtain ⟨K, hg⟩ := parsed_good h he
  obtain ⟨e', h1, h2⟩ := drains_iter (iter_fresh hg.fresh)
  exact ⟨hg.fresh.reset, e.alts, e', h1, h2, hg.ne, hg.le⟩

theorem going_of {e : XExpr} (h : ∀ r ∈ e.runes, RunesFine r) (hn : NoError e) : ∀ r ∈ e.runes, r.Going :=
  fun r hr => ⟨(h r hr).le, hn r hr, by
    intro c hc; rw [(h r hr).pos] at hc; cases hc; exact Nat.le_refl _⟩

theorem alts_texts {e : XExpr} (hn : NoError e) : e.alts = texts e := by
  unfold XExpr.alts texts rangesAlts
  cases e.typ with
  | str => rfl
  | wild => rfl
  | list => rfl
  | runes =>
    dsimp only
    rw [List.flatMap_def, List.flatMap_def]
    refine congrArg List.flatten (List.map_congr_left fun r hr => congrArg (List.map encodeRune) ?_)
    unfold codesFrom
    refine takeWhile_all fun x hx => ?_
    simp only [List.mem_range'_1] at hx
    have := hn r hr
    simp only [decide_eq_true_eq, ne_eq]
    intro hx'
    rw [hx'] at hx
    simp only [runeError] at hx
    omega

/-- Full statement (not true of the code): the iterator gives the texts of the expression in
order, `count` of them, and says `io.EOF` from then on without any further change.  Missing:
classes that contain U+FFFD; see `count_wrong`. -/
theorem order_partial (s : Str) (exps : List XExpr) (h : parseExpr s = .ok exps) (e : XExpr) (he : e ∈ exps)
    (hn : NoError e) : ∃ e', Drains e (texts e) e' ∧ ((texts e).length : Int) = e.count ∧ e'.reset = e ∧
      ∀ out, e'.appendNext out = .ok (e', none) := by
  obtain ⟨K, hg⟩ := parsed_good h he
  have hf := parseExpr_fine h e he
  have hgo := going_of hf hn
  obtain ⟨e', h1, h2⟩ := drains_iter (iter_fresh hg.fresh)
  have hc := alts_count hgo
  rw [alts_texts hn] at h1 hc
  refine ⟨e', h1, hc, h2, ?_⟩
  clear hc h2 hf hn hg he
  generalize texts e = xs at h1
  induction h1 with
  | eof a =>
    have := appendNext_going hgo (a [])
    intro out
    exact appendNext_out (this.2 rfl) out
  | next a _ ih => exact ih (appendNext_going hgo (a [])).1

/-- `minLen` is the length of the first text; -1 for wildcards. -/
theorem first_len (s : Str) (exps : List XExpr) (h : parseExpr s = .ok exps) (e : XExpr) (he : e ∈ exps) :
    (e.typ = .wild → e.minLen = .ok (-1)) ∧
    (e.typ ≠ .wild → ∃ x xs e', Drains e (x :: xs) e' ∧ e.minLen = .ok x.length) := by
  obtain ⟨K, hg⟩ := parsed_good h he
  obtain ⟨e', h1, h2⟩ := drains_iter (iter_fresh hg.fresh)
  refine ⟨fun ht => by unfold XExpr.minLen; rw [ht], fun ht => ?_⟩
  obtain ⟨x, xs, hx, hm⟩ := alts_head hg (parseExpr_fine h e he) ht
  rw [hx] at h1
  exact ⟨x, xs, e', h1, hm⟩

/-- Of `{abc,a}` the shortest text has one byte, but `minLen` is 3. -/
theorem min_wrong : ∃ exps e, parseExpr (b! "{abc,a}") = .ok exps ∧ e ∈ exps ∧ texts e = [b!"abc", b!"a"] ∧
    e.minLen = .ok 3 :=
  ⟨_, _, rfl, List.mem_singleton.2 rfl, by decide +kernel, by decide +kernel⟩

/-- The class U+FFFC to U+FFFE: `count` is 3, but the iterator ends after one text, and goes on with
U+FFFE when it is asked again. -/
theorem count_wrong : ∃ exps e e1 e2 e3, parseExpr (utf8 ['[', Char.ofNat 0xFFFC, '-', Char.ofNat 0xFFFE, ']']) = .ok exps ∧
    e ∈ exps ∧ e.count = 3 ∧ e.appendNext [] = .ok (e1, some (utf8 [Char.ofNat 0xFFFC])) ∧
    e1.appendNext [] = .ok (e2, none) ∧ e2.appendNext [] = .ok (e3, some (utf8 [Char.ofNat 0xFFFE])) :=
  ⟨_, _, _, _, _, rfl, List.mem_singleton.2 rfl, by decide +kernel, rfl, rfl, rfl⟩

/-! ## Examples -/

-- `x{ab,}[a-cя]*`: four expressions with 1, 2, 4 and 1 texts
example : ∃ exps, parseExpr (utf8 "x{ab,}[a-cя]*".toList) = .ok exps ∧ exps.map XExpr.count = [1, 2, 4, 1] ∧
    exps.map texts = [[b!"x"], [b!"ab", []], [b!"a", b!"b", b!"c", utf8 ['я']], [b!"*"]] :=
  ⟨_, rfl, by decide +kernel, by decide +kernel⟩
example : ∃ exps, parseExpr (utf8 "x{ab,}[a-cя]*".toList) = .ok exps ∧
    exps.map XExpr.minLen = [.ok 1, .ok 2, .ok 1, .ok (-1)] := ⟨_, rfl, by decide +kernel⟩
example : ∃ exps, parseExpr (utf8 "x{ab,}[a-cя]*".toList) = .ok exps ∧
    exps.all (fun e => e.runes.all fun r => !(decide (r.start ≤ 0xFFFD) && decide (0xFFFD ≤ r.stop))) = true :=
  ⟨_, rfl, by decide +kernel⟩

end C68
end GoMatcher
