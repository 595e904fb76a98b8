import Verif.Proofs.ExpandLang
import Verif.Proofs.GlobDec

/-! # C30-C34: what `Expand` and `ExpandTry` return -/

namespace GoMatcher

theorem noGap_iff (es : List ClassElt) (hes : ∀ e ∈ es, e.Ok) : (Tok.sub (.cls es)).noGap ↔
    ∀ e ∈ es, match e with
      | .one _ => True
      | .range a b => (b.toNat < 0xD800 ∨ 0xE000 ≤ a.toNat) ∧ (b.toNat < 0xFFFD ∨ 0xFFFD < a.toNat) := by
  simp only [Tok.noGap]
  constructor
  · intro h e he
    cases e with
    | one c => trivial
    | range a b =>
      have hok := hes _ he
      simp only [ClassElt.Ok] at hok
      obtain ⟨_, _, _, _, hab, _⟩ := hok
      have ha := Char.runeOk a
      have hb := Char.runeOk b
      unfold RuneOk at ha hb
      constructor
      · apply Classical.byContradiction
        intro hn
        have := h 0xD800 ⟨_, he, by simp only [ClassElt.Mem]; omega⟩
        omega
      · apply Classical.byContradiction
        intro hn
        have := h 0xFFFD ⟨_, he, by simp only [ClassElt.Mem]; omega⟩
        omega
  · rintro h n ⟨e, he, hm⟩
    have h1 := h e he
    have hok := hes e he
    cases e with
    | one c =>
      simp only [ClassElt.Mem] at hm
      simp only [ClassElt.Ok] at hok
      have hc := Char.runeOk c
      unfold RuneOk at hc
      have := hok.2
      omega
    | range a b =>
      simp only [ClassElt.Mem] at hm
      omega

theorem productSize_length (Ls : List (List (List Char))) : (product Ls).length = productSize Ls := by
  induction Ls with
  | nil => rfl
  | cons L Ls ih =>
    rw [product, productSize, ← ih]
    induction L with
    | nil => simp
    | cons a L ih => simp [ih, Nat.succ_mul, Nat.add_comm]

/-- Only empty braces, at least one pair: the parser fails. -/
def onlyVoid (ts : List Tok) : Prop := ts ≠ [] ∧ ∀ t ∈ ts, t = .alt [[]]

/-- Everything about `Expand(in, -1, 0)` on written globs: `pre` is expanded, `rest` is kept.
The number of results counts modulo 2^64, as the code multiplies `int`s. -/
theorem expand_full (pre rest : List Tok) (hok : ∀ t ∈ pre ++ rest, t.Ok)
    (hs : ∀ t ∈ pre, t.simple = true) (hg : ∀ t ∈ pre, t.noGap)
    (hr : rest = [] ∨ ∃ t ts, rest = t :: ts ∧ t.simple = false)
    (hne : ¬ onlyVoid (pre ++ rest)) (Ls : List (List (List Char))) (hL : AllChoices pre Ls) :
    expandGlob (utf8 (renderGlob (pre ++ rest))) (-1) 0 =
      if productSize Ls % 2 ^ 64 ≤ 2 ^ 44 then
        .ok ((product Ls).map fun a => utf8 (a ++ renderGlob rest))
      else .panic := by
  have hne' : pre ++ rest = [] ∨ ∃ t ∈ pre ++ rest, t ≠ .alt [[]] := by
    apply Classical.byContradiction
    intro h
    apply hne
    refine ⟨fun h' => h (.inl h'), fun t ht => Classical.byContradiction fun h' => h (.inr ⟨t, ht, h'⟩)⟩
  rw [expandGlob_canon _ hok hne']
  obtain ⟨Ls', h1, h2, h3⟩ := allChoices_of pre (fun t ht => hok t (by simp [ht])) hs hg
  have := allChoices_unique hL h1
  subst this
  obtain ⟨_, t2, t3⟩ := canon_tail hr
  have hcap : capCount 1 (canon (pre ++ rest)) = int64 (productSize Ls : Int) := by
    rw [canon_append _ _ hs, h3]
    split
    · rename_i h
      subst h
      cases hL
      rw [t3 1 (by decide)]
      decide
    · rw [Int.one_mul, t3 _ (int64_idem _)]
  rw [hcap]
  have hout : outs (canon (pre ++ rest)) 0 (-1) (if (0 : Int) > 0 then 0 + 1 else 0) =
      (product Ls).map fun a => utf8 (a ++ renderGlob rest) := by
    rw [canon_append _ _ hs, outs_expand _ _ _ _ (.inl (by simp)), t2]
    have := h2 [renderGlob rest]
    simp only [List.map_cons, List.map_nil] at this
    rw [this, List.map_flatMap]
    simp [← List.map_eq_flatMap]
  rw [hout]
  by_cases h : productSize Ls % 2 ^ 64 ≤ 2 ^ 44
  · rw [if_pos h, if_pos ((capOk_int64 _).2 h)]
  · rw [if_neg h, if_neg (fun h' => h ((capOk_int64 _).1 h'))]

/-- `{a,b}`, `n` times. -/
def pairs (n : Nat) : List Tok := List.replicate n (.alt [[.lit 'a'], [.lit 'b']])

theorem pairs_choices (n : Nat) : AllChoices (pairs n) (List.replicate n [['a'], ['b']]) := by
  induction n with
  | zero => exact .nil
  | succ n ih => exact .cons rfl ih

theorem pairs_size (n : Nat) : productSize (List.replicate n [['a'], ['b']]) = 2 ^ n := by
  induction n with
  | zero => rfl
  | succ n ih => rw [List.replicate_succ, productSize, ih, Nat.pow_succ, Nat.mul_comm]; rfl

theorem pairs_fine (n : Nat) : (∀ t ∈ pairs n ++ [], t.Ok) ∧ (∀ t ∈ pairs n, t.simple = true) ∧
    (∀ t ∈ pairs n, t.noGap) ∧ ¬ onlyVoid (pairs n ++ []) := by
  have h : ∀ t ∈ pairs n, t = .alt [[.lit 'a'], [.lit 'b']] := fun t ht => (List.mem_replicate.1 ht).2
  rw [List.append_nil]
  refine ⟨fun t ht => ?_, fun t ht => ?_, fun t ht => ?_, ?_⟩
  · rw [h t ht]; decide +kernel
  · rw [h t ht]; rfl
  · rw [h t ht]; trivial
  · rintro ⟨hne, hall⟩
    cases n with
    | zero => exact hne rfl
    | succ n =>
      have := hall (.alt [[.lit 'a'], [.lit 'b']]) (by simp [pairs])
      simp at this

namespace C30

/-- Full statement: for every sequence of literals, lists and classes, `Expand(in, -1, 0)` returns
the product of the choices in lexicographic order.  Missing here: more than 2^44 results (the
code panics, see `many_lists_panic`), globs of empty braces only (the parser panics, C33), and
classes that contain U+FFFD or surrogates (`replacement_char_lost`).
`rest` is what follows the first `*`, `?`, nested bracket or bracket with a wildcard. -/
theorem product_partial (pre rest : List Tok) (hok : ∀ t ∈ pre ++ rest, t.Ok)
    (hs : ∀ t ∈ pre, t.simple = true) (hg : ∀ t ∈ pre, t.noGap)
    (hr : rest = [] ∨ ∃ t ts, rest = t :: ts ∧ t.simple = false)
    (hne : ¬ onlyVoid (pre ++ rest)) (Ls : List (List (List Char))) (hL : AllChoices pre Ls)
    (hsize : productSize Ls ≤ 2 ^ 44) :
    expandGlob (utf8 (renderGlob (pre ++ rest))) (-1) 0 =
      .ok ((product Ls).map fun a => utf8 (a ++ renderGlob rest)) := by
  rw [expand_full pre rest hok hs hg hr hne Ls hL, if_pos]
  exact Nat.le_trans (Nat.mod_le _ _) hsize

/-- The choices exist, are determined by the glob, and their number is as expected. -/
theorem choices_exist (pre : List Tok) (hok : ∀ t ∈ pre, t.Ok) (hs : ∀ t ∈ pre, t.simple = true)
    (hg : ∀ t ∈ pre, t.noGap) :
    ∃ Ls, AllChoices pre Ls ∧ (product Ls).length = productSize Ls ∧ ∀ Ls', AllChoices pre Ls' → Ls' = Ls := by
  obtain ⟨Ls, h, _⟩ := allChoices_of pre hok hs hg
  exact ⟨Ls, h, productSize_length Ls, fun _ h' => allChoices_unique h' h⟩

/-- `x{1,23}[c-ea]*[yz]` -/
def exPre : List Tok := [.sub (.lit 'x'), .alt [[.lit '1'], [.lit '2', .lit '3']], .sub (.cls [.range 'c' 'e', .one 'a'])]
def exRest : List Tok := [.sub .star, .sub (.cls [.one 'y', .one 'z'])]

example : renderGlob (exPre ++ exRest) = "x{1,23}[c-ea]*[yz]".toList := by decide +kernel
example : (∀ t ∈ exPre ++ exRest, t.Ok) ∧ (∀ t ∈ exPre, t.simple = true) := by decide +kernel
example : ∀ t ∈ exPre, t.noGap := by
  intro t ht
  simp only [exPre, List.mem_cons, List.not_mem_nil, or_false] at ht
  rcases ht with rfl | rfl | rfl
  · trivial
  · trivial
  · rw [noGap_iff]
    · intro e he
      simp only [List.mem_cons, List.not_mem_nil, or_false] at he
      rcases he with rfl | rfl <;> decide
    · decide +kernel
example : AllChoices exPre [[['x']], [['1'], ['2', '3']], [['a'], ['c'], ['d'], ['e']]] := by
  refine .cons rfl (.cons rfl (.cons ⟨['a', 'c', 'd', 'e'], rfl, by decide +kernel, ?_⟩ .nil))
  intro c
  simp only [ClassMem, List.mem_cons, List.not_mem_nil, or_false, exists_eq_or_imp, exists_eq_left, ClassElt.Mem]
  have : ∀ d : Char, c = d ↔ c.toNat = d.toNat := fun d => ⟨fun h => by rw [h], Char.toNat_val_inj⟩
  simp only [this]
  have h1 : 'a'.toNat = 97 := rfl
  have h2 : 'c'.toNat = 99 := rfl
  have h3 : 'd'.toNat = 100 := rfl
  have h4 : 'e'.toNat = 101 := rfl
  omega
example : expandGlob (utf8 "x{1,23}[c-ea]*[yz]".toList) (-1) 0 =
    .ok (["x1a*[yz]", "x1c*[yz]", "x1d*[yz]", "x1e*[yz]", "x23a*[yz]", "x23c*[yz]", "x23d*[yz]", "x23e*[yz]"].map
      (fun s => utf8 s.toList)) := by decide +kernel

/-- Full statement refuted: 45 lists of two alternatives, nothing but literals and lists. -/
theorem many_lists_panic : expandGlob (utf8 (renderGlob (pairs 45))) (-1) 0 = .panic := by
  obtain ⟨h1, h2, h3, h4⟩ := pairs_fine 45
  have := expand_full (pairs 45) [] h1 h2 h3 (.inl rfl) h4 _ (pairs_choices 45)
  rw [List.append_nil] at this
  rw [this, pairs_size]
  rfl

/-- Full statement refuted: a class around U+FFFD loses the members from there on. -/
theorem replacement_char_lost : expandGlob (utf8 ['[', Char.ofNat 0xFFFC, '-', Char.ofNat 0xFFFE, ']']) (-1) 0 =
    .ok [utf8 [Char.ofNat 0xFFFC]] := by decide +kernel

end C30

namespace C31

/-- Full statement: with `max > 0` at least one and at most `max` strings are returned.  Missing
here: the calls that panic (C33), and limits so large that the product of `max` and the number of
alternatives of a single list or class leaves the range of `int`.  `s` is any byte string. -/
theorem within_limit_partial (s : Str) (max depth : Int) (hmax : 0 < max) (hs : max * s.length < 2 ^ 63)
    (hm : max * 0x110000 < 2 ^ 63) (r : List Str) (h : expandGlob s max depth = .ok r) :
    1 ≤ r.length ∧ (r.length : Int) ≤ max := by
  unfold expandGlob at h
  obtain ⟨exps, h1, h⟩ := R.bind_eq_ok.1 h
  obtain ⟨o, h2, h⟩ := R.bind_eq_ok.1 h
  cases h
  by_cases hc : CapFine exps
  · have hK : ∃ K : Nat, s.length ≤ K ∧ 0x110000 ≤ K ∧ max * (K : Int) < 2 ^ 63 := by
      by_cases hl : s.length ≤ 0x110000
      · exact ⟨0x110000, hl, Nat.le_refl _, hm⟩
      · exact ⟨s.length, Nat.le_refl _, by omega, hs⟩
    obtain ⟨K, hK1, hK2, hK3⟩ := hK
    have hg := parseExpr_good (K := (K : Int)) s (by omega) (by omega) h1
    rw [expressionsExpand_spec exps (fun e he => (hg e he).fresh) hc] at h2
    cases h2
    rw [topOuts_eq]
    refine ⟨outs_pos exps (fun e he => (hg e he).ne) _ _ _, ?_⟩
    have := outs_le exps K (fun e he => ⟨(hg e he).ne, (hg e he).le, (hg e he).bound⟩) 0 max _
      (valid_start max depth) hmax hK3
    simpa using this
  · rw [expressionsExpand_panic hc] at h2
    cases h2

example : (expandGlob (utf8 "{a,b}[cde]f{g,h}".toList) 7 0) =
    .ok (["a", "b"].flatMap fun x => ["c", "d", "e"].map fun y => utf8 (x ++ y ++ "f{g,h}").toList) := by
  decide +kernel

/-- The limit is not reached in any of `n` lists of two alternatives. -/
def below (m : Int) : Nat → Int → Bool
  | 0, _ => true
  | n + 1, c =>
    let c' := int64 ((if c ≤ 0 then 1 else c) * 2)
    decide (c' ≤ m) && below m n c'

theorem outs_below (m : Int) (hm : 0 < m) (e : XExpr) (he : e.typ = .list) (h2 : e.list.length = 2) (n : Nat) (c : Int)
    (h : below m n c = true) : (outs (List.replicate n e) c m 0).length = 2 ^ n := by
  induction n generalizing c with
  | zero => rfl
  | succ n ih =>
    have hcount : e.count = 2 := by unfold XExpr.count; rw [he]; simp [h2]
    have hc : nextCount e c m = int64 ((if c ≤ 0 then 1 else c) * 2) := by
      unfold nextCount
      rw [if_pos hm, hcount]
    rw [below, Bool.and_eq_true, decide_eq_true_eq] at h
    have hx : nextMax e c m 0 = m := by
      unfold nextMax
      dsimp only
      rw [if_neg (by simp), if_neg]
      rw [hc]
      omega
    have hd : nextDepth e 0 = 0 := by unfold nextDepth; simp
    rw [List.replicate_succ, outs, hx, if_neg (by omega), hd, length_flatMap_map, hc, ih _ h.2]
    have : e.alts.length = 2 := by unfold XExpr.alts; rw [he]; exact h2
    rw [this, Nat.pow_succ, Nat.mul_comm]

theorem pairs_all (n : Nat) (m : Int) (hm : 0 < m) (hn : 2 ^ n % 2 ^ 64 ≤ 2 ^ 44) (hb : below m n 0 = true) :
    ∃ r, expandGlob (utf8 (renderGlob (pairs n))) m 0 = .ok r ∧ r.length = 2 ^ n := by
  obtain ⟨h1, h2, h3, h4⟩ := pairs_fine n
  have h5 := expand_full (pairs n) [] h1 h2 h3 (.inl rfl) h4 _ (pairs_choices n)
  rw [List.append_nil] at h1 h4 h5
  have hne : pairs n = [] ∨ ∃ t ∈ pairs n, t ≠ .alt [[]] := by
    cases n with
    | zero => exact .inl rfl
    | succ n => exact .inr ⟨.alt [[.lit 'a'], [.lit 'b']], by simp [pairs], by simp⟩
  rw [expandGlob_canon _ h1 hne] at h5 ⊢
  rw [pairs_size, if_pos hn] at h5
  by_cases hc : capOk (capCount 1 (canon (pairs n))) = true
  · rw [if_pos hc]
    refine ⟨_, rfl, ?_⟩
    have hcan : canon (pairs n) = List.replicate n (canonTok (.alt [[.lit 'a'], [.lit 'b']])) := by
      have := canon_append (pairs n) [] h2
      rw [List.append_nil] at this
      rw [this]
      simp [pairs, canon]
    rw [hcan]
    exact outs_below _ hm _ (by decide +kernel) (by decide +kernel) n 0 hb
  · rw [if_neg hc] at h5
    cases h5

/-- Full statement refuted: 64 lists of two alternatives with the limit 2^62 give 2^64 results,
because the product wraps and starts again. -/
theorem wrapped_product_wrong :
    ∃ r, expandGlob (utf8 (renderGlob (pairs 64))) (2 ^ 62) 0 = .ok r ∧ r.length = 2 ^ 64 :=
  pairs_all 64 (2 ^ 62) (by decide) (by decide) (by decide +kernel)

end C31

namespace C32

/-- Full statement: `Expand(in, 0, depth)` returns exactly one string, with every list and class as
written.  Missing: the calls that panic (`many_lists_panic`, C33); and the string is not always as
written, see `as_written_partial`. `s` is any byte string. -/
theorem one_result_partial (s : Str) (depth : Int) (r : List Str) (h : expandGlob s 0 depth = .ok r) :
    r.length = 1 := by
  unfold expandGlob at h
  obtain ⟨exps, h1, h⟩ := R.bind_eq_ok.1 h
  obtain ⟨o, h2, h⟩ := R.bind_eq_ok.1 h
  cases h
  by_cases hc : CapFine exps
  · have hg := parseExpr_good (K := ((s.length + 0x110000 : Nat) : Int)) s (by omega) (by omega) h1
    rw [expressionsExpand_spec exps (fun e he => (hg e he).fresh) hc] at h2
    cases h2
    rw [topOuts_eq, outs_zero]
    rfl
  · rw [expressionsExpand_panic hc] at h2
    cases h2

/-- The string: brackets around a single choice disappear, all else is as written. -/
theorem kept_text (ts : List Tok) (hok : ∀ t ∈ ts, t.Ok) (depth : Int) (r : List Str)
    (h : expandGlob (utf8 (renderGlob ts)) 0 depth = .ok r) : r = [utf8 (renderGlob (keptGlob ts))] := by
  rcases Classical.em (onlyVoid ts) with hv | hv
  · exfalso
    have := (parseExpr_panic_toks ts hok).2 hv
    unfold expandGlob at h
    rw [this] at h
    cases h
  · have hne' : ts = [] ∨ ∃ t ∈ ts, t ≠ .alt [[]] := by
      apply Classical.byContradiction
      intro h
      apply hv
      refine ⟨fun h' => h (.inl h'), fun t ht => Classical.byContradiction fun h' => h (.inr ⟨t, ht, h'⟩)⟩
    rw [expandGlob_canon _ hok hne'] at h
    split at h
    · cases h
      rw [outs_zero, bodies_canon ts hok]
    · cases h

/-- Without superfluous brackets the glob comes back as written. -/
theorem as_written_partial (ts : List Tok) (hok : ∀ t ∈ ts, t.Ok) (hk : ∀ t ∈ ts, t.kept = [t]) (depth : Int)
    (r : List Str) (h : expandGlob (utf8 (renderGlob ts)) 0 depth = .ok r) : r = [utf8 (renderGlob ts)] := by
  rw [kept_text ts hok depth r h]
  congr 3
  clear h
  induction ts with
  | nil => rfl
  | cons t ts ih =>
    rw [keptGlob]
    split
    · rw [hk t (by simp), ih (fun x hx => hok x (by simp [hx])) (fun x hx => hk x (by simp [hx]))]
      rfl
    · rfl

def exTs : List Tok := [.sub (.lit 'x'), .alt [[.lit '1'], [.lit '2', .lit '3']], .sub (.cls [.range 'c' 'e']), .sub .any,
  .alt [[.lit 'q']]]
example : renderGlob exTs = "x{1,23}[c-e]?{q}".toList := by decide +kernel
example : ∀ t ∈ exTs, t.Ok := by decide +kernel
example : ∀ t ∈ exTs.take 4, t.kept = [t] := by decide +kernel
example : expandGlob (utf8 (renderGlob exTs)) 0 3 = .ok [utf8 (renderGlob exTs)] := by decide +kernel

/-- Full statement refuted: brackets around a single choice are removed. -/
theorem single_choice_unwrapped : expandGlob (utf8 "a{b}[c]".toList) 0 0 = .ok [utf8 "abc".toList] := by decide +kernel

/-- Full statement refuted: a class that the parser of this package rejects loses its brackets.
(`glob` reads `[z-a]` as a class.) -/
theorem bad_class_unwrapped : expandGlob (utf8 "a[z-a]".toList) 0 0 = .ok [utf8 "az-a".toList] := by decide +kernel

/-- Full statement refuted: the capacity for all combinations is asked for even if none is built. -/
theorem many_lists_panic : expandGlob (utf8 (renderGlob (pairs 45))) 0 0 = .panic := by
  obtain ⟨h1, h2, h3, h4⟩ := pairs_fine 45
  have h5 := C30.many_lists_panic
  rw [List.append_nil] at h1 h4
  have hne : pairs 45 = [] ∨ ∃ t ∈ pairs 45, t ≠ .alt [[]] :=
    .inr ⟨.alt [[.lit 'a'], [.lit 'b']], by simp [pairs], by simp⟩
  rw [expandGlob_canon _ h1 hne] at h5 ⊢
  split at h5
  · cases h5
  · rename_i h
    rw [if_neg h]

end C32

namespace C33

/-- Exactly which inputs make the parser panic: one or more bracket pairs that stand for
nothing, and nothing else.  `s` is any byte string without NUL. -/
theorem parse_panics_iff (s : Str) (h0 : 0 ∉ s) : parseExpr s = .panic ↔ VoidPairs s :=
  parseExpr_panic h0

/-- The loops always end: the result is a value or a panic. -/
theorem no_endless_loop (s : Str) (max depth : Int) :
    expandGlob s max depth ≠ .timeout ∧ expandTry s max depth ≠ .timeout := by
  rcases Classical.em (parseExpr s = .panic) with hp | hp
  · constructor
    · unfold expandGlob; rw [hp]; intro h; cases h
    · unfold expandTry; rw [hp]; intro h; cases h
  · obtain ⟨exps, h1⟩ := parseExpr_total hp
    have hg := parseExpr_good (K := ((s.length + 0x110000 : Nat) : Int)) s (by omega) (by omega) h1
    unfold expandGlob expandTry
    rw [h1, R.bind_ok, R.bind_ok]
    by_cases hc : CapFine exps
    · obtain ⟨x, xs, exps', _, h3⟩ := expressionsTry_spec exps (fun e he => ⟨(hg e he).fresh, (hg e he).ne⟩) hc max depth
      rw [expressionsExpand_spec exps (fun e he => (hg e he).fresh) hc, h3]
      constructor <;> (intro h; cases h)
    · rw [expressionsExpand_panic hc, expressionsExpand_panic hc]
      constructor <;> (intro h; cases h)

/-- Full statement: both return a result for every input.  Missing: inputs that consist of void
bracket pairs, inputs with NUL, and inputs with more than two opening brackets or longer than
4 MB, for which the product of the counts may exceed what `make` accepts. -/
theorem returns_partial (s : Str) (h0 : 0 ∉ s) (hv : ¬ VoidPairs s) (ho : opens s ≤ 2) (hl : s.length ≤ 2 ^ 22)
    (max depth : Int) : ∃ x xs, expandGlob s max depth = .ok (x :: xs) ∧ expandTry s max depth = .ok [x] := by
  obtain ⟨exps, h1⟩ := parseExpr_total (fun h => hv ((parseExpr_panic h0).1 h))
  have hg := parseExpr_good (K := (2 ^ 22 : Int)) s (by omega) (by decide) h1
  have hcap := capCount_bound (by decide) exps hg 1 (by decide) (by
    have hb := bigs_parse h1
    have h2 : bigs exps = 0 ∨ bigs exps = 1 ∨ bigs exps = 2 := by omega
    rcases h2 with h2 | h2 | h2 <;> rw [h2] <;> decide)
  have hc : CapFine exps := by
    rw [capFine_iff]
    unfold capOk
    simp only [decide_eq_true_eq]
    omega
  unfold expandGlob expandTry
  rw [h1, R.bind_ok, R.bind_ok]
  obtain ⟨x, xs, exps', h2, h3⟩ := expressionsTry_spec exps (fun e he => ⟨(hg e he).fresh, (hg e he).ne⟩) hc max depth
  rw [expressionsExpand_spec exps (fun e he => (hg e he).fresh) hc, h3, h2]
  exact ⟨x, xs, rfl, rfl⟩

/-- On written globs: exactly when a result is returned.  `N` is the number of combinations; it is
compared after wrapping at 64 bits. -/
theorem returns_iff (pre rest : List Tok) (hok : ∀ t ∈ pre ++ rest, t.Ok)
    (hs : ∀ t ∈ pre, t.simple = true) (hg : ∀ t ∈ pre, t.noGap)
    (hr : rest = [] ∨ ∃ t ts, rest = t :: ts ∧ t.simple = false)
    (Ls : List (List (List Char))) (hL : AllChoices pre Ls) (max depth : Int) :
    (∃ r, expandGlob (utf8 (renderGlob (pre ++ rest))) max depth = .ok r) ↔
      ¬ onlyVoid (pre ++ rest) ∧ productSize Ls % 2 ^ 64 ≤ 2 ^ 44 := by
  by_cases hne : onlyVoid (pre ++ rest)
  · have := (parseExpr_panic_toks _ hok).2 hne
    unfold expandGlob
    rw [this]
    constructor
    · rintro ⟨r, h⟩; cases h
    · rintro ⟨h, _⟩; exact absurd hne h
  · have hne' : pre ++ rest = [] ∨ ∃ t ∈ pre ++ rest, t ≠ .alt [[]] := by
      apply Classical.byContradiction
      intro h
      apply hne
      refine ⟨fun h' => h (.inl h'), fun t ht => Classical.byContradiction fun h' => h (.inr ⟨t, ht, h'⟩)⟩
    have hf := expand_full pre rest hok hs hg hr hne Ls hL
    rw [expandGlob_canon _ hok hne'] at hf ⊢
    by_cases hc : capOk (capCount 1 (canon (pre ++ rest))) = true
    · rw [if_pos hc] at hf ⊢
      by_cases hsz : productSize Ls % 2 ^ 64 ≤ 2 ^ 44
      · exact ⟨fun _ => ⟨hne, hsz⟩, fun _ => ⟨_, rfl⟩⟩
      · rw [if_neg hsz] at hf
        cases hf
    · rw [if_neg hc] at hf ⊢
      by_cases hsz : productSize Ls % 2 ^ 64 ≤ 2 ^ 44
      · rw [if_pos hsz] at hf
        cases hf
      · refine ⟨?_, fun h => absurd h.2 hsz⟩
        rintro ⟨r, h⟩
        cases h

example : opens (utf8 "a.{b,c}.[d-f]*".toList) ≤ 2 := by decide +kernel
example : expandTry (utf8 "a.{b,c}.[d-f]*".toList) 3 1 = .ok [utf8 "a.{b,c}.[d-f]*".toList] := by decide +kernel

/-- Full statement refuted: `{}` and `[]` panic. -/
theorem empty_brackets_panic : expandGlob (utf8 "{}".toList) (-1) 0 = .panic ∧ expandGlob (utf8 "[]".toList) (-1) 0 = .panic ∧
    expandTry (utf8 "{}[--]{}".toList) 5 1 = .panic := by decide +kernel

/-- Full statement refuted: 45 lists of two alternatives panic, whatever the limit (`C32`), while
64 lists pass this test. -/
theorem many_lists_panic (max depth : Int) : (¬ ∃ r, expandGlob (utf8 (renderGlob (pairs 45 ++ []))) max depth = .ok r) ∧
    ∃ r, expandGlob (utf8 (renderGlob (pairs 64 ++ []))) max depth = .ok r := by
  constructor
  · obtain ⟨h1, h2, h3, h4⟩ := pairs_fine 45
    rw [returns_iff (pairs 45) [] h1 h2 h3 (.inl rfl) _ (pairs_choices 45), pairs_size]
    rintro ⟨_, h⟩
    exact absurd h (by decide)
  · obtain ⟨h1, h2, h3, h4⟩ := pairs_fine 64
    rw [returns_iff (pairs 64) [] h1 h2 h3 (.inl rfl) _ (pairs_choices 64), pairs_size]
    exact ⟨h4, by decide⟩

end C33

namespace C34

/-- `ExpandTry` returns the first string of `Expand`, and only that; when one panics, so does
the other.  Any byte string, limit and depth. -/
theorem try_is_first (s : Str) (max depth : Int) :
    (expandGlob s max depth = .panic ∧ expandTry s max depth = .panic) ∨
    ∃ x xs, expandGlob s max depth = .ok (x :: xs) ∧ expandTry s max depth = .ok [x] := by
  rcases Classical.em (parseExpr s = .panic) with hp | hp
  · left
    unfold expandGlob expandTry
    rw [hp]
    exact ⟨rfl, rfl⟩
  · obtain ⟨exps, h1⟩ := parseExpr_total hp
    have hg := parseExpr_good (K := ((s.length + 0x110000 : Nat) : Int)) s (by omega) (by omega) h1
    unfold expandGlob expandTry
    rw [h1, R.bind_ok, R.bind_ok]
    by_cases hc : CapFine exps
    · obtain ⟨x, xs, exps', h2, h3⟩ := expressionsTry_spec exps (fun e he => ⟨(hg e he).fresh, (hg e he).ne⟩) hc max depth
      right
      rw [expressionsExpand_spec exps (fun e he => (hg e he).fresh) hc, h3, h2]
      exact ⟨x, xs, rfl, rfl⟩
    · left
      rw [expressionsExpand_panic hc, expressionsExpand_panic hc]
      exact ⟨rfl, rfl⟩

/-- Expanding parsed expressions leaves them as they were, so every later call starts from the same
state.  Full statement: this for all calls.  Missing: calls with `try`, see `try_keeps_position`. -/
theorem unchanged_partial (s : Str) (exps : List XExpr) (hp : parseExpr s = .ok exps) (max depth : Int)
    (r : List Str) (exps' : List XExpr) (h : expressionsExpand exps max depth false = .ok (r, exps')) :
    exps' = exps := by
  have hg := parseExpr_good (K := ((s.length + 0x110000 : Nat) : Int)) s (by omega) (by omega) hp
  by_cases hc : CapFine exps
  · rw [expressionsExpand_spec exps (fun e he => (hg e he).fresh) hc] at h
    cases h
    rfl
  · rw [expressionsExpand_panic hc] at h
    cases h

/-- A sequence of calls on the same expressions: the results. -/
def calls (exps : List XExpr) : List (Int × Int) → List (R (List Str))
  | [] => []
  | (max, depth) :: l => match expressionsExpand exps max depth false with
    | .ok (r, exps') => .ok r :: calls exps' l
    | .panic => [.panic]
    | .timeout => [.timeout]

/-- Every call in a sequence gives what a first call would give. -/
theorem repeated_partial (s : Str) (exps : List XExpr) (hp : parseExpr s = .ok exps) (l : List (Int × Int))
    (h : ∀ c ∈ l, expandGlob s c.1 c.2 ≠ .panic) : calls exps l = l.map fun c => expandGlob s c.1 c.2 := by
  have hone : ∀ c : Int × Int, expandGlob s c.1 c.2 = (do let o ← expressionsExpand exps c.1 c.2 false; .ok o.1) := by
    intro c
    unfold expandGlob
    rw [hp, R.bind_ok]
  induction l with
  | nil => rfl
  | cons c l ih =>
    have h1 := h c (by simp)
    have h2 := (C33.no_endless_loop s c.1 c.2).1
    rw [hone] at h1 h2
    have e : calls exps (c :: l) = (match expressionsExpand exps c.1 c.2 false with
      | .ok (r, exps') => .ok r :: calls exps' l
      | .panic => [.panic]
      | .timeout => [.timeout]) := by cases c; rfl
    rw [e, List.map_cons, hone]
    cases hr : expressionsExpand exps c.1 c.2 false with
    | ok o =>
      obtain ⟨r, exps'⟩ := o
      have := unchanged_partial s exps hp c.1 c.2 r exps' hr
      subst this
      dsimp only
      rw [ih (fun x hx => h x (by simp [hx]))]
      rfl
    | panic => rw [hr] at h1; exact absurd rfl h1
    | timeout => rw [hr] at h2; exact absurd rfl h2

example : ∃ exps, parseExpr (utf8 "{a,b}[c-e]".toList) = .ok exps ∧
    calls exps [(-1, 0), (0, 0), (-1, 0)] = [(-1, 0), (0, 0), (-1, 0)].map fun c : Int × Int =>
      expandGlob (utf8 "{a,b}[c-e]".toList) c.1 c.2 := by
  refine ⟨_, rfl, ?_⟩
  decide +kernel

/-- Full statement refuted: a call with `try` leaves the iterators behind the first choice, and the
next call on the same expressions gives something else. -/
theorem try_keeps_position : ∃ exps exps', parseExpr (utf8 "{a,b}".toList) = .ok exps ∧
    expressionsExpand exps (-1) 0 true = .ok ([utf8 ['a']], exps') ∧
    (do let o ← expressionsExpand exps' (-1) 0 false; R.ok o.1) = .ok [utf8 ['b']] := by
  refine ⟨_, _, rfl, rfl, ?_⟩
  decide +kernel

end C34

end GoMatcher
