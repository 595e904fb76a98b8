import Verif.Proofs.ExpandChoice

/-! # Expansion of written globs -/

namespace GoMatcher

theorem canon_append (pre rest : List Tok) (hs : ∀ t ∈ pre, t.simple = true) :
    canon (pre ++ rest) = pre.map canonTok ++ canon rest := by
  induction pre with
  | nil => rfl
  | cons t pre ih =>
    rw [List.cons_append, canon, if_pos (hs t (by simp)), ih (fun x hx => hs x (by simp [hx]))]
    rfl

/-- The text that is kept. -/
theorem bodies_canon (ts : List Tok) (hok : ∀ t ∈ ts, t.Ok) :
    bodies (canon ts) = utf8 (renderGlob (keptGlob ts)) := by
  induction ts with
  | nil => rfl
  | cons t ts ih =>
    rw [canon, keptGlob]
    by_cases hs : t.simple = true
    · rw [if_pos hs, if_pos hs, bodies, ih (fun x hx => hok x (by simp [hx])),
        (canonTok_body (hok t (by simp)) hs).1]
      simp [renderGlob]
    · rw [if_neg hs, if_neg hs]
      simp [bodies]

theorem kept_nil {t : Tok} (h : t.kept = []) : t = .alt [[]] := by
  unfold Tok.kept at h
  split at h
  · simp only [List.map_eq_nil_iff] at h
    rw [h]
  · split at h <;> simp at h
  · simp at h

theorem keptGlob_nil {ts : List Tok} (h : keptGlob ts = []) : ∀ t ∈ ts, t = .alt [[]] := by
  induction ts with
  | nil => simp
  | cons t ts ih =>
    rw [keptGlob] at h
    split at h
    · rw [List.append_eq_nil_iff] at h
      intro x hx
      rcases List.mem_cons.1 hx with rfl | hx
      · exact kept_nil h.1
      · exact ih h.2 x hx
    · simp at h

/-- The parser panics on a written glob exactly when it consists of empty braces. -/
theorem parseExpr_panic_toks (ts : List Tok) (hok : ∀ t ∈ ts, t.Ok) :
    parseExpr (utf8 (renderGlob ts)) = .panic ↔ ts ≠ [] ∧ ∀ t ∈ ts, t = .alt [[]] := by
  constructor
  · intro hp
    have hne : ts ≠ [] := by
      rintro rfl
      exact absurd hp (by decide)
    refine ⟨hne, ?_⟩
    obtain ⟨out, h1, h2⟩ := xParseLoop_canon ts hok ((utf8 (renderGlob ts)).length + 1) [] (by simp) [] (by simp)
    rw [utf8_nil, List.nil_append] at h1
    rcases parseExpr_loop _ out h1 with ⟨_, rfl⟩ | ⟨exps, h3, _⟩
    · have h3 := (h2.trans (eqv_nil rfl rfl _)).outs 0 0 0 (by simpa using valid_start 0 0)
      rw [outs_zero, outs_zero, bodies_canon ts hok] at h3
      simp only [bodies, List.cons.injEq, and_true] at h3
      have := renderGlob_eq_nil h3.symm
      exact keptGlob_nil this
    · rw [hp] at h3; cases h3
  · rintro ⟨hne, hall⟩
    have hr : ∀ ts : List Tok, ts ≠ [] → (∀ t ∈ ts, t = .alt [[]]) →
        VoidPairs (utf8 (renderGlob ts)) ∧ 0 ∉ utf8 (renderGlob ts) := by
      intro ts
      induction ts with
      | nil => intro h; exact absurd rfl h
      | cons t ts ih =>
        intro _ hall
        have ht := hall t (by simp)
        subst ht
        have e : utf8 (renderGlob (.alt [[]] :: ts)) = [123, 125] ++ utf8 (renderGlob ts) := by
          have : renderGlob (.alt [[]] :: ts) = ['{', '}'] ++ renderGlob ts := by
            simp [renderGlob, Tok.render, renderAlts, renderSubs]
          rw [this, utf8_append]
          rfl
        rw [e]
        by_cases hn : ts = []
        · subst hn
          have : utf8 (renderGlob []) = [] := rfl
          rw [this, List.append_nil]
          exact ⟨.one _ (.inl rfl), by decide⟩
        · obtain ⟨i1, i2⟩ := ih hn (fun x hx => hall x (by simp [hx]))
          refine ⟨.more _ _ (.inl rfl) i1, ?_⟩
          intro h
          rcases List.mem_append.1 h with h | h
          · exact absurd h (by decide)
          · exact i2 h
    obtain ⟨h1, h2⟩ := hr ts hne hall
    exact (parseExpr_panic h2).2 h1

/-- What `Expand` does, in terms of one expression per token. -/
theorem expandGlob_canon (ts : List Tok) (hok : ∀ t ∈ ts, t.Ok) (hne : ts = [] ∨ ∃ t ∈ ts, t ≠ .alt [[]]) (m depth : Int) :
    expandGlob (utf8 (renderGlob ts)) m depth =
      if capOk (capCount 1 (canon ts)) then
        .ok (outs (canon ts) 0 m (if depth > 0 then depth + 1 else depth))
      else .panic := by
  rcases parseExpr_canon ts hok with h | ⟨exps, h1, h2⟩
  · exfalso
    obtain ⟨h3, h4⟩ := (parseExpr_panic_toks ts hok).1 h
    rcases hne with h5 | ⟨t, ht, h5⟩
    · exact h3 h5
    · exact h5 (h4 t ht)
  · unfold expandGlob
    rw [h1, R.bind_ok]
    have hg := parseExpr_good (K := (max (utf8 (renderGlob ts)).length 0x110000 : Nat)) (utf8 (renderGlob ts)) (by omega) (by omega) h1
    have hcap := h2.cap 1 (by decide)
    by_cases hc : capOk (capCount 1 (canon ts)) = true
    · rw [if_pos hc]
      rw [← hcap] at hc
      rw [expressionsExpand_spec exps (fun e he => (hg e he).fresh) ((capFine_iff _).2 hc)]
      rw [topOuts_eq, h2.outs _ _ _ (valid_start m depth)]
      rfl
    · rw [if_neg hc, expressionsExpand_panic]
      · rfl
      · rw [capFine_iff, hcap]
        exact hc

/-! ## The product -/

/-- Every text of every expression, with `X` behind. -/
def expProd : List XExpr → List Str → List Str
  | [], X => X
  | e :: es, X => e.alts.flatMap fun a => (expProd es X).map (a ++ ·)

/-- Dots that count for the depth. -/
def strDots : List XExpr → Nat
  | [] => 0
  | e :: es => (if e.typ = .str ∨ e.typ = .wild then dots e.body else 0) + strDots es

theorem outs_expand (es X : List XExpr) (c d : Int) (hd : d ≤ 0 ∨ 2 + (strDots es : Int) ≤ d) :
    outs (es ++ X) c (-1) d = expProd es (outs X c (-1) (if d > 0 then d - strDots es else d)) := by
  induction es generalizing d with
  | nil =>
    simp only [List.nil_append, expProd, strDots]
    split <;> simp
  | cons e es ih =>
    have hc : nextCount e c (-1) = c := by unfold nextCount; rw [if_neg (by omega)]
    have hstep : nextDepth e d = (if d > 0 then d - ((if e.typ = .str ∨ e.typ = .wild then dots e.body else 0 : Nat) : Int) else d) := by
      unfold nextDepth
      by_cases h1 : d > 0
      · by_cases h2 : e.typ = .str ∨ e.typ = .wild
        · rw [if_pos ⟨h1, h2⟩, if_pos h1, if_pos h2]
        · rw [if_neg (fun h => h2 h.2), if_pos h1, if_neg h2]
          omega
      · rw [if_neg (fun h => h1 h.1), if_neg h1]
    have hm : nextMax e c (-1) d = -1 := by
      unfold nextMax
      dsimp only
      rw [if_neg, if_neg (by omega)]
      rintro ⟨h1, h2, h3⟩
      rw [hstep, if_pos h1, if_pos h2] at h3
      simp only [strDots, if_pos h2] at hd
      omega
    rw [List.cons_append, outs, hc, hm, if_neg (by decide), expProd, ih]
    · congr 1
      funext a
      congr 3
      rw [hstep]
      simp only [strDots]
      by_cases h1 : d > 0
      · simp only [if_pos h1]
        rw [if_pos (by simp only [strDots] at hd; omega)]
        omega
      · simp only [if_neg h1]
    · rw [hstep]
      simp only [strDots] at hd
      split <;> omega

/-- The expressions of tokens, with the texts of their choices. -/
theorem allChoices_of (pre : List Tok) (hok : ∀ t ∈ pre, t.Ok) (hs : ∀ t ∈ pre, t.simple = true)
    (hg : ∀ t ∈ pre, t.noGap) : ∃ Ls, AllChoices pre Ls ∧
      (∀ X : List (List Char), expProd (pre.map canonTok) (X.map utf8) =
        ((product Ls).flatMap fun a => X.map fun b => a ++ b).map utf8) ∧
      ∀ c Y, capCount c (pre.map canonTok ++ Y) = capCount (if pre = [] then c else int64 (c * productSize Ls)) Y := by
  induction pre with
  | nil =>
    refine ⟨[], .nil, fun X => ?_, fun c Y => rfl⟩
    simp [expProd, product]
  | cons t pre ih =>
    obtain ⟨Ls, h1, h2, h3⟩ := ih (fun x hx => hok x (by simp [hx])) (fun x hx => hs x (by simp [hx]))
      (fun x hx => hg x (by simp [hx]))
    obtain ⟨L, hL⟩ := tokOf (hok t (by simp)) (hs t (by simp)) (hg t (by simp))
    refine ⟨L :: Ls, .cons hL.choices h1, fun X => ?_, fun c Y => ?_⟩
    · rw [List.map_cons, expProd, h2, hL.alts, product]
      simp only [List.flatMap_map, List.map_flatMap, List.flatMap_assoc, List.map_map]
      congr 1
      funext a
      congr 1
      funext b
      apply List.map_congr_left
      intro x _
      simp [List.append_assoc]
    · rw [List.map_cons, List.cons_append, capCount, hL.count]
      rw [if_neg hL.notWild, h3]
      congr 1
      rw [if_neg (by simp : ¬ (t :: pre = []))]
      have hcast : ((productSize (L :: Ls) : Nat) : Int) = (L.length : Int) * (productSize Ls : Int) := by
        rw [productSize]; exact Int.natCast_mul _ _
      rw [hcast]
      split
      · rename_i h
        subst h
        cases h1
        simp [productSize]
      · unfold int64
        rw [← Int.mul_assoc, Int.bmod_mul_bmod]

theorem canon_tail {rest : List Tok} (hr : rest = [] ∨ ∃ t ts, rest = t :: ts ∧ t.simple = false) :
    bodies (canon rest) = utf8 (renderGlob rest) ∧ (∀ c m d, outs (canon rest) c m d = [utf8 (renderGlob rest)]) ∧
      ∀ c, int64 c = c → capCount c (canon rest) = c := by
  rcases hr with rfl | ⟨t, ts, rfl, ht⟩
  · exact ⟨rfl, fun _ _ _ => rfl, fun c _ => rfl⟩
  · rw [canon, if_neg (by simp [ht])]
    refine ⟨by simp [bodies], fun c m d => ?_, fun c hc => ?_⟩
    · rw [outs_fixed (alts_wild rfl)]
      simp [outs]
    · simp [capCount, XExpr.count, hc]

theorem allChoices_unique {ts : List Tok} {Ls Ls' : List (List (List Char))} (h : AllChoices ts Ls) (h' : AllChoices ts Ls') :
    Ls = Ls' := by
  induction h generalizing Ls' with
  | nil => cases h'; rfl
  | cons a _ ih =>
    cases h' with
    | cons b hb => rw [choices_unique a b, ih hb]

end GoMatcher
