import Verif.Proofs.ExpandCap
import Verif.Proofs.ParseToks
import Verif.Spec.Expand

/-! # `ParseExpr` on written globs -/

namespace GoMatcher

/-- The expression of a token. -/
def canonTok : Tok → XExpr
  | .sub (.lit c) => { body := utf8 [c] }
  | t => getExpression (utf8 t.render)

/-- The expressions of a glob, with one expression per token. -/
def canon : List Tok → List XExpr
  | [] => []
  | t :: ts => if t.simple then canonTok t :: canon ts
      else [{ typ := .wild, body := utf8 (renderGlob (t :: ts)) }]

theorem pushExpr_eqv (exps : List XExpr) (e : XExpr) (X : List XExpr) :
    Eqv (pushExpr exps e ++ X) (exps ++ e :: X) := by
  have app : Eqv ((exps ++ [e]) ++ X) (exps ++ e :: X) := by
    rw [List.append_assoc]
    exact Eqv.refl _
  unfold pushExpr
  split
  · rename_i he
    split
    · rename_i l hl
      obtain ⟨init, rfl⟩ : ∃ init, exps = init ++ [l] := List.getLast?_eq_some_iff.1 hl
      split
      · rename_i hlt
        rw [List.dropLast_concat, List.append_assoc, List.append_assoc]
        apply Eqv.append
        exact (eqv_merge hlt he (g := { l with body := l.body ++ e.body }) hlt rfl X).symm
      · split
        · exact app
        · rename_i hb
          simp only [ne_eq, Decidable.not_not] at hb
          apply Eqv.append
          exact (eqv_nil he hb X).symm
    · split
      · exact app
      · rename_i hb
        simp only [ne_eq, Decidable.not_not] at hb
        apply Eqv.append
        exact (eqv_nil he hb X).symm
  · exact app

theorem tok_render_ne {t : Tok} : t.render ≠ [] := by
  cases t with
  | sub s => cases s <;> simp [Tok.render, Sub.render]
  | alt alts => simp [Tok.render]

theorem renderGlob_eq_nil {ts : List Tok} (h : utf8 (renderGlob ts) = []) : ts = [] := by
  cases ts with
  | nil => rfl
  | cons t ts =>
    rw [utf8_eq_nil] at h
    simp [renderGlob] at h
    exact absurd h.1 tok_render_ne

/-- Inside of a bracket token that can be expanded. -/
theorem simple_pair {t : Tok} (hok : t.Ok) (hs : t.simple = true) (hl : ∀ c, t ≠ .sub (.lit c)) :
    ∃ o x c, utf8 t.render = o :: x ++ [c] ∧ NoWild x ∧ Brackets o c := by
  cases t with
  | sub s =>
    cases s with
    | lit c => exact absurd rfl (hl c)
    | any => cases hs
    | star => cases hs
    | cls es =>
      refine ⟨91, utf8 (es.flatMap ClassElt.render), 93, ?_, ?_, .inr ⟨rfl, rfl⟩⟩
      · simp only [Tok.render, Sub.render, List.cons_append]
        rw [utf8_ascii_cons (by decide), utf8_append]
        rfl
      · apply no_wild
        intro c hc
        have := List.all_eq_true.1 hs c hc
        simpa using this
  | alt alts =>
    refine ⟨123, utf8 (renderAlts alts), 125, ?_, ?_, .inl ⟨rfl, rfl⟩⟩
    · simp only [Tok.render, List.cons_append]
      rw [utf8_ascii_cons (by decide), utf8_append]
      rfl
    · apply no_wild
      have hpl : plainAlts alts = true := hs
      obtain ⟨_, hall, _⟩ := hok
      have hsub : ∀ a ∈ alts, ∀ c ∈ renderSubs a, isSpecial c = false := by
        intro a ha c hc
        obtain ⟨cs, rfl⟩ := (plainAlts_iff alts).1 hpl a ha
        simp only [renderSubs, List.mem_flatMap] at hc
        obtain ⟨s, hs1, hs2⟩ := hc
        have h1 := hall _ ha s hs1
        obtain ⟨d, _, rfl⟩ := List.mem_map.1 hs1
        simp only [Sub.render, List.mem_singleton] at hs2
        subst hs2
        exact h1.1
      clear hs hpl hall hl
      have aux : ∀ alts : List (List Sub), (∀ a ∈ alts, ∀ c ∈ renderSubs a, isSpecial c = false) →
          ∀ c ∈ renderAlts alts, isSpecial c = false := by
        intro alts
        induction alts with
        | nil => intro _ c hc; simp [renderAlts] at hc
        | cons a alts ih =>
          intro h c hc
          cases alts with
          | nil => exact h a (by simp) c (by simpa [renderAlts] using hc)
          | cons b l =>
            rw [renderAlts] at hc
            rcases List.mem_append.1 hc with hc | hc
            · exact h a (by simp) c hc
            · rcases List.mem_cons.1 hc with rfl | hc
              · decide
              · exact ih (fun a ha => h a (by simp [ha])) c hc
      exact aux alts hsub

theorem split_special (cs : List Char) :
    (∀ c ∈ cs, isSpecial c = false) ∨
    ∃ a d b, cs = a ++ d :: b ∧ (∀ c ∈ a, isSpecial c = false) ∧ isSpecial d = true := by
  induction cs with
  | nil => left; simp
  | cons c cs ih =>
    cases hc : isSpecial c with
    | true => exact .inr ⟨[], c, cs, rfl, by simp, hc⟩
    | false =>
      rcases ih with h | ⟨a, d, b, rfl, h1, h2⟩
      · left
        intro x hx
        rcases List.mem_cons.1 hx with rfl | hx
        · exact hc
        · exact h x hx
      · right
        refine ⟨c :: a, d, b, rfl, ?_, h2⟩
        intro x hx
        rcases List.mem_cons.1 hx with rfl | hx
        · exact hc
        · exact h1 x hx

theorem utf8_special {c : Char} (h : isSpecial c = true) :
    ∃ b : UInt8, (∀ cs, utf8 (c :: cs) = b :: utf8 cs) ∧ isWild b = true ∧ b.toNat = c.toNat := by
  have hlt : c.toNat < 128 := by
    simp only [isSpecial, Bool.or_eq_true, decide_eq_true_eq] at h
    rcases h with ((((rfl | rfl) | rfl) | rfl) | rfl) | rfl <;> decide
  obtain ⟨b, h1, h2⟩ := isWild_of_special h
  have h3 := utf8_ascii_cons hlt []
  rw [h1, utf8_nil] at h3
  simp only [List.cons.injEq, and_true] at h3
  refine ⟨b, fun cs => ?_, h2, ?_⟩
  · rw [utf8_ascii_cons hlt, h3]
  · rw [h3, ofNat_toNat_lt (by omega)]

/-- The first special character after the opening brace of a list with wildcards. -/
theorem alts_special (alts : List (List Sub)) (hall : ∀ a ∈ alts, ∀ s ∈ a, s.Ok true)
    (hp : plainAlts alts = false) :
    ∃ a d b, renderAlts alts = a ++ d :: b ∧ (∀ c ∈ a, isSpecial c = false) ∧
      (d = '[' ∨ d = '*' ∨ d = '?') := by
  have subs : ∀ a : List Sub, (∀ s ∈ a, s.Ok true) → (a.all Sub.isLit = true ∧ ∀ c ∈ renderSubs a, isSpecial c = false) ∨
      ∃ x d b, renderSubs a = x ++ d :: b ∧ (∀ c ∈ x, isSpecial c = false) ∧ (d = '[' ∨ d = '*' ∨ d = '?') := by
    intro a
    induction a with
    | nil => intro _; left; simp [renderSubs]
    | cons s a ih =>
      intro h
      have hr : renderSubs (s :: a) = s.render ++ renderSubs a := by simp [renderSubs]
      cases s with
      | lit c =>
        have hc := (h (.lit c) (by simp)).1
        rcases ih (fun s hs => h s (by simp [hs])) with ⟨h1, h2⟩ | ⟨x, d, b, h1, h2, h3⟩
        · left
          refine ⟨by simpa [Sub.isLit] using h1, ?_⟩
          intro x hx
          rw [hr] at hx
          rcases List.mem_append.1 hx with hx | hx
          · simp only [Sub.render, List.mem_singleton] at hx
            subst hx
            exact hc
          · exact h2 x hx
        · right
          refine ⟨c :: x, d, b, by rw [hr, h1]; rfl, ?_, h3⟩
          intro y hy
          rcases List.mem_cons.1 hy with rfl | hy
          · exact hc
          · exact h2 y hy
      | any => exact .inr ⟨[], '?', renderSubs a, by rw [hr]; rfl, by simp, by simp⟩
      | star => exact .inr ⟨[], '*', renderSubs a, by rw [hr]; rfl, by simp, by simp⟩
      | cls es => exact .inr ⟨[], '[', _, by rw [hr]; rfl, by simp, by simp⟩
  induction alts with
  | nil => simp [plainAlts] at hp
  | cons a alts ih =>
    rcases subs a (hall a (by simp)) with ⟨h1, h2⟩ | ⟨x, d, b, h1, h2, h3⟩
    · have hp' : plainAlts alts = false := by
        simp only [plainAlts, List.all_cons, h1, Bool.true_and] at hp
        exact hp
      obtain ⟨x, d, b, h3, h4, h5⟩ := ih (fun a ha => hall a (by simp [ha])) hp'
      cases alts with
      | nil => simp [plainAlts] at hp'
      | cons q l =>
        refine ⟨renderSubs a ++ ',' :: x, d, b, by rw [renderAlts, h3]; simp, ?_, h5⟩
        intro y hy
        rcases List.mem_append.1 hy with hy | hy
        · exact h2 y hy
        · rcases List.mem_cons.1 hy with rfl | hy
          · decide
          · exact h4 y hy
    · cases alts with
      | nil => exact ⟨x, d, b, by rw [renderAlts, h1], h2, h3⟩
      | cons q l => exact ⟨x, d, b ++ ',' :: renderAlts (q :: l), by rw [renderAlts, h1]; simp, h2, h3⟩

/-- A token that is not expanded stops the parser. -/
theorem getPair_wild {t : Tok} (hok : t.Ok) (hs : t.simple = false) {p : Str} (hp : NoWild p) (u : Str) :
    getPair (p ++ (utf8 t.render ++ u)) = (some p.length, none) := by
  cases t with
  | sub s =>
    cases s with
    | lit c => cases hs
    | any =>
      have : utf8 (Tok.sub .any).render = [63] := by decide
      rw [this]
      exact getPair_stop hp (by simp) u
    | star =>
      have : utf8 (Tok.sub .star).render = [42] := by decide
      rw [this]
      exact getPair_stop hp (by simp) u
    | cls es =>
      rcases split_special (es.flatMap ClassElt.render) with h | ⟨a, d, b, h1, h2, h3⟩
      · exfalso
        have : Tok.simple (.sub (.cls es)) = true := by
          simp only [Tok.simple, List.all_eq_true]
          intro c hc
          simp [h c hc]
        rw [this] at hs
        cases hs
      · obtain ⟨w, hw1, hw2, hw3⟩ := utf8_special h3
        have e : utf8 (Tok.sub (.cls es)).render ++ u = 91 :: (utf8 a ++ w :: (utf8 (b ++ [']']) ++ u)) := by
          simp only [Tok.render, Sub.render]
          rw [h1]
          simp only [List.cons_append, List.append_assoc]
          rw [utf8_ascii_cons (by decide), utf8_append a, hw1]
          simp
        rw [e]
        refine getPair_open hp (no_wild h2) (.inr rfl) hw2 ?_ _
        rintro (⟨h, _⟩ | ⟨_, h⟩)
        · cases h
        · have hd : d = ']' := Char.toNat_val_inj (by rw [← hw3, h]; rfl)
          exact (hok.2.2.2 d (by rw [h1]; simp)).1 hd
  | alt alts =>
    obtain ⟨hne, hall, _⟩ := hok
    obtain ⟨a, d, b, h1, h2, h3⟩ := alts_special alts hall hs
    have hd : isSpecial d = true := by rcases h3 with rfl | rfl | rfl <;> decide
    obtain ⟨w, hw1, hw2, hw3⟩ := utf8_special hd
    have e : utf8 (Tok.alt alts).render ++ u = 123 :: (utf8 a ++ w :: (utf8 (b ++ ['}']) ++ u)) := by
      simp only [Tok.render]
      rw [h1]
      simp only [List.cons_append, List.append_assoc]
      rw [utf8_ascii_cons (by decide), utf8_append a, hw1]
      simp
    rw [e]
    refine getPair_open hp (no_wild h2) (.inl rfl) hw2 ?_ _
    rintro (⟨_, h⟩ | ⟨h, _⟩)
    · rw [h] at hw3
      rcases h3 with rfl | rfl | rfl <;> exact absurd hw3 (by decide)
    · cases h

theorem xParseLoop_canon (ts : List Tok) (hok : ∀ t ∈ ts, t.Ok) (n : Nat) (p : List Char)
    (hp : ∀ c ∈ p, isSpecial c = false) (acc : List XExpr)
    (hn : (utf8 p ++ utf8 (renderGlob ts)).length < n) :
    ∃ out, xParseLoop n (utf8 p ++ utf8 (renderGlob ts)) acc = .ok out ∧
      Eqv out (acc ++ { body := utf8 p } :: canon ts) := by
  induction ts generalizing n p acc with
  | nil =>
    obtain ⟨n, rfl⟩ : ∃ k, n = k + 1 := ⟨n - 1, by omega⟩
    have e : utf8 p ++ utf8 (renderGlob []) = utf8 p := by simp [renderGlob]
    rw [e, xParseLoop, getPair_none (no_wild hp)]
    exact ⟨_, rfl, Eqv.refl _⟩
  | cons t ts ih =>
    have ih := ih (fun t ht => hok t (by simp [ht]))
    have hto := hok t (by simp)
    have er : utf8 (renderGlob (t :: ts)) = utf8 t.render ++ utf8 (renderGlob ts) := by
      simp [renderGlob]
    have hpw : NoWild (utf8 p) := no_wild hp
    by_cases hs : t.simple = true
    · by_cases hlit : ∃ c, t = .sub (.lit c)
      · obtain ⟨c, rfl⟩ := hlit
        have e : utf8 p ++ utf8 (renderGlob (.sub (.lit c) :: ts)) = utf8 (p ++ [c]) ++ utf8 (renderGlob ts) := by
          rw [er, utf8_append p]
          simp [Tok.render, Sub.render]
        rw [e] at hn ⊢
        obtain ⟨out, h1, h2⟩ := ih n (p ++ [c]) (by
          intro x hx
          rcases List.mem_append.1 hx with hx | hx
          · exact hp x hx
          · simp only [List.mem_singleton] at hx
            subst hx
            exact hto.1) acc hn
        refine ⟨out, h1, h2.trans ?_⟩
        apply Eqv.append
        rw [canon, if_pos hs]
        exact (eqv_merge rfl rfl rfl (by simp [canonTok]) _).symm
      · have hlit' : ∀ c, t ≠ .sub (.lit c) := fun c hc => hlit ⟨c, hc⟩
        obtain ⟨o, x, c, h1, h2, h3⟩ := simple_pair hto hs hlit'
        obtain ⟨n, rfl⟩ : ∃ k, n = k + 1 := ⟨n - 1, by omega⟩
        have e : utf8 p ++ utf8 (renderGlob (t :: ts)) = utf8 p ++ o :: (x ++ c :: utf8 (renderGlob ts)) := by
          rw [er, h1]; simp
        rw [e] at hn ⊢
        generalize hu : utf8 (renderGlob ts) = u at *
        rw [xParseLoop, getPair_pair hpw h2 h3]
        dsimp only
        have e1 : ((utf8 p ++ o :: (x ++ c :: u)).take ((utf8 p).length + 1 + x.length + 1)).drop (utf8 p).length = o :: x ++ [c] := by
          have : utf8 p ++ o :: (x ++ c :: u) = (utf8 p ++ (o :: x ++ [c])) ++ u := by simp
          rw [this, show (utf8 p).length + 1 + x.length + 1 = (utf8 p ++ (o :: x ++ [c])).length by simp; omega,
            List.take_left, List.drop_left]
        have e2 : (utf8 p ++ o :: (x ++ c :: u)).drop ((utf8 p).length + 1 + x.length + 1) = u := by
          have : utf8 p ++ o :: (x ++ c :: u) = (utf8 p ++ (o :: x ++ [c])) ++ u := by simp
          rw [this, show (utf8 p).length + 1 + x.length + 1 = (utf8 p ++ (o :: x ++ [c])).length by simp; omega,
            List.drop_left]
        rw [e1, e2, List.take_left, ← h1]
        have hcan : getExpression (utf8 t.render) = canonTok t := by
          cases t with
          | sub s =>
            cases s with
            | lit c => exact absurd rfl (hlit' c)
            | any => rfl
            | star => rfl
            | cls es => rfl
          | alt alts => rfl
        rw [hcan]
        have hacc : ∀ X, Eqv ((if (utf8 p).length > 0 then acc ++ [{ body := utf8 p }] else acc) ++ X)
            (acc ++ { body := utf8 p } :: X) := by
          intro X
          split
          · rw [List.append_assoc]; exact Eqv.refl _
          · rename_i h
            have : utf8 p = [] := by
              cases hq : utf8 p with
              | nil => rfl
              | cons a b => rw [hq] at h; simp at h
            rw [this]
            apply Eqv.append
            exact (eqv_nil rfl rfl X).symm
        generalize (if (utf8 p).length > 0 then acc ++ [{ body := utf8 p }] else acc) = acc1 at *
        rw [canon, if_pos hs]
        by_cases hu0 : u = []
        · rw [if_pos hu0]
          have : ts = [] := renderGlob_eq_nil (hu.trans hu0)
          subst this
          refine ⟨_, rfl, ?_⟩
          have := pushExpr_eqv acc1 (canonTok t) []
          rw [List.append_nil] at this
          exact this.trans (hacc _)
        · rw [if_neg hu0]
          obtain ⟨out, q1, q2⟩ := ih n [] (by simp) (pushExpr acc1 (canonTok t)) (by
            rw [utf8_nil, List.nil_append]
            simp only [List.length_append, List.length_cons] at hn
            omega)
          rw [utf8_nil, List.nil_append] at q1
          refine ⟨out, q1, q2.trans ?_⟩
          refine (Eqv.append _ (eqv_nil rfl rfl _)).trans ?_
          exact (pushExpr_eqv acc1 (canonTok t) _).trans (hacc _)
    · obtain ⟨n, rfl⟩ : ∃ k, n = k + 1 := ⟨n - 1, by omega⟩
      have hs' : t.simple = false := by simpa using hs
      have hg := getPair_wild hto hs' hpw (utf8 (renderGlob ts))
      rw [← er] at hg
      rw [xParseLoop, hg]
      dsimp only
      rw [canon, if_neg hs, List.take_left, List.drop_left]
      refine ⟨_, rfl, ?_⟩
      split
      · simp only [List.append_assoc]
        exact Eqv.refl _
      · rename_i h
        have : utf8 p = [] := by
          cases hq : utf8 p with
          | nil => rfl
          | cons a b => rw [hq] at h; simp at h
        rw [this]
        apply Eqv.append
        exact (eqv_nil rfl rfl _).symm

theorem splitLast_eqv {exps out : List XExpr} (h : splitLast exps = .ok out) : Eqv out exps := by
  unfold splitLast at h
  split at h
  · cases h
  · rename_i l hl
    split at h
    · rename_i hlt
      dsimp only at h
      split at h
      · cases h
        obtain ⟨init, rfl⟩ : ∃ init, exps = init ++ [l] := List.getLast?_eq_some_iff.1 hl
        rw [List.dropLast_concat]
        apply Eqv.append
        exact eqv_wild hlt rfl hlt (by simp)
      · cases h; exact Eqv.refl _
    · cases h; exact Eqv.refl _

theorem lastWildEnd_ge {a : Str} {w : UInt8} {t : Str} (hw : isWild w = true) :
    a.length < lastWildEnd (a ++ w :: t) := by
  have key : ∀ a : Str, ∃ i, lastIndexP isWild (a ++ w :: t) = some i ∧ a.length ≤ i := by
    intro a
    induction a with
    | nil =>
      obtain ⟨i, hi⟩ := lastIndexP_isSome (p := isWild) (s := w :: t) ⟨w, by simp, hw⟩
      exact ⟨i, hi, by simp⟩
    | cons b a ih =>
      obtain ⟨i, h1, h2⟩ := ih
      refine ⟨i + 1, ?_, by simp; omega⟩
      rw [List.cons_append, lastIndexP, h1]
  obtain ⟨i, h1, h2⟩ := key a
  unfold lastWildEnd
  rw [h1]
  dsimp only
  omega

/-- The shortcut at the start of `ParseExpr` gives the same as the loop. -/
theorem parseExpr_loop (s : Str) (out : List XExpr) (h : xParseLoop (s.length + 1) s [] = .ok out) :
    (parseExpr s = .panic ∧ out = []) ∨ ∃ exps, parseExpr s = .ok exps ∧ Eqv exps out := by
  rcases getPair_cases s with ⟨hw, hg⟩ | ⟨a, o, x, c, t, rfl, ha, hx, hb, hg⟩ | ⟨a, w, t, rfl, ha, hw, hg⟩
  · rw [xParseLoop, hg] at h
    cases h
    right
    unfold parseExpr
    rw [hg]
    exact ⟨_, rfl, Eqv.refl _⟩
  · rw [parseExpr_pair hg, h, R.bind_ok]
    by_cases hne : out = []
    · subst hne; exact .inl ⟨rfl, rfl⟩
    · obtain ⟨exps, h1⟩ := splitLast_ok hne
      exact .inr ⟨exps, h1, splitLast_eqv h1⟩
  · rw [xParseLoop, hg] at h
    right
    unfold parseExpr
    rw [hg]
    have hge := lastWildEnd_ge (a := a) (t := t) hw
    cases a with
    | nil =>
      dsimp only [List.length_nil] at h ⊢
      cases h
      split
      · refine ⟨_, rfl, ?_⟩
        exact eqv_wild rfl rfl rfl (by simp)
      · exact ⟨_, rfl, Eqv.refl _⟩
    | cons b a =>
      dsimp only [List.length_cons] at h hge ⊢
      have hpos : a.length + 1 > 0 := by omega
      rw [if_pos hpos] at h
      cases h
      split
      · refine ⟨_, rfl, ?_⟩
        apply Eqv.cons
        refine eqv_wild rfl rfl rfl ?_
        dsimp only
        generalize hS : b :: a ++ w :: t = S at *
        generalize hpos : lastWildEnd S = pos at *
        have h1 : S = S.take pos ++ S.drop pos := (List.take_append_drop pos S).symm
        conv => lhs; rw [h1]
        have h2 : a.length + 1 ≤ (S.take pos).length := by
          rename_i hlt
          rw [List.length_take]
          omega
        rw [List.drop_append_of_le_length h2]
      · exact ⟨_, rfl, Eqv.refl _⟩

/-- The parser on a written glob: the same results as one expression per token. -/
theorem parseExpr_canon (ts : List Tok) (hok : ∀ t ∈ ts, t.Ok) :
    parseExpr (utf8 (renderGlob ts)) = .panic ∨
    ∃ exps, parseExpr (utf8 (renderGlob ts)) = .ok exps ∧ Eqv exps (canon ts) := by
  obtain ⟨out, h1, h2⟩ := xParseLoop_canon ts hok ((utf8 (renderGlob ts)).length + 1) [] (by simp) [] (by simp)
  rw [utf8_nil, List.nil_append] at h1
  rcases parseExpr_loop _ out h1 with ⟨h, _⟩ | ⟨exps, h3, h4⟩
  · exact .inl h
  · right
    refine ⟨exps, h3, h4.trans (h2.trans ?_)⟩
    rw [List.nil_append]
    exact eqv_nil rfl rfl _

end GoMatcher
