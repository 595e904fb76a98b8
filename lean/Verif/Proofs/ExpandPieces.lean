import Verif.Proofs.ExpandText

/-! # `Expand` on every byte string: pieces and limits -/

namespace GoMatcher

theorem unmarked_iff (s : Str) : Unmarked s ↔ NoWild s := by
  unfold Unmarked NoWild
  constructor
  · intro h b hb
    obtain ⟨h1, h2, h3, h4, h5, h6⟩ := h b hb
    simp [isWild, h1, h2, h3, h4, h5, h6]
  · intro h b hb
    exact notWild_ne (h b hb)

/-- The expression of a piece. -/
def pieceExpr : XPiece → XExpr
  | .lit w => { body := w }
  | p => getExpression p.text

/-- An expression stands for a piece. -/
structure Stands (e : XExpr) (r : Repl) : Prop where
  alts : e.alts = r.texts
  body : e.body = r.kept
  count : e.count = r.count
  fixed : (e.typ = .str ∨ e.typ = .wild) ↔ r.texts = [r.kept]

theorem commaWords_unique {s : Str} {L : List Str} (h : CommaWords s L) : L = splitByte s 44 := by
  rw [← h.text, intercalate_joinByte, splitByte_joinByte h.some h.words]

theorem commaWords_split (s : Str) : CommaWords s (splitByte s 44) :=
  ⟨by rw [intercalate_joinByte, joinByte_splitByte], splitByte_no_sep s 44, splitByte_ne_nil s 44⟩

theorem splitByte_two {s : Str} (h : 44 ∈ s) : ∀ w, splitByte s 44 ≠ [w] := by
  intro w hw
  have h1 := joinByte_splitByte s 44
  rw [hw] at h1
  have h2 := splitByte_no_sep s 44 w (by rw [hw]; simp)
  rw [joinByte] at h1
  rw [h1] at h2
  exact h2 h

theorem pieceExpr_class {body : Str} {es : List (Char × Char)} (h2 : 2 ≤ body.length) (hc : ClassOf body es) :
    (¬ (∀ e ∈ es, FineRange e) ∧ pieceExpr (.cls body) = { typ := .wild, body := body }) ∨
    ((∀ e ∈ es, FineRange e) ∧ runesRangeMerge (readRanges es) = [] ∧ pieceExpr (.cls body) = { body := [] }) ∨
    ((∀ e ∈ es, FineRange e) ∧ runesRangeMerge (readRanges es) ≠ [] ∧
      pieceExpr (.cls body) = { typ := .runes, body := 91 :: (body ++ [93]), runes := xOf (runesRangeMerge (readRanges es)) }) := by
  have hne : body ≠ [] := by rintro rfl; simp at h2
  have e := getExpression_class hne
  rw [if_neg (by omega)] at e
  rcases xRunesExpand_class hne hc with ⟨g1, g2⟩ | ⟨g1, g2⟩
  · right
    rw [g2] at e
    by_cases hm : runesRangeMerge (readRanges es) = []
    · left
      refine ⟨g1, hm, ?_⟩
      rw [hm] at e
      exact e
    · right
      refine ⟨g1, hm, ?_⟩
      dsimp only at e
      rw [if_neg (by simpa [xOf] using hm)] at e
      exact e
  · left
    rw [g2] at e
    exact ⟨g1, e⟩

theorem counted_iff {es : List (Char × Char)} (hes : ∀ e ∈ es, FineRange e) (n : Nat) :
    n ∈ codesOf (runesRangeMerge (readRanges es)) ↔ Counted es n := by
  obtain ⟨m1, m2, m3⟩ := runesRangeMerge_all (readRanges es) (by
    intro r hr
    obtain ⟨e, he, rfl⟩ := List.mem_map.1 hr
    exact (hes e he).1)
  rw [mem_codesOf (fun r hr => (m3 r hr).1), m1, inRanges_read, inRanges_read]
  rfl

theorem merged_sorted {es : List (Char × Char)} (hes : ∀ e ∈ es, FineRange e) :
    (codesOf (runesRangeMerge (readRanges es))).Pairwise (· < ·) ∧
    (emitCodes (runesRangeMerge (readRanges es))).Pairwise (· < ·) ∧
    rangesCount (runesRangeMerge (readRanges es)) = (codesOf (runesRangeMerge (readRanges es))).length ∧
    (runesRangeMerge (readRanges es) = [] ↔ codesOf (runesRangeMerge (readRanges es)) = []) := by
  obtain ⟨m1, m2, m3⟩ := runesRangeMerge_all (readRanges es) (by
    intro r hr
    obtain ⟨e, he, rfl⟩ := List.mem_map.1 hr
    exact (hes e he).1)
  refine ⟨codesOf_sorted m2 (fun r hr => (m3 r hr).1), emitCodes_sorted m2 (fun r hr => (m3 r hr).1),
    rangesCount_codes (fun r hr => (m3 r hr).1), ?_⟩
  constructor
  · intro h; rw [h]; rfl
  · intro h
    cases hl : runesRangeMerge (readRanges es) with
    | nil => rfl
    | cons r l =>
      exfalso
      have : r.first ∈ codesOf (runesRangeMerge (readRanges es)) := by
        rw [mem_codesOf (fun r hr => (m3 r hr).1), hl]
        exact ⟨r, by simp, Nat.le_refl _, (m3 r (by rw [hl]; simp)).1⟩
      rw [h] at this
      simp at this

/-- Every piece stands for something. -/
theorem means_total (p : XPiece) : ∃ r, Means p r := by
  cases p with
  | lit w => exact ⟨_, .lit w⟩
  | braces body =>
    by_cases h : 44 ∈ body
    · exact ⟨_, .words body _ h (commaWords_split body)⟩
    · exact ⟨_, .single body h⟩
  | cls body =>
    by_cases h2 : 2 ≤ body.length
    · obtain ⟨es, hes⟩ := classOf_total body
      by_cases hg : ∀ e ∈ es, FineRange e
      · obtain ⟨s1, s2, _, s4⟩ := merged_sorted hg
        by_cases hm : codesOf (runesRangeMerge (readRanges es)) = []
        · refine ⟨_, .void body es h2 hes hg fun n hn => ?_⟩
          have := (counted_iff hg n).2 hn
          rw [hm] at this
          simp at this
        · exact ⟨_, .members body es _ _ h2 hes hg hm s1 (counted_iff hg) s2 (mem_emitCodes hg)⟩
      · exact ⟨_, .refused body ⟨h2, es, hes, hg⟩⟩
    · exact ⟨_, .short body (by omega)⟩

theorem pieceExpr_short {body : Str} (h : body.length ≤ 1) : pieceExpr (.cls body) = { body := body } := by
  match body, h with
  | [], _ => rfl
  | [b], _ => rfl

theorem refused_iff {body : Str} {es : List (Char × Char)} (h2 : 2 ≤ body.length) (hc : ClassOf body es) :
    RefusedClass body ↔ ¬ ∀ e ∈ es, FineRange e := by
  constructor
  · rintro ⟨_, es', h, hn⟩
    rw [classOf_unique hc h] at hn
    exact hn
  · intro hn
    exact ⟨h2, es, hc, hn⟩

theorem encodeRune_head {n : Nat} (h : 128 ≤ n) : ∀ b, (encodeRune n).head? = some b → 128 ≤ b.toNat := by
  intro b hb
  unfold encodeRune at hb
  rw [if_neg (by omega)] at hb
  have of : ∀ k : Nat, 128 ≤ k → k < 256 → UInt8.ofNat k = b → 128 ≤ b.toNat := by
    rintro k h1 h2 rfl
    rw [UInt8.toNat_ofNat']
    omega
  repeat' split at hb
  · simp only [List.head?_cons, Option.some.injEq] at hb
    exact of _ (by omega) (by omega) hb
  · simp only [List.head?_cons, Option.some.injEq] at hb
    subst hb
    decide
  · simp only [List.head?_cons, Option.some.injEq] at hb
    exact of _ (by omega) (by omega) hb
  · simp only [List.head?_cons, Option.some.injEq] at hb
    exact of _ (by omega) (by omega) hb

theorem means_stands {p : XPiece} {r : Repl} (h : Means p r) : Stands (pieceExpr p) r := by
  cases h with
  | lit w => exact ⟨rfl, rfl, rfl, by simp [pieceExpr]⟩
  | words body L hc hw =>
    have hne : body ≠ [] := by rintro rfl; simp at hc
    have e := getExpression_brace hne
    rw [if_pos (by simpa using hc)] at e
    have e' : pieceExpr (.braces body) = { typ := .list, body := 123 :: (body ++ [125]), list := splitByte body 44 } := e
    rw [e', commaWords_unique hw]
    refine ⟨rfl, rfl, rfl, ?_⟩
    simp only [reduceCtorEq, or_self, false_iff]
    exact splitByte_two hc _
  | single body hc =>
    have e' : pieceExpr (.braces body) = { body := body } := by
      by_cases hne : body = []
      · subst hne; rfl
      · have e := getExpression_brace hne
        rw [if_neg (by simpa using hc)] at e
        exact e
    rw [e']
    exact ⟨rfl, rfl, rfl, by simp⟩
  | short body h =>
    rw [pieceExpr_short h]
    exact ⟨rfl, rfl, rfl, by simp⟩
  | refused body h =>
    obtain ⟨es, hes⟩ := classOf_total body
    have hn := (refused_iff h.1 hes).1 h
    rcases pieceExpr_class h.1 hes with ⟨_, e⟩ | ⟨g, _⟩ | ⟨g, _⟩
    · rw [e]; exact ⟨rfl, rfl, rfl, by simp⟩
    · exact absurd g hn
    · exact absurd g hn
  | void body es h2 hes hg hv =>
    rcases pieceExpr_class h2 hes with ⟨g, _⟩ | ⟨_, _, e⟩ | ⟨_, hm, _⟩
    · exact absurd hg g
    · rw [e]; exact ⟨rfl, rfl, rfl, by simp⟩
    · exfalso
      obtain ⟨_, _, _, s4⟩ := merged_sorted hg
      apply hm
      rw [s4]
      cases hl : codesOf (runesRangeMerge (readRanges es)) with
      | nil => rfl
      | cons n l => exact absurd ((counted_iff hg n).1 (by rw [hl]; simp)) (hv n)
  | members body es ns all h2 hes hg hne ha1 ha2 hn1 hn2 =>
    obtain ⟨s1, s2, s3, s4⟩ := merged_sorted hg
    have eall : all = codesOf (runesRangeMerge (readRanges es)) :=
      sorted_ext ha1 s1 fun n => by rw [ha2, counted_iff hg]
    have ens : ns = emitCodes (runesRangeMerge (readRanges es)) :=
      sorted_ext hn1 s2 fun n => by rw [hn2, mem_emitCodes hg]
    rcases pieceExpr_class h2 hes with ⟨g, _⟩ | ⟨_, hm, _⟩ | ⟨_, hm, e⟩
    · exact absurd hg g
    · rw [s4, ← eall] at hm
      exact absurd hm hne
    · rw [e]
      refine ⟨?_, rfl, ?_, ?_⟩
      · show rangesAlts _ = _
        rw [rangesAlts_emit, ens]
      · show runesCount _ = _
        rw [runesCount_xOf, s3, eall]
      · simp only [reduceCtorEq, or_self, false_iff]
        intro h
        cases ns with
        | nil => simp at h
        | cons n ns =>
          simp only [List.map_cons, List.cons.injEq] at h
          have hl : (encodeRune n).length ≤ 4 := by
            unfold encodeRune; repeat' split
            all_goals simp
          have hlen : (encodeRune n).length = body.length + 2 := by rw [h.1]; simp
          have hh : (encodeRune n).head? = some 91 := by rw [h.1]; rfl
          -- a text of several bytes does not begin with `[`
          have hb : (encodeRune n).length = 1 ∨ ∀ b, (encodeRune n).head? = some b → 128 ≤ b.toNat := by
            by_cases hn : n < 128
            · left; simp [encodeRune, hn]
            · exact .inr (encodeRune_head (by omega))
          rcases hb with hb | hb
          · omega
          · have := hb 91 hh
            exact absurd this (by decide)

theorem means_wild {p : XPiece} {r : Repl} (h : Means p r) :
    (pieceExpr p).typ = .wild ↔ ∃ body, p = .cls body ∧ RefusedClass body := by
  cases p with
  | lit w => simp [pieceExpr]
  | braces body =>
    simp only [reduceCtorEq, false_and, exists_false, iff_false]
    by_cases hne : body = []
    · subst hne; simp [pieceExpr, XPiece.text, getExpression]
    · have e := getExpression_brace hne
      have e' : pieceExpr (.braces body) = _ := e
      rw [e']
      split <;> simp
  | cls body =>
    simp only [XPiece.cls.injEq, exists_eq_left']
    by_cases h2 : 2 ≤ body.length
    · obtain ⟨es, hes⟩ := classOf_total body
      rw [refused_iff h2 hes]
      rcases pieceExpr_class h2 hes with ⟨g, e⟩ | ⟨g, _, e⟩ | ⟨g, _, e⟩ 
      · rw [e]; exact ⟨fun _ => g, fun _ => rfl⟩
      · rw [e]; exact ⟨fun h => (by cases h), fun h => absurd g h⟩
      · rw [e]; exact ⟨fun h => (by cases h), fun h => absurd g h⟩
    · rw [pieceExpr_short (by omega)]
      simp only [reduceCtorEq, false_iff]
      exact fun h => h2 h.1

theorem means_unique {p : XPiece} {r r' : Repl} (h : Means p r) (h' : Means p r') : r = r' := by
  have s := means_stands h
  have s' := means_stands h'
  cases r; cases r'
  have h1 := s.alts.symm.trans s'.alts
  have h2 := s.body.symm.trans s'.body
  have h3 := s.count.symm.trans s'.count
  simp only at h1 h2 h3
  have h3 : _ := Int.ofNat_inj.1 h3
  simp [h1, h2, h3]

theorem allMean_total (ps : List XPiece) : ∃ rs, AllMean ps rs := by
  induction ps with
  | nil => exact ⟨_, .nil⟩
  | cons p ps ih =>
    obtain ⟨rs, h⟩ := ih
    obtain ⟨r, hr⟩ := means_total p
    exact ⟨_, .cons hr h⟩

theorem allMean_unique {ps : List XPiece} {rs rs' : List Repl} (h : AllMean ps rs) (h' : AllMean ps rs') : rs = rs' := by
  induction h generalizing rs' with
  | nil => cases h'; rfl
  | cons a _ ih =>
    cases h' with
    | cons b hb => rw [means_unique a b, ih hb]

/-! ## Cutting a text into pieces -/

theorem stuck_of_wild {w : UInt8} {t : Str} (hw : isWild w = true) (hg : getPair (w :: t) = (some 0, none)) :
    Stuck (w :: t) := by
  refine ⟨w, t, rfl, ?_⟩
  have hw' : w = 91 ∨ w = 93 ∨ w = 123 ∨ w = 125 ∨ w = 42 ∨ w = 63 := by
    simp only [isWild, Bool.or_eq_true, decide_eq_true_eq] at hw
    rcases hw with ((((h | h) | h) | h) | h) | h <;> simp [h]
  rcases hw' with rfl | rfl | rfl | rfl | rfl | rfl
  · refine .inr (.inr (.inr (.inr (.inr ⟨rfl, fun x y hx e => ?_⟩))))
    have := getPair_pair (a := []) noWild_nil ((unmarked_iff x).1 hx) (.inr ⟨rfl, rfl⟩) y
    rw [List.nil_append, ← e, hg] at this
    cases this
  · simp
  · refine .inr (.inr (.inr (.inr (.inl ⟨rfl, fun x y hx e => ?_⟩))))
    have := getPair_pair (a := []) noWild_nil ((unmarked_iff x).1 hx) (.inl ⟨rfl, rfl⟩) y
    rw [List.nil_append, ← e, hg] at this
    cases this
  · simp
  · simp
  · simp

theorem getPair_stuck {a rest : Str} (ha : NoWild a) (h : Stuck rest) : getPair (a ++ rest) = (some a.length, none) := by
  obtain ⟨c, t, rfl, h⟩ := h
  have brk : ∀ o cl : UInt8, (o = 123 ∧ cl = 125) ∨ (o = 91 ∧ cl = 93) →
      (∀ x y, Unmarked x → t ≠ x ++ cl :: y) → getPair (a ++ o :: t) = (some a.length, none) := by
    intro o cl hb hn
    have ho : o = 123 ∨ o = 91 := by rcases hb with ⟨h, _⟩ | ⟨h, _⟩ <;> simp [h]
    rcases split_wild t with hw | ⟨x, w, y, rfl, hx, hw⟩
    · exact getPair_tail ha hw ho
    · refine getPair_open ha hx ho hw ?_ y
      intro hb'
      have : w = cl := by
        rcases hb with ⟨h1, h2⟩ | ⟨h1, h2⟩ <;> rcases hb' with ⟨h3, h4⟩ | ⟨h3, h4⟩
        · rw [h2, h4]
        · rw [h1] at h3; cases h3
        · rw [h1] at h3; cases h3
        · rw [h2, h4]
      subst this
      exact hn x y ((unmarked_iff x).2 hx) rfl
  rcases h with h | h | h | h | ⟨rfl, h⟩ | ⟨rfl, h⟩
  · exact getPair_stop ha (by simp [h]) t
  · exact getPair_stop ha (by simp [h]) t
  · exact getPair_stop ha (by simp [h]) t
  · exact getPair_stop ha (by simp [h]) t
  · exact brk 123 125 (.inl ⟨rfl, rfl⟩) h
  · exact brk 91 93 (.inr ⟨rfl, rfl⟩) h

/-- Every byte string can be cut into pieces. -/
theorem expandText_total (s : Str) : ∃ ps rest, ExpandText s ps rest := by
  generalize hn : s.length = n
  induction n using Nat.strongRecOn generalizing s with
  | _ n ih =>
    have lit : ∀ (a : Str), NoWild a → ∃ qs : List XPiece, piecesText qs = a ∧ ∀ p ∈ qs, p.Ok := by
      intro a ha
      by_cases hne : a = []
      · exact ⟨[], by simp [piecesText, hne], by simp⟩
      · refine ⟨[.lit a], by simp [piecesText, XPiece.text], ?_⟩
        intro p hp
        simp only [List.mem_singleton] at hp
        subst hp
        exact ⟨hne, (unmarked_iff a).2 ha⟩
    rcases getPair_cases s with ⟨hw, hg⟩ | ⟨a, o, x, c, t, rfl, ha, hx, hb, hg⟩ | ⟨a, w, t, rfl, ha, hw, hg⟩
    · obtain ⟨qs, h1, h2⟩ := lit s hw
      exact ⟨qs, [], by simp [h1], h2, .inl rfl⟩
    · obtain ⟨qs, h1, h2⟩ := lit a ha
      obtain ⟨ps, rest, h3, h4, h5⟩ := ih t.length (by rw [← hn]; simp; omega) t rfl
      obtain ⟨p, hp1, hp2⟩ : ∃ p : XPiece, p.text = o :: (x ++ [c]) ∧ p.Ok := by
        rcases hb with ⟨rfl, rfl⟩ | ⟨rfl, rfl⟩
        · exact ⟨.braces x, rfl, (unmarked_iff x).2 hx⟩
        · exact ⟨.cls x, rfl, (unmarked_iff x).2 hx⟩
      refine ⟨qs ++ p :: ps, rest, ?_, ?_, h5⟩
      · conv => lhs; rw [h3]
        have e : piecesText (qs ++ p :: ps) = piecesText qs ++ (p.text ++ piecesText ps) := by simp [piecesText]
        rw [e, h1, hp1]
        simp
      · intro q hq
        rcases List.mem_append.1 hq with hq | hq
        · exact h2 q hq
        · rcases List.mem_cons.1 hq with rfl | hq
          · exact hp2
          · exact h4 q hq
    · obtain ⟨qs, h1, h2⟩ := lit a ha
      refine ⟨qs, w :: t, by rw [h1], h2, .inr (stuck_of_wild hw ?_)⟩
      -- what is found behind `a` is found at once
      rcases getPair_cases (w :: t) with ⟨h, _⟩ | ⟨a', o, x, c, t', e, ha', hx, hb, _⟩ | ⟨a', w', t', e, ha', hw', h⟩
      · have := h w (by simp)
        rw [hw] at this; cases this
      · exfalso
        have ha0 : a' = [] := by
          cases a' with
          | nil => rfl
          | cons b a' =>
            simp only [List.cons_append, List.cons.injEq] at e
            have := ha' b (by simp)
            rw [← e.1, hw] at this
            cases this
        subst ha0
        rw [List.nil_append] at e
        rw [e, getPair_pair ha hx hb] at hg
        cases hg
      · cases a' with
        | nil => exact h
        | cons b a' =>
          simp only [List.cons_append, List.cons.injEq] at e
          have := ha' b (by simp)
          rw [← e.1, hw] at this
          cases this

/-! ## The parser -/

/-- The expressions of a text cut into pieces. -/
def pieceExprs (ps : List XPiece) (rest : Str) : List XExpr :=
  ps.map pieceExpr ++ (if rest = [] then [] else [{ typ := .wild, body := rest }])

/-- A piece that the parser drops. -/
def DropsOut (p : XPiece) : Prop := (pieceExpr p).typ = .str ∧ (pieceExpr p).body = []

theorem piece_text_ne {p : XPiece} (h : p.Ok) : p.text ≠ [] := by
  cases p with
  | lit w => exact h.1
  | braces b => simp [XPiece.text]
  | cls b => simp [XPiece.text]

theorem xParseLoop_pieces (ps : List XPiece) (rest : Str) (hok : ∀ p ∈ ps, p.Ok) (hr : rest = [] ∨ Stuck rest)
    (n : Nat) (a : Str) (ha : NoWild a) (acc : List XExpr)
    (hn : (a ++ (piecesText ps ++ rest)).length < n) :
    ∃ out, xParseLoop n (a ++ (piecesText ps ++ rest)) acc = .ok out ∧
      Eqv out (acc ++ { body := a } :: pieceExprs ps rest) ∧
      (out = [] ↔ acc = [] ∧ a = [] ∧ rest = [] ∧ ps ≠ [] ∧ ∀ p ∈ ps, DropsOut p) := by
  induction ps generalizing n a acc with
  | nil =>
    obtain ⟨n, rfl⟩ : ∃ k, n = k + 1 := ⟨n - 1, by omega⟩
    rcases hr with rfl | hr
    · have e : a ++ (piecesText [] ++ []) = a := by simp [piecesText]
      rw [e, xParseLoop, getPair_none ha]
      exact ⟨_, rfl, by simpa [pieceExprs] using Eqv.refl _, by simp⟩
    · have hrne : rest ≠ [] := by obtain ⟨c, t, rfl, _⟩ := hr; simp
      have e : a ++ (piecesText [] ++ rest) = a ++ rest := by simp [piecesText]
      rw [e, xParseLoop, getPair_stuck ha hr]
      dsimp only
      rw [List.take_left, List.drop_left]
      refine ⟨_, rfl, ?_, by simp⟩
      rw [pieceExprs, if_neg hrne]
      split
      · simp only [List.append_assoc]
        exact Eqv.refl _
      · rename_i h
        have : a = [] := by
          cases a with
          | nil => rfl
          | cons b a => simp at h
        subst this
        apply Eqv.append
        exact (eqv_nil rfl rfl _).symm
  | cons p ps ih =>
    have ih := ih (fun p hp => hok p (by simp [hp]))
    have hpo := hok p (by simp)
    have er : piecesText (p :: ps) = p.text ++ piecesText ps := by simp [piecesText]
    have pair : (∃ o x c, p.text = o :: (x ++ [c]) ∧ NoWild x ∧ Brackets o c ∧ pieceExpr p = getExpression p.text) →
        ∃ out, xParseLoop n (a ++ (piecesText (p :: ps) ++ rest)) acc = .ok out ∧
          Eqv out (acc ++ { body := a } :: pieceExprs (p :: ps) rest) ∧
          (out = [] ↔ acc = [] ∧ a = [] ∧ rest = [] ∧ p :: ps ≠ [] ∧ ∀ q ∈ p :: ps, DropsOut q) := by
      rintro ⟨o, x, c, h1, h2, h3, h4⟩
      obtain ⟨n, rfl⟩ : ∃ k, n = k + 1 := ⟨n - 1, by omega⟩
      have e : a ++ (piecesText (p :: ps) ++ rest) = a ++ o :: (x ++ c :: (piecesText ps ++ rest)) := by
        rw [er, h1]; simp
      rw [e] at hn ⊢
      generalize hu : piecesText ps ++ rest = u at *
      rw [xParseLoop, getPair_pair ha h2 h3]
      dsimp only
      have e1 : ((a ++ o :: (x ++ c :: u)).take (a.length + 1 + x.length + 1)).drop a.length = o :: (x ++ [c]) := by
        have : a ++ o :: (x ++ c :: u) = (a ++ (o :: (x ++ [c]))) ++ u := by simp
        rw [this, show a.length + 1 + x.length + 1 = (a ++ (o :: (x ++ [c]))).length by simp; omega,
          List.take_left, List.drop_left]
      have e2 : (a ++ o :: (x ++ c :: u)).drop (a.length + 1 + x.length + 1) = u := by
        have : a ++ o :: (x ++ c :: u) = (a ++ (o :: (x ++ [c]))) ++ u := by simp
        rw [this, show a.length + 1 + x.length + 1 = (a ++ (o :: (x ++ [c]))).length by simp; omega,
          List.drop_left]
      rw [e1, e2, List.take_left, ← h1, ← h4]
      have hacc : ∀ X, Eqv ((if a.length > 0 then acc ++ [{ body := a }] else acc) ++ X)
          (acc ++ { body := a } :: X) := by
        intro X
        split
        · rw [List.append_assoc]; exact Eqv.refl _
        · rename_i h
          have : a = [] := by
            cases a with
            | nil => rfl
            | cons b a => simp at h
          subst this
          apply Eqv.append
          exact (eqv_nil rfl rfl X).symm
      have hnil : (if a.length > 0 then acc ++ [({ body := a } : XExpr)] else acc) = [] ↔ acc = [] ∧ a = [] := by
        cases a with
        | nil => simp
        | cons b a => simp
      generalize (if a.length > 0 then acc ++ [({ body := a } : XExpr)] else acc) = acc1 at *
      have ec : pieceExprs (p :: ps) rest = pieceExpr p :: pieceExprs ps rest := rfl
      rw [ec]
      by_cases hu0 : u = []
      · rw [if_pos hu0]
        rw [hu0] at hu
        rw [List.append_eq_nil_iff] at hu
        have hps : ps = [] := by
          cases ps with
          | nil => rfl
          | cons q qs =>
            have := piece_text_ne (hok q (by simp))
            simp [piecesText] at hu
            exact absurd hu.1.1 this
        obtain ⟨_, hrest⟩ := hu
        subst hps hrest
        refine ⟨_, rfl, ?_, ?_⟩
        · have := pushExpr_eqv acc1 (pieceExpr p) []
          rw [List.append_nil] at this
          exact this.trans (hacc _)
        · rw [pushExpr_nil, hnil]
          simp [DropsOut, and_assoc]
      · rw [if_neg hu0]
        obtain ⟨out, q1, q2, q3⟩ := ih n [] noWild_nil (pushExpr acc1 (pieceExpr p)) (by
          rw [List.nil_append]
          simp only [List.length_append, List.length_cons] at hn
          omega)
        rw [List.nil_append] at q1
        refine ⟨out, q1, q2.trans ?_, ?_⟩
        · refine (Eqv.append _ (eqv_nil rfl rfl _)).trans ?_
          exact (pushExpr_eqv acc1 (pieceExpr p) _).trans (hacc _)
        · rw [q3, pushExpr_nil, hnil]
          constructor
          · rintro ⟨⟨⟨i1, i2⟩, i3⟩, _, i4, _, i5⟩
            refine ⟨i1, i2, i4, by simp, ?_⟩
            intro q hq
            rcases List.mem_cons.1 hq with rfl | hq
            · exact i3
            · exact i5 q hq
          · rintro ⟨i1, i2, i4, _, i5⟩
            refine ⟨⟨⟨i1, i2⟩, i5 p (by simp)⟩, rfl, i4, ?_, fun q hq => i5 q (by simp [hq])⟩
            rintro rfl
            rw [i4] at hu
            exact hu0 (by rw [← hu]; rfl)
    cases p with
    | lit w =>
      have e : a ++ (piecesText (.lit w :: ps) ++ rest) = (a ++ w) ++ (piecesText ps ++ rest) := by
        rw [er]; simp [XPiece.text]
      rw [e] at hn ⊢
      have haw : NoWild (a ++ w) := by
        intro b hb
        rcases List.mem_append.1 hb with hb | hb
        · exact ha b hb
        · exact (unmarked_iff w).1 hpo.2 b hb
      obtain ⟨out, h1, h2, h3⟩ := ih n (a ++ w) haw acc hn
      refine ⟨out, h1, h2.trans ?_, ?_⟩
      · apply Eqv.append
        exact (eqv_merge rfl rfl rfl rfl _).symm
      · rw [h3]
        constructor
        · rintro ⟨_, i2, _⟩
          rw [List.append_eq_nil_iff] at i2
          exact absurd i2.2 hpo.1
        · rintro ⟨_, _, _, _, i5⟩
          exact absurd (i5 (.lit w) (by simp)).2 hpo.1
    | braces b => exact pair ⟨123, b, 125, rfl, (unmarked_iff b).1 hpo, .inl ⟨rfl, rfl⟩, rfl⟩
    | cls b => exact pair ⟨91, b, 93, rfl, (unmarked_iff b).1 hpo, .inr ⟨rfl, rfl⟩, rfl⟩

theorem dropped_iff {p : XPiece} {r : Repl} (h : Means p r) (hok : p.Ok) : DropsOut p ↔ r.texts = [[]] := by
  have hs := means_stands h
  unfold DropsOut
  constructor
  · rintro ⟨h1, h2⟩
    rw [hs.fixed.1 (.inl h1), ← hs.body, h2]
  · intro h1
    cases h with
    | lit w =>
      simp only [List.cons.injEq, and_true] at h1
      exact absurd h1 hok.1
    | words body L hc hw =>
      dsimp only at h1
      rw [commaWords_unique hw] at h1
      exact absurd h1 (splitByte_two hc _)
    | single body hc =>
      simp only [List.cons.injEq, and_true] at h1
      subst h1
      exact ⟨rfl, rfl⟩
    | short body h =>
      simp only [List.cons.injEq, and_true] at h1
      subst h1
      exact ⟨rfl, rfl⟩
    | refused body h =>
      simp only [List.cons.injEq, and_true] at h1
      have := h.1
      rw [h1] at this
      simp at this
    | void body es h2 hes hg hv =>
      rcases pieceExpr_class h2 hes with ⟨g, _⟩ | ⟨_, _, e⟩ | ⟨_, hm, e⟩
      · exact absurd hg g
      · rw [e]; exact ⟨rfl, rfl⟩
      · have := hs.body
        rw [e] at this
        cases this
    | members body es ns all h2 hes hg hne ha1 ha2 hn1 hn2 =>
      exfalso
      dsimp only at h1
      cases ns with
      | nil => simp at h1
      | cons n ns =>
        simp only [List.map_cons, List.cons.injEq] at h1
        have : encodeRune n ≠ [] := by
          unfold encodeRune; repeat' split
          all_goals simp
        exact this h1.1

theorem allMean_forall {ps : List XPiece} {rs : List Repl} (h : AllMean ps rs) (hok : ∀ p ∈ ps, p.Ok) :
    (∀ p ∈ ps, DropsOut p) ↔ ∀ r ∈ rs, r.texts = [[]] := by
  induction h with
  | nil => simp
  | cons a _ ih =>
    have := dropped_iff a (hok _ (by simp))
    simp only [List.forall_mem_cons, this, ih (fun p hp => hok p (by simp [hp]))]

/-- What `ParseExpr` does. -/
theorem parseExpr_pieces {s : Str} {ps : List XPiece} {rest : Str} (h : ExpandText s ps rest) {rs : List Repl}
    (hm : AllMean ps rs) :
    (OnlyVoid rs rest ∧ parseExpr s = .panic) ∨
    (¬ OnlyVoid rs rest ∧ ∃ exps, parseExpr s = .ok exps ∧ Eqv exps (pieceExprs ps rest)) := by
  obtain ⟨out, h1, h2, h3⟩ := xParseLoop_pieces ps rest h.pieces h.rest (s.length + 1) [] noWild_nil [] (by
    rw [List.nil_append, ← h.text]; omega)
  rw [List.nil_append, ← h.text] at h1
  have hv : out = [] ↔ OnlyVoid rs rest := by
    rw [h3]
    unfold OnlyVoid
    rw [allMean_forall hm h.pieces]
    have : ps ≠ [] ↔ rs ≠ [] := by cases hm <;> simp
    rw [this]
    simp
  rcases parseExpr_loop s out h1 with ⟨h4, h5⟩ | ⟨exps, h4, h5⟩
  · exact .inl ⟨hv.1 h5, h4⟩
  · by_cases ho : out = []
    · exfalso
      subst ho
      rw [xParseLoop] at h1
      rcases getPair_cases s with ⟨hw, hg⟩ | ⟨a, o, x, c, t, rfl, ha, hx, hb, hg⟩ | ⟨a, w, t, rfl, ha, hw, hg⟩
      · rw [hg] at h1
        simp at h1
      · rw [parseExpr_pair hg] at h4
        rw [xParseLoop, h1, R.bind_ok] at h4
        cases h4
      · rw [hg] at h1
        simp at h1
    · refine .inr ⟨fun h => ho (hv.2 h), exps, h4, h5.trans (h2.trans ?_)⟩
      rw [List.nil_append]
      exact eqv_nil rfl rfl _

/-! ## The limits -/

theorem pieces_cap {ps : List XPiece} {rs : List Repl} (hm : AllMean ps rs) (rest : Str) :
    ∃ N, Capacity ps rs N ∧ ∀ c, int64 c = c → capCount c (pieceExprs ps rest) = int64 (c * N) := by
  induction hm with
  | nil =>
    refine ⟨1, .nil, fun c hc => ?_⟩
    unfold pieceExprs
    by_cases h : rest = []
    · simp [h, capCount, hc]
    · simp [h, capCount, XExpr.count, hc]
  | @cons p ps r rs hp _ ih =>
    obtain ⟨N, h1, h2⟩ := ih
    have hst := means_stands hp
    have ec : pieceExprs (p :: ps) rest = pieceExpr p :: pieceExprs ps rest := rfl
    by_cases hw : (pieceExpr p).typ = .wild
    · obtain ⟨body, rfl, hb⟩ := (means_wild hp).1 hw
      refine ⟨1, .stop hb, fun c hc => ?_⟩
      rw [ec, capCount]
      rw [if_pos hw]
      have : (pieceExpr (.cls body)).count = 1 := by unfold XExpr.count; rw [hw]
      rw [this]
      simp
    · refine ⟨r.count * N, .cons (fun body hb => fun hrf => hw ((means_wild hp).2 ⟨body, hb, hrf⟩)) h1, fun c hc => ?_⟩
      rw [ec, capCount]
      rw [if_neg hw, h2 _ (int64_idem _), hst.count]
      unfold int64
      rw [Int.bmod_mul_bmod, Int.natCast_mul, Int.mul_assoc]

theorem capacity_unique {ps : List XPiece} {rs : List Repl} {N N' : Nat} (h : Capacity ps rs N) (h' : Capacity ps rs N') :
    N = N' := by
  induction h generalizing N' with
  | nil => cases h'; rfl
  | stop hb =>
    cases h' with
    | stop => rfl
    | cons hn _ => exact absurd hb (hn _ rfl)
  | cons hn _ ih =>
    cases h' with
    | stop hb => exact absurd hb (hn _ rfl)
    | cons _ h' => rw [ih h']

theorem allMean_stands {ps : List XPiece} {rs : List Repl} (hm : AllMean ps rs) (X : List XExpr) (rest : Str)
    (hb : bodies X = rest) :
    bodies (ps.map pieceExpr ++ X) = keptText rs ++ rest := by
  induction hm with
  | nil => simpa [keptText] using hb
  | cons hp _ ih =>
    rw [List.map_cons, List.cons_append, bodies, ih, (means_stands hp).body]
    simp [keptText]

/-- The limits from a state in the middle. -/
def AllowedFrom (c m d : Int) (rs : List Repl) : Prop :=
  (m > 0 → ∀ k, k ≤ rs.length → 0 < k → runningCount c (rs.take k) ≤ m) ∧
  (d > 0 → 1 < d - (fixedDots rs : Int))

theorem dots_count (s : Str) : dots s = s.count 46 := by
  unfold dots
  rw [List.count]
  rfl

theorem allowedFrom_cons (c m d : Int) (r : Repl) (rs : List Repl) :
    AllowedFrom c m d (r :: rs) ↔ AllowedFrom c m d [r] ∧
      AllowedFrom (runningCount c [r]) m (d - fixedDots [r]) rs ∧ (d > 0 → d - fixedDots [r] > 1) := by
  unfold AllowedFrom
  have hd : fixedDots (r :: rs) = fixedDots [r] + fixedDots rs := by simp [fixedDots]
  have htake : ∀ k, runningCount c ((r :: rs).take (k + 1)) = runningCount (runningCount c [r]) (rs.take k) := by
    intro k; rfl
  constructor
  · rintro ⟨h1, h2⟩
    refine ⟨⟨fun hm k hk hk0 => ?_, fun hd0 => by have := h2 hd0; rw [hd] at this; omega⟩, ⟨fun hm k hk hk0 => ?_, fun hd0 => ?_⟩,
      fun hd0 => by have := h2 hd0; rw [hd] at this; omega⟩
    · have : k = 1 := by simp at hk; omega
      subst this
      exact h1 hm 1 (by simp) (by omega)
    · have := h1 hm (k + 1) (by simpa using hk) (by omega)
      rw [htake] at this
      exact this
    · have := h2 (by omega)
      rw [hd] at this
      omega
  · rintro ⟨⟨a1, a2⟩, ⟨b1, b2⟩, b3⟩
    refine ⟨fun hm k hk hk0 => ?_, fun hd0 => ?_⟩
    · obtain ⟨k, rfl⟩ : ∃ j, k = j + 1 := ⟨k - 1, by omega⟩
      rw [htake]
      by_cases hk' : k = 0
      · subst hk'
        have := a1 hm 1 (by simp) (by omega)
        exact this
      · exact b1 hm k (by simpa using hk) (by omega)
    · rw [hd]
      have := b3 hd0
      have := b2 (by omega)
      omega

theorem outs_cut {ps : List XPiece} {rs : List Repl} (hm : AllMean ps rs) (X : List XExpr) (rest : Str)
    (hX : ∀ c m d, outs X c m d = [rest]) (hb : bodies X = rest) (c m d : Int) (hm0 : m ≠ 0) (hv : Valid c m d) :
    ∃ j, j ≤ rs.length ∧ (j = 0 ∨ AllowedFrom c m d (rs.take j)) ∧
      (j = rs.length ∨ ¬ AllowedFrom c m d (rs.take (j + 1))) ∧
      outs (ps.map pieceExpr ++ X) c m d = (combine (rs.take j)).map (fun x => x ++ (keptText (rs.drop j) ++ rest)) := by
  induction hm generalizing c d with
  | nil => exact ⟨0, by simp, .inl rfl, .inl rfl, by simp [combine, keptText, hX]⟩
  | @cons p ps r rs hp hps ih =>
    have hst := means_stands hp
    have hv' := hv.next (pieceExpr p)
    rw [List.map_cons, List.cons_append, outs]
    have hfd : fixedDots [r] = if r.texts = [r.kept] then r.kept.count 46 else 0 := by simp [fixedDots]
    have hnd : nextDepth (pieceExpr p) d = if d > 0 then d - fixedDots [r] else d := by
      unfold nextDepth
      simp only [hfd, hst.fixed, hst.body, dots_count]
      by_cases h1 : d > 0 <;> by_cases h2 : r.texts = [r.kept] <;> simp [h1, h2]
    have hnc : m > 0 → nextCount (pieceExpr p) c m = runningCount c [r] := by
      intro h
      unfold nextCount
      rw [if_pos h, hst.count]
      rfl
    have hzero : nextMax (pieceExpr p) c m d = 0 ↔ ¬ AllowedFrom c m d [r] := by
      unfold nextMax AllowedFrom
      dsimp only
      simp only [hst.fixed]
      have hvd := hv.depth
      constructor
      · intro h
        rintro ⟨h1, h2⟩
        split at h
        · rename_i h3
          obtain ⟨h3, h4, h5⟩ := h3
          rw [hnd, if_pos h3] at h5
          have := h2 h3
          omega
        · split at h
          · rename_i h3
            have := h1 h3.1 1 (by simp) (by omega)
            rw [hnc h3.1] at h3
            simp only [List.take_one, List.head?_cons, Option.toList_some] at this
            omega
          · exact hm0 h
      · intro h
        apply Classical.byContradiction
        intro hne
        apply h
        split at hne
        · exact absurd rfl hne
        · rename_i h3
          split at hne
          · exact absurd rfl hne
          · rename_i h4
            refine ⟨fun hmp k hk hk0 => ?_, fun hdp => ?_⟩
            · have : k = 1 := by simp at hk; omega
              subst this
              simp only [List.take_one, List.head?_cons, Option.toList_some]
              rw [← hnc hmp]
              omega
            · rw [hfd]
              by_cases hf : r.texts = [r.kept]
              · rw [if_pos hf]
                rw [hnd, if_pos hdp, hfd, if_pos hf] at h3
                have h4 : ¬ d - ((r.kept.count 46 : Nat) : Int) ≤ 1 := fun h => h3 ⟨hdp, hf, h⟩
                omega
              · rw [if_neg hf]
                have := hvd hdp
                omega
    by_cases hz : nextMax (pieceExpr p) c m d = 0
    · rw [if_pos hz, hz, outs_zero, allMean_stands hps X rest hb, hst.body]
      refine ⟨0, by simp, .inl rfl, .inr ?_, ?_⟩
      · simpa using hzero.1 hz
      · simp [combine, keptText]
    · have hmm : nextMax (pieceExpr p) c m d = m := by
        rcases nextMax_cases (pieceExpr p) c m d with h | h
        · exact absurd h hz
        · exact h.1
      have hall : AllowedFrom c m d [r] := Classical.byContradiction fun h => hz (hzero.2 h)
      rw [if_neg hz, hmm]
      rw [hmm] at hv'
      obtain ⟨j, j1, j2, j3, j4⟩ := ih _ _ hv'
      -- the state behind the piece
      have hstate : ∀ qs, AllowedFrom (nextCount (pieceExpr p) c m) m (nextDepth (pieceExpr p) d) qs ∧ True ↔
          AllowedFrom c m d (r :: qs) := by
        intro qs
        rw [allowedFrom_cons]
        have hgt : d > 0 → d - fixedDots [r] > 1 := fun h => by have := hall.2 h; omega
        constructor
        · rintro ⟨⟨q1, q2⟩, _⟩
          refine ⟨hall, ⟨fun h => by rw [← hnc h]; exact q1 h, fun h => ?_⟩, hgt⟩
          have hdp : d > 0 := by omega
          have := q2 (by rw [hnd, if_pos hdp]; exact h)
          rw [hnd, if_pos hdp] at this
          exact this
        · rintro ⟨_, ⟨q1, q2⟩, _⟩
          refine ⟨⟨fun h => by rw [hnc h]; exact q1 h, fun h => ?_⟩, trivial⟩
          rw [hnd] at h ⊢
          split
          · rename_i h'
            rw [if_pos h'] at h
            exact q2 h
          · rename_i h'
            rw [if_neg h'] at h
            exact absurd h h'
      refine ⟨j + 1, by simpa using j1, .inr ?_, ?_, ?_⟩
      · rw [List.take_succ_cons, ← hstate]
        rcases j2 with rfl | j2
        · refine ⟨⟨fun _ k hk hk0 => by simp at hk; omega, fun h => ?_⟩, trivial⟩
          simp only [List.take_zero, fixedDots]
          rw [hnd] at h ⊢
          split
          · rename_i h'; have := hall.2 h'; omega
          · rename_i h'; rw [if_neg h'] at h; exact absurd h h'
        · exact ⟨j2, trivial⟩
      · rcases j3 with rfl | j3
        · exact .inl (by simp)
        · right
          rw [List.take_succ_cons, ← hstate]
          exact fun h => j3 h.1
      · rw [j4, hst.alts, List.take_succ_cons, List.drop_succ_cons, combine, List.map_flatMap]
        congr 1
        funext a
        simp [List.map_map]

theorem allowed_from (max depth : Int) (hm : max ≠ 0) (rs : List Repl) :
    Allowed max depth rs ↔ AllowedFrom 0 max (if depth > 0 then depth + 1 else depth) rs := by
  unfold Allowed AllowedFrom
  constructor
  · rintro ⟨_, h1, h2⟩
    refine ⟨fun h k hk _ => h1 h k hk, fun h => ?_⟩
    split
    · rename_i h'; have := h2 h'; omega
    · rename_i h'; rw [if_neg h'] at h; exact absurd h h'
  · rintro ⟨h1, h2⟩
    refine ⟨hm, fun h k hk => ?_, fun h => ?_⟩
    · by_cases hk0 : k = 0
      · subst hk0
        simp only [List.take_zero, runningCount]
        omega
      · exact h1 h k hk (by omega)
    · rw [if_pos h] at h2
      have := h2 (by omega)
      omega

theorem fixedDots_take (rs : List Repl) {i j : Nat} (h : i ≤ j) : fixedDots (rs.take i) ≤ fixedDots (rs.take j) := by
  induction rs generalizing i j with
  | nil => simp [fixedDots]
  | cons r rs ih =>
    cases i with
    | zero => simp [fixedDots]
    | succ i =>
      obtain ⟨j, rfl⟩ : ∃ k, j = k + 1 := ⟨j - 1, by omega⟩
      simp only [List.take_succ_cons, fixedDots]
      have := ih (i := i) (j := j) (by omega)
      omega

theorem allowed_take {max depth : Int} {rs : List Repl} {i j : Nat} (h : i ≤ j) (ha : Allowed max depth (rs.take j)) :
    Allowed max depth (rs.take i) := by
  obtain ⟨h1, h2, h3⟩ := ha
  refine ⟨h1, fun hm k hk => ?_, fun hd => ?_⟩
  · have := h2 hm k (by simp only [List.length_take] at hk ⊢; omega)
    rw [List.take_take] at this ⊢
    simp only [List.length_take] at hk
    rw [show min k i = k by omega]
    rw [show min k j = k by omega] at this
    exact this
  · have := h3 hd
    have := fixedDots_take rs h
    omega

theorem cutAt_unique {max depth : Int} {rs : List Repl} {i j : Nat} (hi : CutAt max depth rs i) (hj : CutAt max depth rs j) :
    i = j := by
  have key : ∀ {i j}, CutAt max depth rs i → CutAt max depth rs j → ¬ i < j := by
    intro i j hi hj hlt
    rcases hi.last with h | h
    · have := hj.le; omega
    · rcases hj.allowed with h' | h'
      · omega
      · exact h (allowed_take (by omega) h')
  have := key hi hj
  have := key hj hi
  omega

theorem cutAt_total (max depth : Int) (rs : List Repl) : ∃ j, CutAt max depth rs j := by
  apply Classical.byContradiction
  intro hn
  have all : ∀ j, j ≤ rs.length → j = 0 ∨ Allowed max depth (rs.take j) := by
    intro j
    induction j with
    | zero => intro _; exact .inl rfl
    | succ j ih =>
      intro hj
      right
      apply Classical.byContradiction
      intro h
      exact hn ⟨j, by omega, ih (by omega), .inr h⟩
  exact hn ⟨rs.length, Nat.le_refl _, all _ (Nat.le_refl _), .inl rfl⟩

/-- What `Expand` returns for every byte string. -/
theorem expandGlob_pieces {s : Str} {ps : List XPiece} {rest : Str} (h : ExpandText s ps rest) {rs : List Repl}
    (hm : AllMean ps rs) {N : Nat} (hN : Capacity ps rs N) {lim depth : Int} {j : Nat} (hj : CutAt lim depth rs j) :
    (OnlyVoid rs rest ∧ expandGlob s lim depth = .panic) ∨
    (¬ OnlyVoid rs rest ∧ 2 ^ 44 < N % 2 ^ 64 ∧ expandGlob s lim depth = .panic) ∨
    (¬ OnlyVoid rs rest ∧ N % 2 ^ 64 ≤ 2 ^ 44 ∧ expandGlob s lim depth =
      .ok ((combine (rs.take j)).map fun x => x ++ (keptText (rs.drop j) ++ rest))) := by
  rcases parseExpr_pieces h hm with ⟨h1, h2⟩ | ⟨h1, exps, h2, h3⟩
  · exact .inl ⟨h1, by unfold expandGlob; rw [h2]; rfl⟩
  · right
    have hg := parseExpr_good (K := (max s.length 0x110000 : Nat)) s (by omega) (by omega) h2
    have hcap : capOk (capCount 1 exps) = true ↔ N % 2 ^ 64 ≤ 2 ^ 44 := by
      rw [h3.cap 1 (by decide)]
      obtain ⟨N', g1, g2⟩ := pieces_cap hm rest
      rw [capacity_unique hN g1, g2 1 (by decide), Int.one_mul]
      exact capOk_int64 N'
    by_cases hc : N % 2 ^ 64 ≤ 2 ^ 44
    · refine .inr ⟨h1, hc, ?_⟩
      unfold expandGlob
      rw [h2, R.bind_ok, expressionsExpand_spec exps (fun e he => (hg e he).fresh) ((capFine_iff _).2 (hcap.2 hc)), R.bind_ok]
      rw [topOuts_eq, h3.outs _ _ _ (valid_start lim depth)]
      congr 1
      have htail : ∃ X, pieceExprs ps rest = ps.map pieceExpr ++ X ∧ (∀ c m d, outs X c m d = [rest]) ∧ bodies X = rest := by
        refine ⟨_, rfl, ?_, ?_⟩
        · intro c m d
          by_cases hr : rest = []
          · simp [hr, outs]
          · rw [if_neg hr, outs_fixed (alts_wild rfl)]
            simp [outs]
        · by_cases hr : rest = []
          · simp [hr, bodies]
          · simp [hr, bodies]
      obtain ⟨X, hX1, hX2, hX3⟩ := htail
      rw [hX1]
      by_cases hm0 : lim = 0
      · subst hm0
        have : j = 0 := by
          rcases hj.allowed with h | h
          · exact h
          · exact absurd rfl h.1
        subst this
        rw [outs_zero, allMean_stands hm X rest hX3]
        simp [combine]
      · obtain ⟨i, i1, i2, i3, i4⟩ := outs_cut hm X rest hX2 hX3 0 lim _ hm0 (valid_start lim depth)
        have hi : CutAt lim depth rs i := ⟨i1, by rwa [allowed_from _ _ hm0], by rwa [allowed_from _ _ hm0]⟩
        rw [cutAt_unique hj hi, i4]
    · refine .inl ⟨h1, by omega, ?_⟩
      unfold expandGlob
      rw [h2, R.bind_ok, expressionsExpand_panic]
      · rfl
      · rw [capFine_iff, hcap]
        exact hc

end GoMatcher
