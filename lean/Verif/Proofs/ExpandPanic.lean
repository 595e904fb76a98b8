import Verif.Proofs.ExpandParse

/-! # When the parser of `expand` panics -/

namespace GoMatcher

/-- A bracket pair that stands for nothing: `{}`, `[]`, or a class of at least two bytes all of
whose runes are `-` or U+FFFD (which is what undecodable bytes are read as). -/
def VoidPair (p : Str) : Prop :=
  p = [123, 125] ∨ p = [91, 93] ∨
  ∃ x, p = 91 :: x ++ [93] ∧ NoWild x ∧ 2 ≤ x.length ∧
    ∀ c ∈ (rangeStr x).map Prod.snd, c = 45 ∨ c = runeError

/-- One or more void pairs and nothing else. -/
inductive VoidPairs : Str → Prop
  | one (p : Str) (h : VoidPair p) : VoidPairs p
  | more (p t : Str) (h : VoidPair p) (ht : VoidPairs t) : VoidPairs (p ++ t)

theorem emitRange_nil {r : RuneRange} : emitRange r = [] ↔ r.last = 0 := by
  unfold emitRange
  split
  · simp_all
  · simp_all

theorem mergeGo_nil (l : List RuneRange) (cur : RuneRange) :
    mergeGo cur l = [] ↔ ∀ r ∈ cur :: l, r.last = 0 := by
  induction l generalizing cur with
  | nil =>
    rw [mergeGo, emitRange_nil]
    simp
  | cons nx l ih =>
    rw [mergeGo]
    split
    · rw [ih]
      have : (if cur.last < nx.last then { cur with last := nx.last } else cur).last = max cur.last nx.last := by
        split
        · dsimp only; omega
        · omega
      simp only [List.mem_cons, forall_eq_or_imp, this]
      constructor
      · rintro ⟨h1, h2⟩
        exact ⟨by omega, by omega, h2⟩
      · rintro ⟨h1, h2, h3⟩
        exact ⟨by omega, h3⟩
    · rw [List.append_eq_nil_iff, emitRange_nil, ih]
      simp

theorem runesRangeMerge_nil (l : List RuneRange) :
    runesRangeMerge l = [] ↔ ∀ r ∈ l, r.last = 0 := by
  have hp := sortBy_perm RuneRange.le l
  rw [runesRangeMerge_eq]
  unfold mergeTail
  cases hs : sortBy RuneRange.le l with
  | nil =>
    rw [hs] at hp
    have : l = [] := by simpa using hp.symm
    simp [this]
  | cons a t =>
    rw [hs] at hp
    dsimp only
    rw [mergeGo_nil]
    constructor
    · intro h r hr; exact h r (hp.mem_iff.2 hr)
    · intro h r hr; exact h r (hp.mem_iff.1 hr)

theorem xRunesLoop_void (cs : List Nat) (hcs : ∀ c ∈ cs, c = 45 ∨ c = runeError) (isR : Bool) :
    xRunesLoop [] runeError isR cs = some [] := by
  induction cs generalizing isR with
  | nil => rfl
  | cons c cs ih =>
    have ih := ih (fun x hx => hcs x (by simp [hx]))
    rw [xRunesLoop]
    rcases hcs c (by simp) with rfl | rfl
    · rw [if_pos rfl]
      exact ih _
    · rw [if_neg (by decide)]
      cases isR with
      | false => exact ih _
      | true => exact ih _

theorem xRunesLoop_mem (cs : List Nat) (rs : List RuneRange) (start : Nat) (isR : Bool) (out : List RuneRange)
    (h : xRunesLoop rs start isR cs = some out) :
    (∀ r ∈ rs, r ∈ out) ∧ (start ≠ runeError → InRanges out start) ∧
    (∀ c ∈ cs, c ≠ 45 → c ≠ runeError → InRanges out c) := by
  induction cs generalizing rs start isR with
  | nil =>
    rw [xRunesLoop] at h
    cases h
    refine ⟨?_, ?_, by simp⟩
    · intro r hr
      split
      · simp [hr]
      · exact hr
    · intro hne
      rw [if_pos hne]
      exact ⟨RuneRange.mk start start, by simp, Nat.le_refl _, Nat.le_refl _⟩
  | cons c cs ih =>
    rw [xRunesLoop] at h
    split at h
    · rename_i hc
      obtain ⟨h1, h2, h3⟩ := ih rs start true h
      refine ⟨h1, h2, ?_⟩
      intro x hx hx1 hx2
      rcases List.mem_cons.1 hx with rfl | hx
      · exact absurd hc hx1
      · exact h3 x hx hx1 hx2
    · split at h
      · split at h
        · rename_i hs
          obtain ⟨h1, h2, h3⟩ := ih rs c false h
          refine ⟨h1, fun hne => absurd hs hne, ?_⟩
          intro x hx hx1 hx2
          rcases List.mem_cons.1 hx with rfl | hx
          · exact h2 hx2
          · exact h3 x hx hx1 hx2
        · split at h
          · split at h
            · cases h
            · rename_i hle _
              obtain ⟨h1, h2, h3⟩ := ih _ _ false h
              have hin := h1 (RuneRange.mk start c) (by simp)
              refine ⟨fun r hr => h1 r (by simp [hr]), fun _ => ⟨_, hin, Nat.le_refl _, hle⟩, ?_⟩
              intro x hx hx1 hx2
              rcases List.mem_cons.1 hx with rfl | hx
              · exact ⟨_, hin, hle, Nat.le_refl _⟩
              · exact h3 x hx hx1 hx2
          · cases h
      · obtain ⟨h1, h2, h3⟩ := ih _ _ false h
        refine ⟨?_, ?_, ?_⟩
        · intro r hr
          apply h1
          split
          · simp [hr]
          · exact hr
        · intro hne
          have := h1 (RuneRange.mk start start) (by rw [if_pos hne]; simp)
          exact ⟨_, this, Nat.le_refl _, Nat.le_refl _⟩
        · intro x hx hx1 hx2
          rcases List.mem_cons.1 hx with rfl | hx
          · exact h2 hx2
          · exact h3 x hx hx1 hx2

theorem zero_mem_rangeStr (f i : Nat) (s : Str) (h : 0 ∈ (rangeStr.go f i s).map Prod.snd) : 0 ∈ s := by
  induction f generalizing i s with
  | zero => simp [rangeStr.go] at h
  | succ f ih =>
    cases s with
    | nil => simp [rangeStr.go] at h
    | cons b t =>
      rw [rangeStr.go, List.map_cons] at h
      rcases List.mem_cons.1 h with h | h
      · dsimp only at h
        rcases decodeRune_inv (s := b :: t) (by simp) with h1 | ⟨r, u, _, h2, h3⟩
        · rw [h1] at h; cases h
        · rw [h3] at h
          dsimp only at h
          subst h
          rw [h2]
          simp [encodeRune]
      · exact List.mem_of_mem_drop (ih _ _ h)

theorem xRunesExpand_nil {x : Str} (hx : x ≠ []) (h0 : 0 ∉ x) :
    xRunesExpand x = some [] ↔ ∀ c ∈ (rangeStr x).map Prod.snd, c = 45 ∨ c = runeError := by
  unfold xRunesExpand
  rw [if_neg hx]
  constructor
  · intro h c hc
    cases hl : xRunesLoop [] runeError false ((rangeStr x).map Prod.snd) with
    | none => rw [hl] at h; cases h
    | some out =>
      rw [hl] at h
      simp only [Option.some.injEq, List.map_eq_nil_iff] at h
      rw [runesRangeMerge_nil] at h
      apply Classical.byContradiction
      intro hn
      simp only [not_or] at hn
      obtain ⟨r, h1, h2, h3⟩ := (xRunesLoop_mem _ _ _ _ _ hl).2.2 c hc hn.1 hn.2
      have := h r h1
      have : c = 0 := by omega
      subst this
      exact h0 (zero_mem_rangeStr _ _ _ hc)
  · intro h
    rw [xRunesLoop_void _ h]
    rfl

theorem getExpression_empty (o c : UInt8) : getExpression (o :: [] ++ [c]) = { body := [] } := rfl

theorem getExpression_brace {x : Str} (hne : x ≠ []) :
    getExpression (123 :: x ++ [125]) =
      if x.contains 44 then { typ := .list, body := 123 :: x ++ [125], list := splitByte x 44 }
      else { body := x } := by
  have hs : ((123 :: x ++ [125] : Str).drop 1).dropLast = x := by simp
  unfold getExpression
  rw [hs]
  dsimp only
  rw [if_neg hne, if_pos (show (123 :: x ++ [125] : Str).head? = some 123 from rfl)]

theorem getExpression_class {x : Str} (hne : x ≠ []) :
    getExpression (91 :: x ++ [93]) =
      if x.length = 1 then { body := x }
      else match xRunesExpand x with
        | none => { typ := .wild, body := x }
        | some rs => if rs.length = 0 then { body := [] }
          else { typ := .runes, body := 91 :: x ++ [93], runes := rs } := by
  have hs : ((91 :: x ++ [93] : Str).drop 1).dropLast = x := by simp
  unfold getExpression
  rw [hs]
  dsimp only
  rw [if_neg hne, if_neg (by simp), if_pos (show (91 :: x ++ [93] : Str).head? = some 91 from rfl)]
  rfl

/-- The expression text is a bracket pair. -/
theorem getExpression_void {o c : UInt8} {x : Str} (hb : Brackets o c) (hx : NoWild x) (h0 : 0 ∉ x) :
    ((getExpression (o :: x ++ [c])).typ = .str ∧ (getExpression (o :: x ++ [c])).body = []) ↔
      VoidPair (o :: x ++ [c]) := by
  by_cases hne : x = []
  · subst hne
    rw [getExpression_empty]
    rcases hb with ⟨rfl, rfl⟩ | ⟨rfl, rfl⟩
    · simp [VoidPair]
    · simp [VoidPair]
  · rcases hb with ⟨rfl, rfl⟩ | ⟨rfl, rfl⟩
    · have hv : ¬ VoidPair (123 :: x ++ [125]) := by
        rintro (h | h | ⟨y, h, _⟩)
        · simp at h
          exact hne h
        · simp at h
        · simp at h
      rw [getExpression_brace hne]
      constructor
      · rintro ⟨h1, h2⟩
        split at h1
        · cases h1
        · split at h2
          · simp at h2
          · exact absurd h2 hne
      · intro h; exact absurd h hv
    · rw [getExpression_class hne]
      by_cases h1 : x.length = 1
      · rw [if_pos h1]
        constructor
        · rintro ⟨_, h⟩; exact absurd h hne
        · rintro (h | h | ⟨y, h, _, h2, _⟩)
          · simp at h
          · simp at h
            exact absurd h hne
          · simp at h
            subst h
            omega
      · rw [if_neg h1]
        have hlen : 2 ≤ x.length := by
          have := List.length_pos_iff.2 hne
          omega
        have hvp : VoidPair (91 :: x ++ [93]) ↔ xRunesExpand x = some [] := by
          rw [xRunesExpand_nil hne h0]
          constructor
          · rintro (h | h | ⟨y, h, _, _, h3⟩)
            · simp at h
            · simp at h
              exact absurd h hne
            · simp at h
              subst h
              exact h3
          · intro h
            exact .inr (.inr ⟨x, rfl, hx, hlen, h⟩)
        rw [hvp]
        cases hr : xRunesExpand x with
        | none => simp
        | some rs =>
          cases rs with
          | nil => simp
          | cons r rs => simp

theorem voidPair_split {o c : UInt8} {x t : Str} (hb : Brackets o c) (hx : NoWild x)
    (h : VoidPairs (o :: (x ++ c :: t))) : VoidPair (o :: x ++ [c]) ∧ (t = [] ∨ VoidPairs t) := by
  have hc : isWild c = true := by rcases hb with ⟨_, rfl⟩ | ⟨_, rfl⟩ <;> decide
  -- a void pair at the start is this pair
  have key : ∀ p u, VoidPair p → o :: (x ++ c :: t) = p ++ u → p = o :: x ++ [c] ∧ u = t := by
    intro p u hp he
    have aux : ∀ (x y : Str) (c d : UInt8) (t u : Str), NoWild x → NoWild y → isWild c = true → isWild d = true →
        x ++ c :: t = y ++ d :: u → x = y ∧ c = d ∧ t = u := by
      intro x
      induction x with
      | nil =>
        intro y c d t u _ hy hc hd he
        cases y with
        | nil =>
          simp only [List.nil_append, List.cons.injEq] at he
          exact ⟨rfl, he.1, he.2⟩
        | cons b y =>
          simp only [List.nil_append, List.cons_append, List.cons.injEq] at he
          have := hy.cons.1
          rw [← he.1, hc] at this
          cases this
      | cons a x ih =>
        intro y c d t u hx hy hc hd he
        cases y with
        | nil =>
          simp only [List.nil_append, List.cons_append, List.cons.injEq] at he
          have := hx.cons.1
          rw [he.1, hd] at this
          cases this
        | cons b y =>
          simp only [List.cons_append, List.cons.injEq] at he
          obtain ⟨h1, h2, h3⟩ := ih y c d t u hx.cons.2 hy.cons.2 hc hd he.2
          exact ⟨by rw [he.1, h1], h2, h3⟩
    rcases hp with rfl | rfl | ⟨y, rfl, hy, _⟩
    · simp only [List.cons_append, List.nil_append, List.cons.injEq] at he
      obtain ⟨h1, h2, h3⟩ := aux x [] c 125 t u hx noWild_nil hc (by decide) he.2
      rw [he.1, h1, h2, h3]
      exact ⟨rfl, rfl⟩
    · simp only [List.cons_append, List.nil_append, List.cons.injEq] at he
      obtain ⟨h1, h2, h3⟩ := aux x [] c 93 t u hx noWild_nil hc (by decide) he.2
      rw [he.1, h1, h2, h3]
      exact ⟨rfl, rfl⟩
    · simp only [List.cons_append, List.append_assoc, List.nil_append, List.cons.injEq] at he
      obtain ⟨h1, h2, h3⟩ := aux x y c 93 t u hx hy hc (by decide) he.2
      rw [he.1, h1, h2, h3]
      exact ⟨rfl, rfl⟩
  generalize hs : o :: (x ++ c :: t) = s at h
  cases h with
  | one p hp =>
    obtain ⟨h1, h2⟩ := key s [] hp (by simp [hs])
    rw [← h1]
    exact ⟨hp, .inl h2.symm⟩
  | more p u hp hu =>
    obtain ⟨h1, h2⟩ := key p u hp hs
    rw [← h1, ← h2]
    exact ⟨hp, .inr hu⟩

theorem pushExpr_nil {exps : List XExpr} {e : XExpr} :
    pushExpr exps e = [] ↔ exps = [] ∧ e.typ = .str ∧ e.body = [] := by
  unfold pushExpr
  by_cases h1 : e.typ = .str
  · rw [if_pos h1]
    cases exps with
    | nil =>
      simp only [List.getLast?_nil]
      by_cases h2 : e.body = [] <;> simp [h1, h2]
    | cons x l =>
      cases hl : (x :: l).getLast? with
      | none => simp at hl
      | some y =>
        dsimp only
        split
        · simp
        · split <;> simp
  · rw [if_neg h1]
    simp [h1]

theorem xParseLoop_nil (n : Nat) (s : Str) (exps : List XExpr) (h0 : 0 ∉ s)
    (hn : s.length < n) : xParseLoop n s exps = .ok [] ↔ exps = [] ∧ VoidPairs s := by
  have novoid : ∀ (a : Str) (w : UInt8) (t : Str), NoWild a → a ≠ [] → ¬ VoidPairs (a ++ w :: t) := by
    intro a w t ha hne hv
    have hp : ∀ p, VoidPair p → ∃ o u, p = o :: u ∧ isWild o = true := by
      intro p hp
      rcases hp with rfl | rfl | ⟨y, rfl, _⟩
      · exact ⟨123, _, rfl, by decide⟩
      · exact ⟨91, _, rfl, by decide⟩
      · exact ⟨91, _, rfl, by decide⟩
    have hh : ∃ o u, a ++ w :: t = o :: u ∧ isWild o = true := by
      generalize a ++ w :: t = s at hv
      cases hv with
      | one p h => exact hp _ h
      | more p t h _ =>
        obtain ⟨o, u, h1, h2⟩ := hp p h
        exact ⟨o, u ++ t, by rw [h1]; rfl, h2⟩
    obtain ⟨o, u, h1, h2⟩ := hh
    cases a with
    | nil => exact hne rfl
    | cons b a =>
      simp only [List.cons_append, List.cons.injEq] at h1
      rw [← h1.1, ha.cons.1] at h2
      cases h2
  induction n generalizing s exps with
  | zero => omega
  | succ n ih =>
    rw [xParseLoop]
    rcases getPair_cases s with ⟨hw, hg⟩ | ⟨a, o, x, c, t, rfl, ha, hx, hb, hg⟩ | ⟨a, w, t, rfl, ha, hw, hg⟩
    · rw [hg]
      dsimp only
      constructor
      · intro h; simp at h
      · rintro ⟨_, hv⟩
        exfalso
        have hp : ∀ p t, VoidPair p → ¬ NoWild (p ++ t) := by
          intro p t hp hw
          rcases hp with rfl | rfl | ⟨y, rfl, _⟩
          · exact absurd (hw 123 (by simp)) (by decide)
          · exact absurd (hw 91 (by simp)) (by decide)
          · exact absurd (hw 91 (by simp)) (by decide)
        cases hv with
        | one p h => exact hp _ [] h (by simpa using hw)
        | more p t h _ => exact hp p t h hw
    · rw [hg]
      dsimp only
      have e1 : ((a ++ o :: (x ++ c :: t)).take (a.length + 1 + x.length + 1)).drop a.length = o :: x ++ [c] := by
        have : a ++ o :: (x ++ c :: t) = (a ++ (o :: x ++ [c])) ++ t := by simp
        rw [this, show a.length + 1 + x.length + 1 = (a ++ (o :: x ++ [c])).length by simp; omega,
          List.take_left, List.drop_left]
      have e2 : (a ++ o :: (x ++ c :: t)).drop (a.length + 1 + x.length + 1) = t := by
        have : a ++ o :: (x ++ c :: t) = (a ++ (o :: x ++ [c])) ++ t := by simp
        rw [this, show a.length + 1 + x.length + 1 = (a ++ (o :: x ++ [c])).length by simp; omega,
          List.drop_left]
      rw [e1, e2]
      have hx0 : 0 ∉ x := fun h => h0 (by simp [h])
      have ht0 : 0 ∉ t := fun h => h0 (by simp [h])
      cases a with
      | nil =>
        simp only [List.length_nil, Nat.lt_irrefl, if_false, List.nil_append, gt_iff_lt] at hn ⊢
        by_cases ht : t = []
        · rw [if_pos ht]
          simp only [R.ok.injEq]
          rw [pushExpr_nil, getExpression_void hb hx hx0]
          constructor
          · rintro ⟨h1, h2⟩
            refine ⟨h1, ?_⟩
            rw [ht]
            exact .one _ h2
          · rintro ⟨h1, h2⟩
            exact ⟨h1, (voidPair_split hb hx h2).1⟩
        · have hlt : t.length < n := by
            simp only [List.length_cons, List.length_append] at hn
            omega
          rw [if_neg ht]
          refine Iff.trans (ih t _ ht0 hlt) ?_
          rw [pushExpr_nil, getExpression_void hb hx hx0]
          constructor
          · rintro ⟨⟨h1, h2⟩, h3⟩
            refine ⟨h1, ?_⟩
            have := VoidPairs.more _ t h2 h3
            simpa using this
          · rintro ⟨h1, h2⟩
            obtain ⟨h3, h4⟩ := voidPair_split hb hx h2
            exact ⟨⟨h1, h3⟩, by rcases h4 with h4 | h4; exact absurd h4 ht; exact h4⟩
      | cons b a =>
        have hpos : (b :: a).length > 0 := by simp
        rw [if_pos hpos]
        have hlt : t.length < n := by
          simp only [List.length_cons, List.length_append] at hn
          omega
        have hne : ∀ e : XExpr, ∀ f, pushExpr (exps ++ [f]) e ≠ [] := by
          intro e f h
          rw [pushExpr_nil] at h
          simp at h
        constructor
        · intro h
          exfalso
          by_cases ht : t = []
          · rw [if_pos ht] at h
            simp only [R.ok.injEq] at h
            exact hne _ _ h
          · rw [if_neg ht] at h
            exact hne _ _ ((ih t _ ht0 hlt).1 h).1
        · rintro ⟨_, hv⟩
          exact absurd hv (novoid _ _ _ ha (by simp))
    · rw [hg]
      dsimp only
      constructor
      · intro h; simp at h
      · rintro ⟨_, hv⟩
        exfalso
        cases a with
        | cons b a => exact novoid _ _ _ ha (by simp) hv
        | nil =>
          -- a void pair would have been found
          have : ∃ o x c t', (w :: t : Str) = o :: (x ++ c :: t') ∧ NoWild x ∧ Brackets o c := by
            rw [List.nil_append] at hv
            generalize (w :: t : Str) = s at hv
            have hp : ∀ p u, VoidPair p → ∃ o x c t', p ++ u = o :: (x ++ c :: t') ∧ NoWild x ∧ Brackets o c := by
              intro p u hp
              rcases hp with rfl | rfl | ⟨y, rfl, hy, _⟩
              · exact ⟨123, [], 125, u, rfl, noWild_nil, .inl ⟨rfl, rfl⟩⟩
              · exact ⟨91, [], 93, u, rfl, noWild_nil, .inr ⟨rfl, rfl⟩⟩
              · exact ⟨91, y, 93, u, by simp, hy, .inr ⟨rfl, rfl⟩⟩
            cases hv with
            | one p h => simpa using hp _ [] h
            | more p t h _ => exact hp p t h
          obtain ⟨o, x, c, t', h1, h2, h3⟩ := this
          have h4 := getPair_pair (a := []) noWild_nil h2 h3 t'
          rw [List.nil_append, ← h1] at h4
          rw [List.nil_append, h4] at hg
          cases hg

theorem parseExpr_pair {s : Str} {p : Option Nat} {q : Nat} (h : getPair s = (p, some q)) :
    parseExpr s = (do let exps ← xParseLoop (s.length + 1) s []; splitLast exps) := by
  unfold parseExpr
  rw [h]
  split
  · rename_i h; simp at h
  · rename_i h; simp at h
  · rename_i h; simp at h
  · rfl

/-- The parser panics exactly on void pairs. -/
theorem parseExpr_panic {s : Str} (h0 : 0 ∉ s) : parseExpr s = .panic ↔ VoidPairs s := by
  have hloop := fun exps => xParseLoop_nil (s.length + 1) s exps h0 (by omega)
  have hok := xParseLoop_good (K := max s.length 0x110000) (s.length + 1) s [] (by omega) (by omega) (by omega) (by simp)
  obtain ⟨out, ho, _⟩ := hok
  have hsp : (do let exps ← xParseLoop (s.length + 1) s []; splitLast exps) = .panic ↔ VoidPairs s := by
    rw [ho, R.bind_ok]
    have := hloop []
    rw [ho] at this
    simp only [R.ok.injEq, true_and] at this
    rw [← this]
    constructor
    · intro h
      apply Classical.byContradiction
      intro hne
      obtain ⟨o, h2⟩ := splitLast_ok hne
      rw [h2] at h
      cases h
    · rintro rfl
      rfl
  rcases getPair_cases s with ⟨hw, hg⟩ | ⟨a, o, x, c, t, rfl, ha, hx, hb, hg⟩ | ⟨a, w, t, rfl, ha, hw, hg⟩
  · unfold parseExpr
    rw [hg]
    dsimp only
    constructor
    · intro h; cases h
    · intro hv
      have := (hloop []).2 ⟨rfl, hv⟩
      rw [xParseLoop, hg] at this
      simp at this
  · rw [parseExpr_pair hg]
    exact hsp
  · unfold parseExpr
    rw [hg]
    have hnv : ¬ VoidPairs (a ++ w :: t) := by
      intro hv
      have := (hloop []).2 ⟨rfl, hv⟩
      rw [xParseLoop, hg] at this
      simp at this
    cases a with
    | nil =>
      dsimp only [List.length_nil]
      constructor
      · intro h; split at h <;> cases h
      · intro h; exact absurd h hnv
    | cons b a =>
      dsimp only [List.length_cons]
      constructor
      · intro h; split at h <;> cases h
      · intro h; exact absurd h hnv

theorem parseExpr_total {s : Str} (h : parseExpr s ≠ .panic) : ∃ exps, parseExpr s = .ok exps := by
  have hok := xParseLoop_good (K := max s.length 0x110000) (s.length + 1) s [] (by omega) (by omega) (by omega) (by simp)
  obtain ⟨out, ho, _⟩ := hok
  cases hg : getPair s with
  | mk p q =>
    cases q with
    | some q =>
      rw [parseExpr_pair hg, ho, R.bind_ok] at h
      rw [parseExpr_pair hg, ho, R.bind_ok]
      by_cases hne : out = []
      · subst hne; exact absurd rfl h
      · exact splitLast_ok hne
    | none =>
      unfold parseExpr
      rw [hg]
      split
      · exact ⟨_, rfl⟩
      · dsimp only; split <;> exact ⟨_, rfl⟩
      · dsimp only; split <;> exact ⟨_, rfl⟩
      · rename_i h; simp at h

end GoMatcher
