import Verif.Proofs.ExpandOuts
import Verif.Proofs.ParseClass
import Verif.Proofs.Utf8Inv

/-! # What `ParseExpr` returns, for every byte string -/

namespace GoMatcher

/-- No special byte. -/
def NoWild (s : Str) : Prop := ∀ b ∈ s, isWild b = false

theorem NoWild.cons {b : UInt8} {s : Str} (h : NoWild (b :: s)) : isWild b = false ∧ NoWild s :=
  ⟨h b (by simp), fun x hx => h x (by simp [hx])⟩

theorem noWild_nil : NoWild [] := by intro b hb; simp at hb

theorem notWild_ne {b : UInt8} (h : isWild b = false) :
    b ≠ 91 ∧ b ≠ 93 ∧ b ≠ 123 ∧ b ≠ 125 ∧ b ≠ 42 ∧ b ≠ 63 := by
  simp only [isWild, Bool.or_eq_false_iff, decide_eq_false_iff_not] at h
  exact ⟨h.1.1.1.1.1, h.1.1.1.1.2, h.1.1.1.2, h.1.1.2, h.1.2, h.2⟩

theorem pairLoop_skip {a : Str} (ha : NoWild a) (i : Nat) (st : Option (Nat × UInt8)) (t : Str) :
    pairLoop i st (a ++ t) = pairLoop (i + a.length) st t := by
  induction a generalizing i with
  | nil => rfl
  | cons b a ih =>
    obtain ⟨h1, h2⟩ := ha.cons
    obtain ⟨n1, n2, n3, n4, n5, n6⟩ := notWild_ne h1
    rw [List.cons_append]
    conv => lhs; unfold pairLoop
    rw [if_neg (by simp [n5, n6]), if_neg (by simp [n1, n3]), if_neg n4,
      if_neg n2, ih h2]
    have : i + 1 + a.length = i + (b :: a).length := by simp only [List.length_cons]; omega
    rw [this]

/-- Matching brackets. -/
def Brackets (o c : UInt8) : Prop := (o = 123 ∧ c = 125) ∨ (o = 91 ∧ c = 93)

theorem getPair_none {s : Str} (h : NoWild s) : getPair s = (none, none) := by
  have := pairLoop_skip h 0 none []
  rw [List.append_nil] at this
  rw [getPair, this]
  rfl

theorem getPair_pair {a x : Str} {o c : UInt8} (ha : NoWild a) (hx : NoWild x) (hb : Brackets o c) (t : Str) :
    getPair (a ++ o :: (x ++ c :: t)) = (some a.length, some (a.length + 1 + x.length)) := by
  rw [getPair, pairLoop_skip ha, Nat.zero_add]
  rcases hb with ⟨rfl, rfl⟩ | ⟨rfl, rfl⟩
  · rw [pairLoop]
    simp only [show ¬ ((123 : UInt8) = 42 ∨ (123 : UInt8) = 63) by decide, true_or, if_true, if_false]
    rw [pairLoop_skip hx, pairLoop]
    simp
  · rw [pairLoop]
    simp only [show ¬ ((91 : UInt8) = 42 ∨ (91 : UInt8) = 63) by decide, or_true, if_true, if_false]
    rw [pairLoop_skip hx, pairLoop]
    simp

/-- The first special byte is no opening bracket. -/
theorem getPair_stop {a : Str} {w : UInt8} (ha : NoWild a) (hw : w = 42 ∨ w = 63 ∨ w = 125 ∨ w = 93) (t : Str) :
    getPair (a ++ w :: t) = (some a.length, none) := by
  rw [getPair, pairLoop_skip ha, Nat.zero_add, pairLoop]
  rcases hw with rfl | rfl | rfl | rfl <;> simp

/-- Another special byte follows the opening bracket. -/
theorem getPair_open {a x : Str} {o w : UInt8} (ha : NoWild a) (hx : NoWild x) (ho : o = 123 ∨ o = 91)
    (hw : isWild w = true) (hb : ¬ Brackets o w) (t : Str) :
    getPair (a ++ o :: (x ++ w :: t)) = (some a.length, none) := by
  have hw' : w = 91 ∨ w = 93 ∨ w = 123 ∨ w = 125 ∨ w = 42 ∨ w = 63 := by
    simp only [isWild, Bool.or_eq_true, decide_eq_true_eq] at hw
    rcases hw with ((((h | h) | h) | h) | h) | h <;> simp [h]
  rw [getPair, pairLoop_skip ha, Nat.zero_add]
  unfold Brackets at hb
  rcases ho with rfl | rfl
  · rw [pairLoop]
    simp only [show ¬ ((123 : UInt8) = 42 ∨ (123 : UInt8) = 63) by decide, true_or, if_true, if_false]
    rw [pairLoop_skip hx, pairLoop]
    rcases hw' with rfl | rfl | rfl | rfl | rfl | rfl <;> simp_all
  · rw [pairLoop]
    simp only [show ¬ ((91 : UInt8) = 42 ∨ (91 : UInt8) = 63) by decide, or_true, if_true, if_false]
    rw [pairLoop_skip hx, pairLoop]
    rcases hw' with rfl | rfl | rfl | rfl | rfl | rfl <;> simp_all

/-- The opening bracket is never closed. -/
theorem getPair_tail {a x : Str} {o : UInt8} (ha : NoWild a) (hx : NoWild x) (ho : o = 123 ∨ o = 91) :
    getPair (a ++ o :: x) = (some a.length, none) := by
  have hs := pairLoop_skip hx
  rw [getPair, pairLoop_skip ha, Nat.zero_add]
  rcases ho with rfl | rfl
  · rw [pairLoop]
    simp only [show ¬ ((123 : UInt8) = 42 ∨ (123 : UInt8) = 63) by decide, true_or, if_true, if_false]
    have := hs (a.length + 1) (some (a.length, 123)) []
    rw [List.append_nil] at this
    rw [this]
    rfl
  · rw [pairLoop]
    simp only [show ¬ ((91 : UInt8) = 42 ∨ (91 : UInt8) = 63) by decide, or_true, if_true, if_false]
    have := hs (a.length + 1) (some (a.length, 91)) []
    rw [List.append_nil] at this
    rw [this]
    rfl

theorem split_wild (s : Str) :
    NoWild s ∨ ∃ a w t, s = a ++ w :: t ∧ NoWild a ∧ isWild w = true := by
  induction s with
  | nil => exact .inl noWild_nil
  | cons b s ih =>
    cases hb : isWild b with
    | true => exact .inr ⟨[], b, s, rfl, noWild_nil, hb⟩
    | false =>
      rcases ih with h | ⟨a, w, t, rfl, h1, h2⟩
      · left
        intro x hx
        rcases List.mem_cons.1 hx with rfl | hx
        · exact hb
        · exact h x hx
      · right
        refine ⟨b :: a, w, t, rfl, ?_, h2⟩
        intro x hx
        rcases List.mem_cons.1 hx with rfl | hx
        · exact hb
        · exact h1 x hx

/-- All cases of `getPair`. -/
theorem getPair_cases (s : Str) :
    (NoWild s ∧ getPair s = (none, none)) ∨
    (∃ a o x c t, s = a ++ o :: (x ++ c :: t) ∧ NoWild a ∧ NoWild x ∧ Brackets o c ∧
      getPair s = (some a.length, some (a.length + 1 + x.length))) ∨
    (∃ a w t, s = a ++ w :: t ∧ NoWild a ∧ isWild w = true ∧ getPair s = (some a.length, none)) := by
  rcases split_wild s with h | ⟨a, w, t, rfl, h1, h2⟩
  · exact .inl ⟨h, getPair_none h⟩
  · right
    have hw' : w = 91 ∨ w = 93 ∨ w = 123 ∨ w = 125 ∨ w = 42 ∨ w = 63 := by
      simp only [isWild, Bool.or_eq_true, decide_eq_true_eq] at h2
      rcases h2 with ((((h | h) | h) | h) | h) | h <;> simp [h]
    by_cases ho : w = 123 ∨ w = 91
    · rcases split_wild t with h | ⟨x, v, t, rfl, h3, h4⟩
      · exact .inr ⟨a, w, t, rfl, h1, h2, getPair_tail h1 h ho⟩
      · by_cases hb : Brackets w v
        · exact .inl ⟨a, w, x, v, t, rfl, h1, h3, hb, getPair_pair h1 h3 hb t⟩
        · exact .inr ⟨a, w, _, rfl, h1, h2, getPair_open h1 h3 ho h4 hb t⟩
    · refine .inr ⟨a, w, t, rfl, h1, h2, getPair_stop h1 ?_ t⟩
      rcases hw' with rfl | rfl | rfl | rfl | rfl | rfl <;> simp_all

/-! ## Classes -/

/-- Ranges as the class reader makes them. -/
structure RangeFine (r : RuneRange) : Prop where
  le : r.first ≤ r.last
  last : r.last ≤ 0x10FFFF
  first : r.first ≠ runeError

theorem rangeStr_go_bound (f i : Nat) (s : Str) : ∀ x ∈ rangeStr.go f i s, x.2 ≤ 0x10FFFF := by
  induction f generalizing i s with
  | zero => intro x hx; simp [rangeStr.go] at hx
  | succ f ih =>
    cases s with
    | nil => intro x hx; simp [rangeStr.go] at hx
    | cons b t =>
      intro x hx
      rw [rangeStr.go] at hx
      rcases List.mem_cons.1 hx with rfl | hx
      · rcases decodeRune_inv (s := b :: t) (by simp) with h | ⟨r, u, h1, _, h3⟩
        · rw [h]; show (65533 : Nat) ≤ _; decide
        · rw [h3]
          unfold RuneOk at h1
          dsimp only
          omega
      · exact ih _ _ x hx

theorem xRunesLoop_fine (cs : List Nat) (hcs : ∀ c ∈ cs, c ≤ 0x10FFFF) (rs : List RuneRange)
    (hrs : ∀ r ∈ rs, RangeFine r) (start : Nat) (hst : start ≤ 0x10FFFF) (isR : Bool) (out : List RuneRange)
    (h : xRunesLoop rs start isR cs = some out) : ∀ r ∈ out, RangeFine r := by
  have add : ∀ rs : List RuneRange, (∀ r ∈ rs, RangeFine r) → ∀ start, start ≤ 0x10FFFF →
      ∀ r ∈ (if start ≠ runeError then rs ++ [RuneRange.mk start start] else rs), RangeFine r := by
    intro rs hrs start hst r hr
    split at hr
    · rename_i hne
      rcases List.mem_append.1 hr with hr | hr
      · exact hrs r hr
      · simp only [List.mem_singleton] at hr
        subst hr
        exact ⟨Nat.le_refl _, hst, hne⟩
    · exact hrs r hr
  induction cs generalizing rs start isR with
  | nil =>
    rw [xRunesLoop] at h
    cases h
    exact add rs hrs start hst
  | cons c cs ih =>
    have ih := ih (fun x hx => hcs x (by simp [hx]))
    have hc := hcs c (by simp)
    rw [xRunesLoop] at h
    split at h
    · exact ih rs hrs start hst _ h
    · split at h
      · split at h
        · exact ih rs hrs c hc _ h
        · rename_i hne
          split at h
          · split at h
            · cases h
            · refine ih _ ?_ runeError (by decide) _ h
              intro r hr
              rcases List.mem_append.1 hr with hr | hr
              · exact hrs r hr
              · simp only [List.mem_singleton] at hr
                subst hr
                rename_i hle _
                exact ⟨hle, hc, hne⟩
          · cases h
      · exact ih _ (add rs hrs start hst) c hc _ h

theorem mergeGo_fine (l : List RuneRange) (cur : RuneRange) (hc : RangeFine cur) (hl : ∀ r ∈ l, RangeFine r) :
    ∀ r ∈ mergeGo cur l, RangeFine r := by
  induction l generalizing cur with
  | nil =>
    intro r hr
    rw [mergeGo, emitRange] at hr
    split at hr
    · simp only [List.mem_singleton] at hr
      subst hr
      exact hc
    · simp at hr
  | cons nx l ih =>
    have hn := hl nx (by simp)
    have ih := fun cur hc => ih cur hc (fun x hx => hl x (by simp [hx]))
    intro r hr
    rw [mergeGo] at hr
    split at hr
    · refine ih _ ?_ r hr
      split
      · refine ⟨?_, hn.last, hc.first⟩
        have := hc.le
        dsimp only
        omega
      · exact hc
    · rcases List.mem_append.1 hr with hr | hr
      · rw [emitRange] at hr
        split at hr
        · simp only [List.mem_singleton] at hr
          subst hr
          exact hc
        · simp at hr
      · exact ih _ hn r hr

theorem runesRangeMerge_fine {l : List RuneRange} (hl : ∀ r ∈ l, RangeFine r) :
    ∀ r ∈ runesRangeMerge l, RangeFine r := by
  have hp := sortBy_perm RuneRange.le l
  rw [runesRangeMerge_eq]
  unfold mergeTail
  cases hs : sortBy RuneRange.le l with
  | nil => intro r hr; simp at hr
  | cons a t =>
    rw [hs] at hp
    exact mergeGo_fine t a (hl a (hp.mem_iff.1 (by simp))) (fun r hr => hl r (hp.mem_iff.1 (by simp [hr])))

/-- Number of code points in merged ranges. -/
def rangesCount : List RuneRange → Int
  | [] => 0
  | r :: rs => (r.last - r.first + 1) + rangesCount rs

theorem rangesCount_append (a b : List RuneRange) : rangesCount (a ++ b) = rangesCount a + rangesCount b := by
  induction a with
  | nil => simp [rangesCount]
  | cons r a ih => simp only [List.cons_append, rangesCount, ih]; omega

theorem mergeGo_count (l : List RuneRange) (cur : RuneRange) (hc : RangeFine cur)
    (hl : ∀ r ∈ l, RangeFine r ∧ cur.first ≤ r.first) (hs : l.Pairwise (fun a b => a.first ≤ b.first)) :
    rangesCount (mergeGo cur l) ≤ 0x110000 - (cur.first : Int) := by
  have emit : ∀ r : RuneRange, RangeFine r → rangesCount (emitRange r) ≤ (r.last : Int) - r.first + 1 := by
    intro r hr
    have := hr.le
    unfold emitRange
    split
    · simp [rangesCount]
    · simp only [rangesCount]; omega
  induction l generalizing cur with
  | nil =>
    rw [mergeGo]
    have := emit cur hc
    have := hc.last
    omega
  | cons nx l ih =>
    obtain ⟨hn, hn2⟩ := hl nx (by simp)
    rw [List.pairwise_cons] at hs
    rw [mergeGo]
    split
    · have hm1 : (if cur.last < nx.last then { cur with last := nx.last } else cur).first = cur.first := by
        split <;> rfl
      have := ih (if cur.last < nx.last then { cur with last := nx.last } else cur) (by
          split
          · exact ⟨by have := hc.le; dsimp only; omega, hn.last, hc.first⟩
          · exact hc) (fun r hr => ⟨(hl r (by simp [hr])).1, by rw [hm1]; exact (hl r (by simp [hr])).2⟩) hs.2
      rw [hm1] at this
      exact this
    · rename_i hcond
      have h1 := ih nx hn (fun r hr => ⟨(hl r (by simp [hr])).1, hs.1 r hr⟩) hs.2
      have h2 := emit cur hc
      rw [rangesCount_append]
      omega

theorem runesRangeMerge_count {l : List RuneRange} (hl : ∀ r ∈ l, RangeFine r) :
    rangesCount (runesRangeMerge l) ≤ 0x110000 := by
  have hp := sortBy_perm RuneRange.le l
  have hs := sortBy_pairwise RuneRange.le RuneRange.le_total RuneRange.le_trans l
  rw [runesRangeMerge_eq]
  unfold mergeTail
  cases hsl : sortBy RuneRange.le l with
  | nil => simp [rangesCount]
  | cons a t =>
    rw [hsl] at hp hs
    rw [List.pairwise_cons] at hs
    have := mergeGo_count t a (hl a (hp.mem_iff.1 (by simp)))
      (fun r hr => ⟨hl r (hp.mem_iff.1 (by simp [hr])), by
        have := (RuneRange.le_iff _ _).1 (hs.1 r hr); omega⟩)
      (hs.2.imp (fun {a b} hab => by
        have := (RuneRange.le_iff _ _).1 hab; omega))
    dsimp only
    omega

/-- The ranges of a class that the class reader accepts. -/
def xOf (rs : List RuneRange) : List XRunes := rs.map fun r => XRunes.mk r.first r.last (some r.first)

theorem runesCount_xOf (rs : List RuneRange) : runesCount (xOf rs) = rangesCount rs := by
  induction rs with
  | nil => rfl
  | cons r rs ih =>
    have : xOf (r :: rs) = XRunes.mk r.first r.last (some r.first) :: xOf rs := rfl
    rw [this, runesCount, ih, rangesCount]
    rfl

theorem xRunesExpand_fine {s : Str} {rs : List XRunes} (h : xRunesExpand s = some rs) :
    ∃ l, rs = xOf l ∧ (∀ r ∈ l, RangeFine r) ∧ rangesCount l ≤ 0x110000 := by
  unfold xRunesExpand at h
  split at h
  · cases h
  · split at h
    · cases h
    · rename_i l hl
      cases h
      have hf := xRunesLoop_fine _ (by
        intro c hc
        obtain ⟨x, hx, rfl⟩ := List.mem_map.1 hc
        exact rangeStr_go_bound _ _ _ x hx) [] (by simp) runeError (by decide) false l hl
      exact ⟨runesRangeMerge l, rfl, runesRangeMerge_fine hf, runesRangeMerge_count hf⟩

/-! ## Single expressions -/

/-- What holds for every expression that the parser returns. -/
structure GoodExpr (K : Int) (e : XExpr) : Prop where
  fresh : e.Fresh
  ne : e.alts ≠ []
  le : (e.alts.length : Int) ≤ e.count
  bound : e.count ≤ K

theorem good_str {K : Int} (hK : 1 ≤ K) (body : Str) : GoodExpr K { body := body } where
  fresh := ⟨rfl, by simp, by simp, by simp⟩
  ne := by simp [XExpr.alts]
  le := by simp [XExpr.alts, XExpr.count]
  bound := by simpa [XExpr.count] using hK

theorem good_wild {K : Int} (hK : 1 ≤ K) (body : Str) : GoodExpr K { typ := .wild, body := body } where
  fresh := ⟨rfl, by simp, by simp, by simp⟩
  ne := by simp [XExpr.alts]
  le := by simp [XExpr.alts, XExpr.count]
  bound := by simpa [XExpr.count] using hK

theorem good_list {K : Int} {l : List Str} (body : Str) (hl : l ≠ []) (hK : (l.length : Int) ≤ K) :
    GoodExpr K { typ := .list, body := body, list := l } where
  fresh := ⟨rfl, by simpa using hl, by simp, by simp⟩
  ne := by simpa [XExpr.alts] using hl
  le := by simp [XExpr.alts, XExpr.count]
  bound := by simpa [XExpr.count] using hK

theorem rangesAlts_count {l : List RuneRange} (hl : ∀ r ∈ l, RangeFine r) :
    ((rangesAlts (xOf l)).length : Int) ≤ rangesCount l := by
  induction l with
  | nil => simp [xOf, rangesAlts, rangesCount]
  | cons r l ih =>
    have ih := ih (fun x hx => hl x (by simp [hx]))
    have he : rangesAlts (xOf (r :: l)) = (codesFrom r.first r.last).map encodeRune ++ rangesAlts (xOf l) := by
      simp [xOf, rangesAlts]
    rw [he, rangesCount, List.length_append, List.length_map]
    have := codesFrom_length r.first r.last
    have := (hl r (by simp)).le
    omega

theorem good_runes {K : Int} {l : List RuneRange} (body : Str) (hl : ∀ r ∈ l, RangeFine r) (hne : l ≠ [])
    (hK : rangesCount l ≤ K) : GoodExpr K { typ := .runes, body := body, runes := xOf l } where
  fresh := by
    refine ⟨rfl, by simp, fun _ => by simpa [xOf] using hne, ?_⟩
    intro r hr
    obtain ⟨x, _, rfl⟩ := List.mem_map.1 hr
    rfl
  ne := by
    unfold XExpr.alts
    dsimp only
    cases l with
    | nil => exact absurd rfl hne
    | cons r l =>
      have he : rangesAlts (xOf (r :: l)) = (codesFrom r.first r.last).map encodeRune ++ rangesAlts (xOf l) := by
        simp [xOf, rangesAlts]
      have hr := hl r (by simp)
      rw [he, codesFrom_cons hr.le hr.first]
      simp
  le := by
    simp only [XExpr.alts, XExpr.count]
    rw [runesCount_xOf]
    exact rangesAlts_count hl
  bound := by
    simp only [XExpr.count]
    rw [runesCount_xOf]
    exact hK

theorem splitByte_le (s : Str) (b : UInt8) : (splitByte s b).length ≤ s.length + 1 := by
  induction s with
  | nil => simp [splitByte]
  | cons x s ih =>
    rw [splitByte]
    split
    · simp only [List.length_cons]; omega
    · split
      · simp
      · rename_i h
        rw [h] at ih
        simp only [List.length_cons] at ih ⊢
        omega

theorem getExpression_good {K : Int} (orig : Str) (h1 : (orig.length : Int) ≤ K) (h2 : 0x110000 ≤ K) :
    GoodExpr K (getExpression orig) := by
  have hK : (1 : Int) ≤ K := by omega
  unfold getExpression
  dsimp only
  split
  · exact good_str hK _
  · split
    · split
      · refine good_list _ (splitByte_ne_nil _ _) ?_
        have := splitByte_le (orig.drop 1).dropLast 44
        rename_i hne _ _
        have : ((orig.drop 1).dropLast).length + 2 ≤ orig.length := by
          have h3 : (orig.drop 1).dropLast ≠ [] := hne
          have h4 := List.length_pos_iff.2 h3
          simp only [List.length_dropLast, List.length_drop] at h4 ⊢
          omega
        omega
      · exact good_str hK _
    · split
      · split
        · exact good_str hK _
        · split
          · exact good_wild hK _
          · rename_i rs hrs
            split
            · exact good_str hK _
            · rename_i hne
              obtain ⟨l, rfl, h3, h4⟩ := xRunesExpand_fine hrs
              refine good_runes _ h3 ?_ (by omega)
              rintro rfl
              exact hne rfl
      · split
        · exact good_wild hK _
        · exact good_str hK _

/-! ## The parser -/

theorem pushExpr_good {K : Int} {exps : List XExpr} {e : XExpr} (h : ∀ x ∈ exps, GoodExpr K x)
    (he : GoodExpr K e) : ∀ x ∈ pushExpr exps e, GoodExpr K x := by
  have app : ∀ x ∈ exps ++ [e], GoodExpr K x := by
    intro x hx
    rcases List.mem_append.1 hx with hx | hx
    · exact h x hx
    · simp only [List.mem_singleton] at hx
      subst hx
      exact he
  unfold pushExpr
  split
  · split
    · rename_i l hl
      split
      · rename_i hlt
        intro x hx
        rcases List.mem_append.1 hx with hx | hx
        · exact h x ((List.dropLast_sublist _).subset hx)
        · simp only [List.mem_singleton] at hx
          subst hx
          have hg := h l (List.mem_of_getLast? hl)
          refine ⟨⟨hg.fresh.pos, by simp [hlt], by simp [hlt], hg.fresh.each⟩, ?_, ?_, ?_⟩
          · simp [XExpr.alts, hlt]
          · simp [XExpr.alts, XExpr.count, hlt]
          · have := hg.bound
            rw [count_str hlt] at this
            simpa [XExpr.count, hlt] using this
      · split
        · exact app
        · exact h
    · split
      · exact app
      · exact h
  · exact app

theorem xParseLoop_good {K : Int} (n : Nat) (s : Str) (exps : List XExpr) (hn : s.length < n)
    (h1 : (s.length : Int) ≤ K) (h2 : 0x110000 ≤ K) (h : ∀ x ∈ exps, GoodExpr K x) :
    ∃ out, xParseLoop n s exps = .ok out ∧ ∀ x ∈ out, GoodExpr K x := by
  have hK : (1 : Int) ≤ K := by omega
  induction n generalizing s exps with
  | zero => omega
  | succ n ih =>
    have add : ∀ exps : List XExpr, (∀ x ∈ exps, GoodExpr K x) → ∀ e, GoodExpr K e → ∀ x ∈ exps ++ [e], GoodExpr K x := by
      intro exps h e he x hx
      rcases List.mem_append.1 hx with hx | hx
      · exact h x hx
      · simp only [List.mem_singleton] at hx
        subst hx
        exact he
    rw [xParseLoop]
    rcases getPair_cases s with ⟨_, hg⟩ | ⟨a, o, x, c, t, rfl, ha, hx, hb, hg⟩ | ⟨a, w, t, rfl, ha, hw, hg⟩
    · rw [hg]
      exact ⟨_, rfl, add _ h _ (good_str hK _)⟩
    · rw [hg]
      dsimp only
      have hx1 : ∀ y ∈ (if a.length > 0 then exps ++ [{ body := (a ++ o :: (x ++ c :: t)).take a.length }] else exps), GoodExpr K y := by
        split
        · exact add _ h _ (good_str hK _)
        · exact h
      have hlen : (((a ++ o :: (x ++ c :: t)).take (a.length + 1 + x.length + 1)).drop a.length).length ≤ (a ++ o :: (x ++ c :: t)).length := by
        simp only [List.length_drop, List.length_take]; omega
      have hx2 := pushExpr_good hx1 (getExpression_good (K := K) (((a ++ o :: (x ++ c :: t)).take (a.length + 1 + x.length + 1)).drop a.length)
        (by omega) h2)
      split
      · exact ⟨_, rfl, hx2⟩
      · apply ih _ _ _ _ hx2
        · simp only [List.length_drop, List.length_append, List.length_cons] at hn ⊢
          omega
        · simp only [List.length_drop, List.length_append, List.length_cons] at h1 ⊢
          omega
    · rw [hg]
      dsimp only
      refine ⟨_, rfl, add _ ?_ _ (good_wild hK _)⟩
      split
      · exact add _ h _ (good_str hK _)
      · exact h

theorem splitLast_good {K : Int} (hK : 1 ≤ K) {exps out : List XExpr} (h : ∀ x ∈ exps, GoodExpr K x)
    (ho : splitLast exps = .ok out) : ∀ x ∈ out, GoodExpr K x := by
  unfold splitLast at ho
  split at ho
  · cases ho
  · rename_i l hl
    split at ho
    · rename_i hlt
      dsimp only at ho
      split at ho
      · cases ho
        intro x hx
        rcases List.mem_append.1 hx with hx | hx
        · exact h x ((List.dropLast_sublist _).subset hx)
        · simp only [List.mem_cons, List.not_mem_nil, or_false] at hx
          rcases hx with rfl | rfl
          · have hg := h l (List.mem_of_getLast? hl)
            refine ⟨⟨hg.fresh.pos, by simp [hlt], by simp [hlt], hg.fresh.each⟩, ?_, ?_, ?_⟩
            · simp [XExpr.alts, hlt]
            · simp [XExpr.alts, XExpr.count, hlt]
            · simp only [XExpr.count, hlt]
              exact hK
          · exact good_str hK _
      · cases ho
        exact h
    · cases ho
      exact h

theorem splitLast_ok {exps : List XExpr} (h : exps ≠ []) : ∃ out, splitLast exps = .ok out := by
  unfold splitLast
  split
  · rename_i hn
    rw [List.getLast?_eq_none_iff] at hn
    exact absurd hn h
  · split
    · dsimp only
      split
      · exact ⟨_, rfl⟩
      · exact ⟨_, rfl⟩
    · exact ⟨_, rfl⟩

/-- Every list that the parser returns is well formed. -/
theorem parseExpr_good {K : Int} (s : Str) (h1 : (s.length : Int) ≤ K) (h2 : 0x110000 ≤ K)
    {exps : List XExpr} (h : parseExpr s = .ok exps) : ∀ x ∈ exps, GoodExpr K x := by
  have hK : (1 : Int) ≤ K := by omega
  unfold parseExpr at h
  split at h
  · cases h
    intro x hx
    simp only [List.mem_singleton] at hx
    subst hx
    exact good_str hK _
  · dsimp only at h
    split at h
    · cases h
      intro x hx
      simp only [List.mem_cons, List.not_mem_nil, or_false] at hx
      rcases hx with rfl | rfl
      · exact good_wild hK _
      · exact good_str hK _
    · cases h
      intro x hx
      simp only [List.mem_singleton] at hx
      subst hx
      exact good_wild hK _
  · dsimp only at h
    split at h
    · cases h
      intro x hx
      simp only [List.mem_cons, List.not_mem_nil, or_false] at hx
      rcases hx with rfl | rfl | rfl
      · exact good_str hK _
      · exact good_wild hK _
      · exact good_str hK _
    · cases h
      intro x hx
      simp only [List.mem_cons, List.not_mem_nil, or_false] at hx
      rcases hx with rfl | rfl
      · exact good_str hK _
      · exact good_wild hK _
  · obtain ⟨out, ho, hg⟩ := xParseLoop_good (s.length + 1) s [] (by omega) h1 h2 (by simp)
    rw [ho, R.bind_ok] at h
    exact splitLast_good hK hg h

end GoMatcher
