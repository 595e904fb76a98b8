import Verif.Proofs.ExpandToks

/-! # The texts that an expression goes through -/

namespace GoMatcher

/-! ## Classes -/

theorem inRanges_append (a b : List RuneRange) (n : Nat) : InRanges (a ++ b) n ↔ InRanges a n ∨ InRanges b n := by
  unfold InRanges
  constructor
  · rintro ⟨r, hr, h⟩
    rcases List.mem_append.1 hr with hr | hr
    · exact .inl ⟨r, hr, h⟩
    · exact .inr ⟨r, hr, h⟩
  · rintro (⟨r, hr, h⟩ | ⟨r, hr, h⟩)
    · exact ⟨r, by simp [hr], h⟩
    · exact ⟨r, by simp [hr], h⟩

theorem inRanges_single (a b n : Nat) : InRanges [RuneRange.mk a b] n ↔ a ≤ n ∧ n ≤ b := by
  simp [InRanges]

/-- What is pending is added to the ranges. -/
def flushed (rs : List RuneRange) (v : Nat) : List RuneRange :=
  if v ≠ runeError then rs ++ [RuneRange.mk v v] else rs

theorem flushed_mem (rs : List RuneRange) (p : Option Char) (hp : ∀ c, p = some c → c.toNat ≠ runeError) (n : Nat) :
    InRanges (flushed rs (RunesRanges.pendVal p)) n ↔ (InRanges rs n ∨ RunesRanges.PendMem p n) := by
  unfold flushed
  cases p with
  | none => simp [RunesRanges.pendVal, RunesRanges.PendMem]
  | some d =>
    have := hp d rfl
    simp only [RunesRanges.pendVal, ne_eq, this, not_false_eq_true, if_true]
    rw [inRanges_append, inRanges_single]
    simp only [RunesRanges.PendMem, Option.some.injEq, exists_eq_left']
    constructor
    · rintro (h | h)
      · exact .inl h
      · exact .inr (by omega)
    · rintro (h | h)
      · exact .inl h
      · exact .inr (by omega)

/-- The class reader of `expand` on a written class. -/
theorem xRunesLoop_sem (es : List ClassElt) (hes : ∀ e ∈ es, e.Ok) (rs : List RuneRange)
    (p : Option Char) (hp : ∀ c, p = some c → c.toNat ≠ runeError) :
    ∃ out, xRunesLoop rs (RunesRanges.pendVal p) false
        ((es.flatMap ClassElt.render).map (fun c => c.toNat)) = some out ∧
      ∀ n, InRanges out n ↔ (InRanges rs n ∨ RunesRanges.PendMem p n ∨ ClassMem es n) := by
  have dash : ∀ d : Char, d ≠ '-' → ¬ d.toNat = 0x2D := by
    intro d hd e
    exact hd (Char.toNat_val_inj (by simpa using e))
  induction es generalizing rs p with
  | nil =>
    refine ⟨flushed rs (RunesRanges.pendVal p), rfl, fun n => ?_⟩
    rw [flushed_mem rs p hp]
    simp [ClassMem]
  | cons e es ih =>
    have he := hes e (by simp)
    have hes' : ∀ e ∈ es, e.Ok := fun x hx => hes x (by simp [hx])
    have hfl := flushed_mem rs p hp
    cases e with
    | one d =>
      simp only [ClassElt.Ok] at he
      have hd := dash d he.1
      simp only [List.flatMap_cons, ClassElt.render, List.singleton_append, List.map_cons]
      rw [xRunesLoop, if_neg hd]
      simp only [Bool.false_eq_true, if_false]
      obtain ⟨out, h1, h2⟩ := ih hes' (flushed rs (RunesRanges.pendVal p)) (some d)
        (fun c hc => by simp at hc; subst hc; exact he.2)
      refine ⟨out, h1, fun n => ?_⟩
      rw [h2, hfl]
      simp [RunesRanges.PendMem, ClassMem, ClassElt.Mem, or_assoc]
    | range a b =>
      simp only [ClassElt.Ok] at he
      obtain ⟨ha, hb, ha', hb', hab, hw⟩ := he
      have hda := dash a ha
      have hdb := dash b hb
      have haE : a.toNat ≠ runeError := ha'
      have hlen : runeLen a.toNat = runeLen b.toNat := by
        rw [RunesRanges.runeLen_width (Char.runeOk a), RunesRanges.runeLen_width (Char.runeOk b), hw]
      simp only [List.flatMap_cons, ClassElt.render, List.cons_append, List.nil_append,
        List.map_cons]
      rw [xRunesLoop, if_neg hda]
      simp only [Bool.false_eq_true, if_false]
      rw [xRunesLoop, if_pos (by decide), xRunesLoop, if_neg hdb]
      simp only [if_true]
      rw [if_neg haE, if_pos hab, if_neg (fun hne => hne hlen)]
      obtain ⟨out, h1, h2⟩ := ih hes' (flushed rs (RunesRanges.pendVal p) ++ [RuneRange.mk a.toNat b.toNat]) none
        (fun c hc => by simp at hc)
      refine ⟨out, h1, fun n => ?_⟩
      rw [h2, inRanges_append, hfl, inRanges_single]
      simp [RunesRanges.PendMem, ClassMem, ClassElt.Mem, or_assoc]

/-- The ranges that the class reader returns for a written class. -/
theorem xRunesExpand_sem (es : List ClassElt) (hne : es ≠ []) (hes : ∀ e ∈ es, e.Ok) (h0 : ¬ ClassMem es 0) :
    ∃ l, xRunesExpand (utf8 (es.flatMap ClassElt.render)) = some (xOf l) ∧
      (∀ n, InRanges l n ↔ ClassMem es n) ∧ l.Pairwise (fun a b => a.last + 1 < b.first) ∧
      ∀ r ∈ l, r.first ≤ r.last := by
  have hx : utf8 (es.flatMap ClassElt.render) ≠ [] := by
    intro h
    rw [utf8_eq_nil] at h
    cases es with
    | nil => exact hne rfl
    | cons e es => cases e <;> simp [ClassElt.render] at h
  obtain ⟨out, h1, h2⟩ := xRunesLoop_sem es hes [] none (by simp)
  have h2' : ∀ n, InRanges out n ↔ ClassMem es n := by
    intro n; rw [h2]; simp [InRanges, RunesRanges.PendMem]
  have hfine := xRunesLoop_fine _ (by
    intro c hc
    obtain ⟨d, _, rfl⟩ := List.mem_map.1 hc
    have := Char.runeOk d
    unfold RuneOk at this
    omega) [] (by simp) runeError (by decide) false out h1
  have hpos : ∀ r ∈ out, r.first ≤ r.last ∧ 0 < r.last := by
    intro r hr
    have hle := (hfine r hr).le
    refine ⟨hle, ?_⟩
    apply Classical.byContradiction
    intro hn
    exact h0 ((h2' 0).1 ⟨r, hr, by omega, by omega⟩)
  obtain ⟨m1, m2, m3⟩ := runesRangeMerge_spec out hpos
  refine ⟨runesRangeMerge out, ?_, fun n => by rw [m1, h2'], m2, fun r hr => (m3 r hr).1⟩
  unfold xRunesExpand
  rw [if_neg hx, rangeStr_utf8]
  have : (RunesRanges.pendVal none) = runeError := rfl
  rw [this] at h1
  rw [h1]
  rfl

/-- The code points of ranges, in order. -/
def codesOf (l : List RuneRange) : List Nat := l.flatMap fun r => List.range' r.first (r.last + 1 - r.first)

theorem mem_codesOf {l : List RuneRange} {n : Nat} (h : ∀ r ∈ l, r.first ≤ r.last) : n ∈ codesOf l ↔ InRanges l n := by
  unfold codesOf InRanges
  simp only [List.mem_flatMap, List.mem_range'_1]
  constructor
  · rintro ⟨r, hr, h1, h2⟩
    have := h r hr
    exact ⟨r, hr, h1, by omega⟩
  · rintro ⟨r, hr, h1, h2⟩
    exact ⟨r, hr, h1, by omega⟩

theorem codesOf_sorted {l : List RuneRange} (h : l.Pairwise (fun a b => a.last + 1 < b.first))
    (hw : ∀ r ∈ l, r.first ≤ r.last) : (codesOf l).Pairwise (· < ·) := by
  induction l with
  | nil => simp [codesOf]
  | cons r l ih =>
    rw [List.pairwise_cons] at h
    have e : codesOf (r :: l) = List.range' r.first (r.last + 1 - r.first) ++ codesOf l := by simp [codesOf]
    rw [e, List.pairwise_append]
    refine ⟨List.pairwise_lt_range', ih h.2 (fun x hx => hw x (by simp [hx])), ?_⟩
    intro a ha b hb
    rw [List.mem_range'_1] at ha
    obtain ⟨q, hq, h1, _⟩ := (mem_codesOf (fun x hx => hw x (by simp [hx]))).1 hb
    have := h.1 q hq
    have := hw r (by simp)
    omega

theorem codesFrom_full {a b : Nat} (h : ∀ n, a ≤ n → n ≤ b → n ≠ runeError) :
    codesFrom a b = List.range' a (b + 1 - a) := by
  unfold codesFrom
  have : ∀ l : List Nat, (∀ n ∈ l, n ≠ runeError) → l.takeWhile (· ≠ runeError) = l := by
    intro l hl
    induction l with
    | nil => rfl
    | cons x l ih =>
      rw [List.takeWhile_cons, if_pos (by simpa using hl x (by simp)), ih (fun n hn => hl n (by simp [hn]))]
  apply this
  intro n hn
  rw [List.mem_range'_1] at hn
  exact h n hn.1 (by omega)

theorem rangesAlts_codes {l : List RuneRange} (h : ∀ n, InRanges l n → n ≠ runeError) :
    rangesAlts (xOf l) = (codesOf l).map encodeRune := by
  induction l with
  | nil => rfl
  | cons r l ih =>
    have e1 : rangesAlts (xOf (r :: l)) = (codesFrom r.first r.last).map encodeRune ++ rangesAlts (xOf l) := by
      simp [xOf, rangesAlts]
    have e2 : codesOf (r :: l) = List.range' r.first (r.last + 1 - r.first) ++ codesOf l := by simp [codesOf]
    rw [e1, e2, List.map_append, ih (fun n ⟨q, hq, hn⟩ => h n ⟨q, by simp [hq], hn⟩),
      codesFrom_full (fun n h1 h2 => h n ⟨r, by simp, h1, h2⟩)]

theorem rangesCount_codes {l : List RuneRange} (h : ∀ r ∈ l, r.first ≤ r.last) :
    rangesCount l = (codesOf l).length := by
  induction l with
  | nil => rfl
  | cons r l ih =>
    have e2 : codesOf (r :: l) = List.range' r.first (r.last + 1 - r.first) ++ codesOf l := by simp [codesOf]
    have := h r (by simp)
    rw [rangesCount, e2, List.length_append, List.length_range', ih (fun x hx => h x (by simp [hx]))]
    omega

theorem sorted_ext {a b : List Nat} (ha : a.Pairwise (· < ·)) (hb : b.Pairwise (· < ·))
    (h : ∀ n, n ∈ a ↔ n ∈ b) : a = b := by
  induction a generalizing b with
  | nil =>
    cases b with
    | nil => rfl
    | cons x b => exact absurd ((h x).2 (by simp)) (by simp)
  | cons x a ih =>
    cases b with
    | nil => exact absurd ((h x).1 (by simp)) (by simp)
    | cons y b =>
      rw [List.pairwise_cons] at ha hb
      have hxy : x = y := by
        have h1 := (h x).1 (by simp)
        have h2 := (h y).2 (by simp)
        rcases List.mem_cons.1 h1 with h1 | h1
        · exact h1
        · rcases List.mem_cons.1 h2 with h2 | h2
          · exact h2.symm
          · have := ha.1 y h2
            have := hb.1 x h1
            omega
      subst hxy
      rw [ih ha.2 hb.2]
      intro n
      constructor
      · intro hn
        have := ha.1 n hn
        rcases List.mem_cons.1 ((h n).1 (by simp [hn])) with h1 | h1
        · omega
        · exact h1
      · intro hn
        have := hb.1 n hn
        rcases List.mem_cons.1 ((h n).2 (by simp [hn])) with h1 | h1
        · omega
        · exact h1

theorem chars_sorted_ext {a b : List Char} (ha : a.Pairwise (fun a b => a.toNat < b.toNat))
    (hb : b.Pairwise (fun a b => a.toNat < b.toNat)) (h : ∀ c, c ∈ a ↔ c ∈ b) : a = b := by
  have h1 : a.map (fun c => c.toNat) = b.map (fun c => c.toNat) := by
    apply sorted_ext
    · rw [List.pairwise_map]; exact ha
    · rw [List.pairwise_map]; exact hb
    · intro n
      simp only [List.mem_map]
      constructor
      · rintro ⟨c, hc, rfl⟩; exact ⟨c, (h c).1 hc, rfl⟩
      · rintro ⟨c, hc, rfl⟩; exact ⟨c, (h c).2 hc, rfl⟩
  exact (List.map_inj_right (fun x y hxy => Char.toNat_val_inj hxy)).1 h1

theorem choices_unique {t : Tok} {L L' : List (List Char)} (h : Choices t L) (h' : Choices t L') : L = L' := by
  cases t with
  | sub s =>
    cases s with
    | lit c => exact h.trans h'.symm
    | any => exact h.elim
    | star => exact h.elim
    | cls es =>
      obtain ⟨cs, rfl, h1, h2⟩ := h
      obtain ⟨cs', rfl, h1', h2'⟩ := h'
      rw [chars_sorted_ext h1 h1' (fun c => (h2 c).trans (h2' c).symm)]
  | alt alts => exact h.trans h'.symm

theorem toNat_ofNat {n : Nat} (h : RuneOk n) : (Char.ofNat n).toNat = n := by
  have : n.isValidChar := by
    unfold RuneOk at h
    unfold Nat.isValidChar
    omega
  rw [Char.ofNat, dif_pos this]
  rfl

/-! ## Tokens -/

/-- What the expression of a token goes through and how it is kept. -/
structure TokOf (t : Tok) (e : XExpr) (L : List (List Char)) : Prop where
  choices : Choices t L
  alts : e.alts = L.map utf8
  count : e.count = L.length
  body : e.body = utf8 (renderGlob t.kept)
  notWild : e.typ ≠ .wild

theorem renderGlob_single (t : Tok) : renderGlob [t] = t.render := by simp [renderGlob]

theorem cls_render (es : List ClassElt) :
    utf8 (Tok.sub (.cls es)).render = 91 :: utf8 (es.flatMap ClassElt.render) ++ [93] := by
  simp only [Tok.render, Sub.render, List.cons_append]
  rw [utf8_ascii_cons (by decide), utf8_append]
  rfl

theorem cls_text_ne {es : List ClassElt} (hne : es ≠ []) : utf8 (es.flatMap ClassElt.render) ≠ [] := by
  intro h
  rw [utf8_eq_nil] at h
  cases es with
  | nil => exact hne rfl
  | cons e es => cases e <;> simp [ClassElt.render] at h

/-- A class text of one byte is one ASCII character. -/
theorem cls_one {es : List ClassElt} (hne : es ≠ []) (h1 : (utf8 (es.flatMap ClassElt.render)).length = 1) :
    ∃ c, es = [.one c] ∧ c.toNat < 128 := by
  have hlen : (es.flatMap ClassElt.render).length ≤ 1 := by
    have := length_le_utf8 (es.flatMap ClassElt.render)
    omega
  obtain ⟨c, rfl⟩ : ∃ c, es = [.one c] := by
    cases es with
    | nil => exact absurd rfl hne
    | cons e es =>
      cases e with
      | one c =>
        cases es with
        | nil => exact ⟨c, rfl⟩
        | cons f es => cases f <;> simp [ClassElt.render] at hlen
      | range a b => simp [ClassElt.render] at hlen
  refine ⟨c, rfl, ?_⟩
  have h2 : ((utf8 [c]).length : Int) = runeLen c.toNat := utf8_single_length c
  simp only [List.flatMap_cons, List.flatMap_nil, List.append_nil, ClassElt.render] at h1
  rw [h1] at h2
  unfold runeLen at h2
  split at h2
  · omega
  · split at h2
    · cases h2
    · split at h2
      · cases h2
      · split at h2
        · cases h2
        · split at h2 <;> cases h2

theorem cls_kept {es : List ClassElt} (h1 : ¬ (utf8 (es.flatMap ClassElt.render)).length = 1) :
    (Tok.sub (.cls es)).kept = [.sub (.cls es)] := by
  cases es with
  | nil => rfl
  | cons e es =>
    cases e with
    | range a b => rfl
    | one c =>
      cases es with
      | cons f es => rfl
      | nil =>
        simp only [Tok.kept]
        rw [if_neg]
        intro hc
        apply h1
        simp only [List.flatMap_cons, List.flatMap_nil, List.append_nil, ClassElt.render]
        rw [utf8_ascii_cons hc]
        rfl

/-- The class reader does not fail or come back empty. -/
theorem cls_ranges {es : List ClassElt} (hok : (Tok.sub (.cls es)).Ok) :
    ∃ l, xRunesExpand (utf8 (es.flatMap ClassElt.render)) = some (xOf l) ∧ ¬ (xOf l).length = 0 ∧
      (∀ n, InRanges l n ↔ ClassMem es n) ∧ l.Pairwise (fun a b => a.last + 1 < b.first) ∧
      ∀ r ∈ l, r.first ≤ r.last := by
  obtain ⟨hne, hes, h0, _⟩ := hok
  obtain ⟨l, hl, hm, hsep, hwf⟩ := xRunesExpand_sem es hne hes h0
  refine ⟨l, hl, ?_, hm, hsep, hwf⟩
  have hlne : l ≠ [] := by
    rintro rfl
    cases es with
    | nil => exact hne rfl
    | cons e es =>
      have : ∃ n, ClassMem (e :: es) n := by
        have he := hes e (by simp)
        cases e with
        | one c => exact ⟨c.toNat, .one c, by simp, rfl⟩
        | range a b => exact ⟨a.toNat, .range a b, by simp, Nat.le_refl _, he.2.2.2.2.1⟩
      obtain ⟨n, hn⟩ := this
      obtain ⟨r, hr, _⟩ := (hm n).2 hn
      simp at hr
  simpa [xOf] using hlne

theorem cls_body {es : List ClassElt} (hok : (Tok.sub (.cls es)).Ok) :
    (getExpression (utf8 (Tok.sub (.cls es)).render)).body = utf8 (renderGlob (Tok.sub (.cls es)).kept) ∧
    (getExpression (utf8 (Tok.sub (.cls es)).render)).typ ≠ .wild := by
  rw [cls_render, getExpression_class (cls_text_ne hok.1)]
  by_cases h1 : (utf8 (es.flatMap ClassElt.render)).length = 1
  · rw [if_pos h1]
    obtain ⟨c, rfl, hc⟩ := cls_one hok.1 h1
    refine ⟨?_, by simp⟩
    simp only [Tok.kept]
    rw [if_pos hc, renderGlob_single]
    simp [ClassElt.render, Tok.render, Sub.render]
  · rw [if_neg h1]
    obtain ⟨l, hl, hlen, _⟩ := cls_ranges hok
    rw [hl]
    dsimp only
    rw [if_neg hlen, cls_kept h1, renderGlob_single, cls_render]
    exact ⟨rfl, by simp⟩

theorem tokOf_cls {es : List ClassElt} (hok : (Tok.sub (.cls es)).Ok) (hg : (Tok.sub (.cls es)).noGap) :
    ∃ L, TokOf (.sub (.cls es)) (getExpression (utf8 (Tok.sub (.cls es)).render)) L := by
  have hbody := cls_body hok
  rw [cls_render, getExpression_class (cls_text_ne hok.1)] at hbody ⊢
  by_cases h1 : (utf8 (es.flatMap ClassElt.render)).length = 1
  · rw [if_pos h1] at hbody ⊢
    obtain ⟨c, rfl, hc⟩ := cls_one hok.1 h1
    refine ⟨[[c]], ?_, ?_, ?_, hbody.1, hbody.2⟩
    · refine ⟨[c], rfl, by simp, ?_⟩
      intro d
      simp only [List.mem_singleton, ClassMem, exists_eq_left, ClassElt.Mem]
      constructor
      · intro h; rw [h]
      · exact Char.toNat_val_inj
    · simp [XExpr.alts, ClassElt.render]
    · simp [XExpr.count]
  · rw [if_neg h1] at hbody ⊢
    obtain ⟨l, hl, hlen, hm, hsep, hwf⟩ := cls_ranges hok
    have hgap : ∀ n, InRanges l n → n ≠ runeError ∧ RuneOk n := by
      intro n hn
      obtain ⟨h2, h3⟩ := hg n ((hm n).1 hn)
      refine ⟨h2, ?_⟩
      obtain ⟨e, he, hmem⟩ := (hm n).1 hn
      have : n ≤ 0x10FFFF := by
        cases e with
        | one c =>
          simp only [ClassElt.Mem] at hmem
          have := Char.runeOk c
          unfold RuneOk at this
          omega
        | range a b =>
          simp only [ClassElt.Mem] at hmem
          have := Char.runeOk b
          unfold RuneOk at this
          omega
      unfold RuneOk
      omega
    rw [hl] at hbody ⊢
    dsimp only at hbody ⊢
    rw [if_neg hlen] at hbody ⊢
    have hcodes : ∀ n ∈ codesOf l, RuneOk n := fun n hn => (hgap n ((mem_codesOf hwf).1 hn)).2
    refine ⟨((codesOf l).map Char.ofNat).map (fun c => [c]), ?_, ?_, ?_, hbody.1, hbody.2⟩
    · refine ⟨_, rfl, ?_, ?_⟩
      · rw [List.pairwise_map]
        refine (codesOf_sorted hsep hwf).imp_of_mem ?_
        intro a b ha hb hab
        rw [toNat_ofNat (hcodes a ha), toNat_ofNat (hcodes b hb)]
        exact hab
      · intro c
        rw [← hm, ← mem_codesOf hwf]
        simp only [List.mem_map]
        constructor
        · rintro ⟨n, hn, rfl⟩
          rw [toNat_ofNat (hcodes n hn)]
          exact hn
        · intro h
          exact ⟨_, h, Char.toNat_val_inj (toNat_ofNat (hcodes _ h))⟩
    · simp only [XExpr.alts]
      rw [rangesAlts_codes (fun n hn => (hgap n hn).1), List.map_map, List.map_map]
      apply List.map_congr_left
      intro n hn
      simp [utf8, toNat_ofNat (hcodes n hn)]
    · simp only [XExpr.count]
      rw [runesCount_xOf, rangesCount_codes hwf]
      simp

theorem tokOf_alt {alts : List (List Sub)} (hok : (Tok.alt alts).Ok) (hp : plainAlts alts = true) :
    TokOf (.alt alts) (getExpression (utf8 (Tok.alt alts).render)) (alts.map renderSubs) := by
  obtain ⟨hne, hall, _⟩ := hok
  have hr : utf8 (Tok.alt alts).render = 123 :: utf8 (renderAlts alts) ++ [125] := by
    simp only [Tok.render, List.cons_append]
    rw [utf8_ascii_cons (by decide), utf8_append]
    rfl
  have hcomma : ∀ a ∈ alts, (44 : UInt8) ∉ utf8 (renderSubs a) := by
    intro a ha h
    rw [mem_utf8_ascii (by decide)] at h
    obtain ⟨c, hc, e⟩ := h
    have hc' : c = ',' := Char.toNat_val_inj (by rw [e]; rfl)
    subst hc'
    obtain ⟨cs, rfl⟩ := (plainAlts_iff alts).1 hp a ha
    simp only [renderSubs, List.mem_flatMap] at hc
    obtain ⟨s, hs1, hs2⟩ := hc
    have h1 := hall _ ha s hs1
    obtain ⟨d, _, rfl⟩ := List.mem_map.1 hs1
    simp only [Sub.render, List.mem_singleton] at hs2
    subst hs2
    exact h1.2.2 rfl rfl
  rw [hr]
  match alts, hne with
  | [a], _ =>
    have he : getExpression (123 :: utf8 (renderAlts [a]) ++ [125]) = { body := utf8 (renderSubs a) } := by
      by_cases h0 : utf8 (renderSubs a) = []
      · have : utf8 (renderAlts [a]) = [] := h0
        rw [this, h0]
        rfl
      · have hra : renderAlts [a] = renderSubs a := rfl
        rw [hra, getExpression_brace h0, if_neg]
        have := hcomma a (by simp)
        simpa using this
    rw [he]
    refine ⟨rfl, by simp [XExpr.alts], by simp [XExpr.count], ?_, by simp⟩
    simp only [Tok.kept]
    rw [renderGlob_subs]
  | a :: b :: l, _ =>
    have hu := utf8_renderAlts (a :: b :: l)
    have hx : utf8 (renderAlts (a :: b :: l)) ≠ [] := by
      rw [renderAlts]
      simp
    have hmem : (utf8 (renderAlts (a :: b :: l))).contains 44 = true := by
      rw [renderAlts, utf8_append, utf8_ascii_cons (by decide)]
      simp
    rw [getExpression_brace hx, if_pos hmem, hu, splitByte_joinByte (by simp) (by
      intro p hp
      obtain ⟨q, hq, rfl⟩ := List.mem_map.1 hp
      exact hcomma q hq)]
    refine ⟨rfl, by simp [XExpr.alts], by simp [XExpr.count], ?_, by simp⟩
    simp only [Tok.kept]
    rw [renderGlob_single, hr, hu]

theorem tokOf {t : Tok} (hok : t.Ok) (hs : t.simple = true) (hg : t.noGap) : ∃ L, TokOf t (canonTok t) L := by
  cases t with
  | sub s =>
    cases s with
    | lit c =>
      refine ⟨[[c]], rfl, by simp [canonTok, XExpr.alts], by simp [canonTok, XExpr.count], ?_, by simp [canonTok]⟩
      simp [canonTok, Tok.kept, renderGlob, Tok.render, Sub.render]
    | any => cases hs
    | star => cases hs
    | cls es => exact tokOf_cls hok hg
  | alt alts => exact ⟨_, tokOf_alt hok hs⟩

theorem canonTok_body {t : Tok} (hok : t.Ok) (hs : t.simple = true) :
    (canonTok t).body = utf8 (renderGlob t.kept) ∧ (canonTok t).typ ≠ .wild := by
  cases t with
  | sub s =>
    cases s with
    | lit c => simp [canonTok, Tok.kept, renderGlob, Tok.render, Sub.render]
    | any => cases hs
    | star => cases hs
    | cls es => exact cls_body hok
  | alt alts => exact ⟨(tokOf_alt hok hs).body, (tokOf_alt hok hs).notWild⟩

end GoMatcher
