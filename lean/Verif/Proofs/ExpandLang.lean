import Verif.Proofs.ExpandFull
import Verif.Proofs.NodeText

/-! # Expansion and the meaning of globs -/

namespace GoMatcher

/-- A text as tokens. -/
def textToks (a : List Char) : List Tok := (a.map Sub.lit).map Tok.sub

theorem renderGlob_textToks (a : List Char) : renderGlob (textToks a) = a := by
  unfold textToks
  rw [renderGlob_subs]
  unfold renderSubs
  induction a with
  | nil => rfl
  | cons c a ih => simp [Sub.render] at ih ⊢; exact ih

/-- What is known of the tokens that the expansion leaves behind. -/
structure Plain (t : Tok) : Prop where
  ok : t.Ok
  simple : t.simple = true
  star : t.noStarClass

theorem plain_lit {c : Char} (h1 : isSpecial c = false) (h2 : isFF c = false) : Plain (.sub (.lit c)) :=
  ⟨⟨h1, h2, by simp⟩, rfl, trivial⟩

theorem plain_textToks {a : List Char} (h : ∀ c ∈ a, isSpecial c = false ∧ isFF c = false) :
    ∀ t ∈ textToks a, Plain t := by
  intro t ht
  obtain ⟨s, hs, rfl⟩ := List.mem_map.1 ht
  obtain ⟨c, hc, rfl⟩ := List.mem_map.1 hs
  exact plain_lit (h c hc).1 (h c hc).2

/-- A token fits exactly its choices, which are plain text. -/
theorem choices_fits {t : Tok} {L : List (List Char)} (hok : t.Ok) (hs : t.simple = true)
    (hg : t.noGap) (hp : t.plainMembers) (h : Choices t L) :
    (∀ cs, t.Fits cs ↔ cs ∈ L) ∧ ∀ a ∈ L, ∀ c ∈ a, isSpecial c = false ∧ isFF c = false := by
  cases t with
  | sub s =>
    cases s with
    | lit c =>
      subst h
      refine ⟨fun cs => by simp [Tok.Fits, Sub.Fits], ?_⟩
      intro a ha d hd
      simp at ha; subst ha
      simp at hd; subst hd
      exact ⟨hok.1, hok.2.1⟩
    | any => cases hs
    | star => cases hs
    | cls es =>
      obtain ⟨cs, rfl, _, hm⟩ := h
      refine ⟨fun x => ?_, ?_⟩
      · simp only [Tok.Fits, Sub.Fits, List.mem_map]
        constructor
        · rintro ⟨c, rfl, hc⟩; exact ⟨c, (hm c).2 hc, rfl⟩
        · rintro ⟨c, hc, rfl⟩; exact ⟨c, rfl, (hm c).1 hc⟩
      · intro a ha d hd
        obtain ⟨c, hc, rfl⟩ := List.mem_map.1 ha
        simp at hd; subst hd
        have := (hm d).1 hc
        refine ⟨hp d this, ?_⟩
        simp [isFF, (hg _ this).1]
  | alt alts =>
    subst h
    have hpl := (plainAlts_iff alts).1 hs
    refine ⟨fun cs => ?_, ?_⟩
    · simp only [Tok.Fits, List.mem_map]
      constructor
      · rintro ⟨a, ha, h⟩
        obtain ⟨w, rfl⟩ := hpl a ha
        rw [subsFit_lits] at h
        exact ⟨_, ha, by rw [renderSubs_lits, h]⟩
      · rintro ⟨a, ha, h⟩
        obtain ⟨w, rfl⟩ := hpl a ha
        rw [renderSubs_lits] at h
        exact ⟨_, ha, (subsFit_lits _ _).2 h.symm⟩
    · intro a ha c hc
      obtain ⟨w, hw, rfl⟩ := List.mem_map.1 ha
      obtain ⟨ws, rfl⟩ := hpl w hw
      rw [renderSubs_lits] at hc
      have := hok.2.1 _ hw (.lit c) (List.mem_map.2 ⟨c, hc, rfl⟩)
      exact ⟨this.1, this.2.1⟩

theorem fits_single (t : Tok) (cs : List Char) : Fits [t] cs ↔ t.Fits cs := by
  simp only [Fits]
  constructor
  · rintro ⟨a, b, rfl, h, rfl⟩; simpa using h
  · intro h; exact ⟨cs, [], by simp, h, rfl⟩

/-- A token without its superfluous brackets fits the same texts. -/
theorem kept_fits {t : Tok} (hok : t.Ok) (hs : t.simple = true) (hp : t.plainMembers) :
    (∀ cs, Fits t.kept cs ↔ t.Fits cs) ∧ ∀ u ∈ t.kept, Plain u := by
  have hstar : t.noStarClass := by
    cases t with
    | sub s =>
      cases s with
      | cls es =>
        intro h
        have := hp '*' h
        exact absurd this (by decide)
      | lit c => trivial
      | any => trivial
      | star => trivial
    | alt alts =>
      intro a ha s hs'
      obtain ⟨w, rfl⟩ := (plainAlts_iff alts).1 hs a ha
      obtain ⟨c, _, rfl⟩ := List.mem_map.1 hs'
      trivial
  have self : ∀ u ∈ [t], Plain u := by
    intro u hu
    simp only [List.mem_singleton] at hu
    subst hu
    exact ⟨hok, hs, hstar⟩
  unfold Tok.kept
  split
  · rename_i a
    refine ⟨fun cs => ?_, ?_⟩
    · rw [fits_subs]
      simp [Tok.Fits]
    · intro u hu
      obtain ⟨s, hs', rfl⟩ := List.mem_map.1 hu
      obtain ⟨w, hw⟩ := (plainAlts_iff _).1 hs a (by simp)
      rw [hw] at hs'
      obtain ⟨c, hc, rfl⟩ := List.mem_map.1 hs'
      have := hok.2.1 a (by simp) (.lit c) (by rw [hw]; exact hs')
      exact plain_lit this.1 this.2.1
  · rename_i c
    split
    · refine ⟨fun cs => ?_, ?_⟩
      · rw [fits_single]
        simp only [Tok.Fits, Sub.Fits, ClassMem, List.mem_singleton, exists_eq_left, ClassElt.Mem]
        constructor
        · rintro rfl; exact ⟨c, rfl, rfl⟩
        · rintro ⟨d, rfl, h⟩; rw [Char.toNat_val_inj h]
      · intro u hu
        simp only [List.mem_singleton] at hu
        subst hu
        have h1 := hp c ⟨.one c, by simp, rfl⟩
        have h2 := hok.2.1 (.one c) (by simp)
        exact plain_lit h1 (by simp only [isFF]; simpa using h2.2)
    · exact ⟨fun cs => fits_single _ cs, self⟩
  · exact ⟨fun cs => fits_single _ cs, self⟩

/-- Whatever is expanded and whatever is kept: the results together fit the same texts. -/
theorem outs_lang (pre rest : List Tok) (hok : ∀ t ∈ pre, t.Ok) (hs : ∀ t ∈ pre, t.simple = true)
    (hg : ∀ t ∈ pre, t.noGap) (hp : ∀ t ∈ pre, t.plainMembers)
    (hr : rest = [] ∨ ∃ t ts, rest = t :: ts ∧ t.simple = false) (c m d : Int) :
    ∃ O : List (List Tok),
      outs (canon (pre ++ rest)) c m d = O.map (fun o => utf8 (renderGlob (o ++ rest))) ∧
      (∀ o ∈ O, ∀ t ∈ o, Plain t) ∧ ∀ cs, Fits pre cs ↔ ∃ o ∈ O, Fits o cs := by
  induction pre generalizing c m d with
  | nil =>
    refine ⟨[[]], by rw [List.nil_append, (canon_tail hr).2.1]; rfl, by simp, by simp⟩
  | cons t pre ih =>
    obtain ⟨O, h1, h2, h3⟩ := ih (fun x hx => hok x (by simp [hx])) (fun x hx => hs x (by simp [hx]))
      (fun x hx => hg x (by simp [hx])) (fun x hx => hp x (by simp [hx]))
      (nextCount (canonTok t) c m) (nextMax (canonTok t) c m d) (nextDepth (canonTok t) d)
    have hto := hok t (by simp)
    have hts := hs t (by simp)
    have hcan : canon (t :: pre ++ rest) = canonTok t :: canon (pre ++ rest) := by
      rw [List.cons_append, canon, if_pos hts]
    -- replacing the token by any of `T`
    have key : ∀ T : List (List Tok), (∀ o ∈ T, ∀ u ∈ o, Plain u) → (∀ cs, t.Fits cs ↔ ∃ o ∈ T, Fits o cs) →
        (T.map (fun o => utf8 (renderGlob o))).flatMap (fun a => (O.map (fun o => utf8 (renderGlob (o ++ rest)))).map (a ++ ·)) =
          (T.flatMap fun a => O.map fun o => a ++ o).map (fun o => utf8 (renderGlob (o ++ rest))) ∧
        (∀ o ∈ T.flatMap fun a => O.map fun o => a ++ o, ∀ u ∈ o, Plain u) ∧
        ∀ cs, Fits (t :: pre) cs ↔ ∃ o ∈ T.flatMap fun a => O.map fun o => a ++ o, Fits o cs := by
      intro T hT1 hT2
      refine ⟨?_, ?_, ?_⟩
      · rw [List.flatMap_map, List.map_flatMap]
        congr 1
        funext a
        rw [List.map_map, List.map_map]
        apply List.map_congr_left
        intro o _
        simp [renderGlob]
      · intro o ho u hu
        simp only [List.mem_flatMap, List.mem_map] at ho
        obtain ⟨a, ha, b, hb, rfl⟩ := ho
        rcases List.mem_append.1 hu with hu | hu
        · exact hT1 a ha u hu
        · exact h2 b hb u hu
      · intro cs
        simp only [List.mem_flatMap, List.mem_map]
        constructor
        · rintro ⟨x, y, rfl, hx, hy⟩
          obtain ⟨a, ha, hxa⟩ := (hT2 x).1 hx
          obtain ⟨b, hb, hyb⟩ := (h3 y).1 hy
          exact ⟨a ++ b, ⟨a, ha, b, hb, rfl⟩, (fits_append _ _ _).2 ⟨x, y, rfl, hxa, hyb⟩⟩
        · rintro ⟨o, ⟨a, ha, b, hb, rfl⟩, ho⟩
          obtain ⟨x, y, rfl, hxa, hyb⟩ := (fits_append _ _ _).1 ho
          exact ⟨x, y, rfl, (hT2 x).2 ⟨a, ha, hxa⟩, (h3 y).2 ⟨b, hb, hyb⟩⟩
    rw [hcan, outs]
    by_cases hz : nextMax (canonTok t) c m d = 0
    · rw [if_pos hz]
      obtain ⟨k1, k2⟩ := kept_fits hto hts (hp t (by simp))
      obtain ⟨e1, e2, e3⟩ := key [t.kept] (by simpa using k2) (by intro cs; simp [k1])
      refine ⟨_, ?_, e2, e3⟩
      rw [← e1, h1, (canonTok_body hto hts).1]
      simp
    · rw [if_neg hz]
      obtain ⟨L, hL⟩ := tokOf hto hts (hg t (by simp))
      obtain ⟨f1, f2⟩ := choices_fits hto hts (hg t (by simp)) (hp t (by simp)) hL.choices
      obtain ⟨e1, e2, e3⟩ := key (L.map textToks) (by
        intro o ho
        obtain ⟨a, ha, rfl⟩ := List.mem_map.1 ho
        exact plain_textToks (f2 a ha)) (by
        intro cs
        rw [f1]
        constructor
        · intro h; exact ⟨textToks cs, List.mem_map.2 ⟨cs, h, rfl⟩, (fits_lits _ _).2 rfl⟩
        · rintro ⟨o, ho, h⟩
          obtain ⟨a, ha, rfl⟩ := List.mem_map.1 ho
          have := (fits_lits _ _).1 h
          rw [this]; exact ha)
      refine ⟨_, ?_, e2, e3⟩
      rw [← e1, h1, hL.alts, List.map_map]
      congr 1
      apply List.map_congr_left
      intro a _
      simp [renderGlob_textToks]

/-- Restrictions of the matcher are not touched by plain tokens. -/
theorem shape_plain (ex : Bool) (o rest : List Tok) (h : ∀ t ∈ o, t.simple = true) :
    Shape ex .plain (o ++ rest) ↔ Shape ex .plain rest := by
  induction o with
  | nil => exact Iff.rfl
  | cons t o ih =>
    have ih := ih (fun x hx => h x (by simp [hx]))
    have ht := h t (by simp)
    refine Iff.trans ?_ ih
    cases t with
    | sub s =>
      cases s with
      | lit c => exact Iff.rfl
      | any => cases ht
      | star => cases ht
      | cls es => exact Iff.rfl
    | alt alts =>
      have ht' : plainAlts alts = true := ht
      rw [List.cons_append, Shape, if_pos ht']
      simp

theorem maxOk_plain (o rest : List Tok) (h : ∀ t ∈ o, t.simple = true) : MaxOk (o ++ rest) ↔ MaxOk rest := by
  have hno : ∀ t ∈ o, ∀ alts, t = .alt alts → ∀ a ∈ alts, Sub.star ∉ a := by
    intro t ht alts e a ha hst
    have := h t ht
    rw [e] at this
    obtain ⟨w, rfl⟩ := (plainAlts_iff alts).1 this a ha
    simp at hst
  have hno' : ∀ t ∈ o, ¬ (t = .sub .star ∨ ∃ alts, t = .alt alts ∧ ∃ a ∈ alts, a.getLast? = some .star) := by
    rintro t ht (rfl | ⟨alts, e, a, ha, hl⟩)
    · exact absurd (h _ ht) (by decide)
    · exact hno t ht alts e a ha (List.mem_of_getLast? hl)
  unfold MaxOk
  constructor
  · rintro (h1 | ⟨t, ht, h1⟩)
    · exact .inl (fun t ht => h1 t (by simp [ht]))
    · rcases List.mem_append.1 ht with ht | ht
      · exact absurd h1 (hno' t ht)
      · exact .inr ⟨t, ht, h1⟩
  · rintro (h1 | ⟨t, ht, h1⟩)
    · left
      intro t ht
      rcases List.mem_append.1 ht with ht | ht
      · exact hno t ht
      · exact h1 t ht
    · exact .inr ⟨t, by simp [ht], h1⟩

/-- Every glob is a plain part followed by nothing or by a token that is not expanded. -/
theorem split_simple (ts : List Tok) : ∃ pre rest, ts = pre ++ rest ∧ (∀ t ∈ pre, t.simple = true) ∧
    (rest = [] ∨ ∃ t us, rest = t :: us ∧ t.simple = false) := by
  induction ts with
  | nil => exact ⟨[], [], rfl, by simp, .inl rfl⟩
  | cons t ts ih =>
    obtain ⟨pre, rest, rfl, h1, h2⟩ := ih
    cases ht : t.simple with
    | true => exact ⟨t :: pre, rest, rfl, by simpa [ht] using h1, h2⟩
    | false => exact ⟨[], t :: (pre ++ rest), rfl, by simp, .inr ⟨t, _, rfl, ht⟩⟩

end GoMatcher
