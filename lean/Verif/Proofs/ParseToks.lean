import Verif.Proofs.ParseAlt

/-! # The parser on written globs: sequences of tokens -/

namespace GoMatcher

/-- Tokens and the items the parser reads, before merging. -/
inductive RawToks : List Tok → List Item → Prop
  | nil : RawToks [] []
  | chunk {c : List Sub} {it : Item} {ts : List Tok} {raws : List Item} (h : Chunk c it)
      (hr : RawToks ts raws) : RawToks (c.map Tok.sub ++ ts) (it :: raws)
  | skip {alts : List (List Sub)} {ts : List Tok} {raws : List Item} (hne : alts ≠ [])
      (h : ∀ a ∈ alts, a = []) (hr : RawToks ts raws) : RawToks (.alt alts :: ts) raws
  | alt {alts : List (List Sub)} {it : Item} {ts : List Tok} {raws : List Item} (hne : alts ≠ [])
      (h : AltRes alts (some it)) (hr : RawToks ts raws) : RawToks (.alt alts :: ts) (it :: raws)

theorem render_ne_nil (t : Tok) : t.render ≠ [] := by
  match t with
  | .sub (.lit c) => simp [Tok.render, Sub.render]
  | .sub .any => simp [Tok.render, Sub.render]
  | .sub .star => simp [Tok.render, Sub.render]
  | .sub (.cls es) => simp [Tok.render, Sub.render]
  | .alt alts => simp [Tok.render]

theorem Chunk.noGroup {c : List Sub} {it : Item} (h : Chunk c it) : NoGroup it := by
  cases h with
  | lits _ h => exact h.noGroup
  | any => intro _ _ _ h; cases h
  | stars k => intro _ _ _ h; cases h
  | cls h =>
    rcases h.kind with ⟨c, hc⟩ | ⟨rs, rfl, _⟩
    · exact hc.noGroup
    · intro _ _ _ h; cases h

theorem mergeItem_noGroup {x y m : Item} (h : mergeItem x y = some m) : NoGroup m := by
  unfold mergeItem at h
  split at h <;> first | cases h; done | (cases h; intro _ _ _ h; cases h)

theorem parseLoop_raw (fuel : Nat) (ts : List Tok) (st : ParseSt) (hok : ∀ t ∈ ts, t.Ok)
    (ht : parseLoop fuel (utf8 (renderGlob ts)) st ≠ .timeout) :
    ∃ raws, RawToks ts raws ∧ ((∀ alts, .alt alts ∈ ts → plainAlts alts = true) → ∀ x ∈ raws, NoGroup x) ∧
      parseLoop fuel (utf8 (renderGlob ts)) st = .ok (.ok (raws.foldl ParseSt.step st)) := by
  induction fuel generalizing ts st with
  | zero => exact absurd rfl ht
  | succ fuel ih =>
    cases ts with
    | nil => exact ⟨[], .nil, fun _ _ hx => (nomatch hx), rfl⟩
    | cons t ts =>
      cases htx : utf8 (renderGlob (t :: ts)) with
      | nil =>
        rw [utf8_eq_nil, renderGlob_cons] at htx
        exact absurd (List.append_eq_nil_iff.1 htx).1 (render_ne_nil t)
      | cons b s =>
        rw [htx] at ht
        rw [parseLoop] at ht ⊢
        cases fuel with
        | zero => exact absurd rfl ht
        | succ fuel =>
          have hok' : ∀ t ∈ ts, t.Ok := fun x hx => hok x (by simp [hx])
          cases t with
          | sub x =>
            obtain ⟨c, it, ts', e, hch, hstep⟩ := nextItem_sub fuel x ts (hok (.sub x) (by simp)) hok'
            rw [htx] at hstep
            rw [hstep] at ht ⊢
            simp only [R.bind_ok] at ht ⊢
            obtain ⟨raws, hr, hng, he⟩ := ih ts' (st.step it) (by
              intro y hy; exact hok y (by rw [e]; simp [hy])) ht
            refine ⟨it :: raws, by rw [e]; exact .chunk hch hr, fun hp y hy => ?_, he⟩
            rcases List.mem_cons.1 hy with rfl | hy
            · exact hch.noGroup
            · exact hng (fun a ha => hp a (by rw [e]; simp [ha])) y hy
          | alt alts =>
            have htn : nextItem (fuel + 1) (utf8 (renderGlob (.alt alts :: ts))) ≠ .timeout := by
              intro e
              rw [htx] at e
              rw [e] at ht
              exact ht rfl
            have halt := hok (.alt alts) (by simp)
            obtain ⟨r, hres, hstep⟩ := nextItem_alt fuel alts ts halt htn
            rw [htx] at hstep
            rw [hstep] at ht ⊢
            simp only [R.bind_ok] at ht ⊢
            cases r with
            | none =>
              obtain ⟨raws, hr, hng, he⟩ := ih ts st hok' ht
              cases hres with
              | none h => exact ⟨raws, .skip halt.1 h hr, fun hp => hng fun a ha => hp a (by simp [ha]), he⟩
            | some it =>
              obtain ⟨raws, hr, hng, he⟩ := ih ts (st.step it) hok' ht
              refine ⟨it :: raws, .alt halt.1 hres.loose hr, fun hp y hy => ?_, he⟩
              rcases List.mem_cons.1 hy with rfl | hy
              · exact hres.noGroup (hp alts (by simp))
              · exact hng (fun a ha => hp a (by simp [ha])) y hy

/-! ## Meaning and sizes -/

theorem fits_append (a b : List Tok) (cs : List Char) :
    Fits (a ++ b) cs ↔ ∃ u v, cs = u ++ v ∧ Fits a u ∧ Fits b v := by
  induction a generalizing cs with
  | nil =>
    constructor
    · intro h; exact ⟨[], cs, rfl, rfl, h⟩
    · rintro ⟨u, v, rfl, hu, h⟩
      rw [show u = [] from hu]
      exact h
  | cons s a ih =>
    simp only [List.cons_append, Fits]
    constructor
    · rintro ⟨x, y, rfl, hx, hy⟩
      obtain ⟨u, v, rfl, hu, hv⟩ := (ih y).1 hy
      exact ⟨x ++ u, v, by simp, ⟨x, u, rfl, hx, hu⟩, hv⟩
    · rintro ⟨w, v, rfl, ⟨x, u, rfl, hx, hu⟩, hv⟩
      exact ⟨x, u ++ v, by simp, hx, (ih _).2 ⟨u, v, rfl, hu, hv⟩⟩

theorem fits_subs (ss : List Sub) (cs : List Char) : Fits (ss.map .sub) cs ↔ subsFit ss cs := by
  induction ss generalizing cs with
  | nil => exact Iff.rfl
  | cons s ss ih =>
    simp only [List.map_cons, Fits, subsFit, Tok.Fits, ih]

theorem fits_lits (ws cs : List Char) :
    Fits ((ws.map Sub.lit).map Tok.sub) cs ↔ cs = ws := by
  rw [fits_subs, subsFit_lits]

theorem AltRes.sem {alts : List (List Sub)} {it : Item} (hne : alts ≠ [])
    (h : AltRes alts (some it)) (cs : List Char) :
    it.Sem cs ↔ ∃ a ∈ alts, subsFit a cs := by
  cases h with
  | @lit _ ws hw h hl =>
    rw [hl.sem]
    constructor
    · rintro rfl
      obtain ⟨a, ha⟩ := List.exists_mem_of_ne_nil _ hne
      exact ⟨a, ha, by rw [h a ha]; exact (subsFit_lits _ _).2 rfl⟩
    · rintro ⟨a, ha, hf⟩
      rw [h a ha] at hf
      exact (subsFit_lits _ _).1 hf
  | list hp hw hsem h0 hmx hmax h2 => exact hsem cs
  | star hp h =>
    simp only [Item.Sem]
    exact ⟨fun _ => ⟨_, h, subsFit_stars 0 cs⟩, fun _ => Nat.zero_le _⟩
  | group hp h h1 h2 hmn hmn' hinf hfin hnp =>
    simp only [Item.Sem]
    rw [anySem_iff]
    constructor
    · rintro ⟨v, hv, hs⟩
      obtain ⟨a, ha, hav⟩ := h2 v hv
      exact ⟨a, ha, (hav.sem cs).1 hs⟩
    · rintro ⟨a, ha, hs⟩
      obtain ⟨v, hv, hav⟩ := h1 a ha
      exact ⟨v, hv, (hav.sem cs).2 hs⟩

theorem AltRes.litWF {alts : List (List Sub)} {it : Item} (h : AltRes alts (some it)) :
    LitWF it := by
  cases h with
  | lit hw h hl => exact Or.inr ⟨_, hl⟩
  | list => exact Or.inl (nonLit_list _)
  | star => exact Or.inl (nonLit_star _)
  | group => exact Or.inl (nonLit_group _ _ _)

theorem AltRes.min {alts : List (List Sub)} {it : Item} (hne : alts ≠ [])
    (h : AltRes alts (some it)) (cs : List Char) (hs : it.Sem cs) :
    it.minLen ≤ (utf8 cs).length := by
  have hsem := (h.sem hne cs).1 hs
  cases h with
  | lit hw h hl =>
    rw [hl.lens.1, (hl.sem cs).1 hs]
    omega
  | list hp hw hsem h0 hmx hmax h2 =>
    simp only [Item.minLen]
    rcases hs with h | ⟨h, rfl⟩
    · exact hw.min _ h
    · omega
  | star hp h => simp only [Item.minLen]; omega
  | group hp h h1 h2 hmn hmn' hinf hfin hnp =>
    obtain ⟨a, ha, hf⟩ := hsem
    obtain ⟨v, hv, hav⟩ := h1 a ha
    have := hav.min cs hf
    have := hmn v hv
    simp only [Item.minLen]
    omega

theorem RawToks.sem {ts : List Tok} {raws : List Item} (h : RawToks ts raws) (cs : List Char) :
    SeqSem raws cs ↔ Fits ts cs := by
  induction h generalizing cs with
  | nil => exact Iff.rfl
  | chunk h _ ih =>
    rw [fits_append]
    simp only [SeqSem, fits_subs, ih, h.sem]
  | skip hne h _ ih =>
    simp only [Fits, ih, Tok.Fits]
    constructor
    · intro hf
      obtain ⟨a, ha⟩ := List.exists_mem_of_ne_nil _ hne
      exact ⟨[], cs, rfl, ⟨a, ha, by rw [h a ha]; exact rfl⟩, hf⟩
    · rintro ⟨u, v, rfl, ⟨a, ha, hu⟩, hf⟩
      rw [h a ha] at hu
      rw [show u = [] from hu]
      exact hf
  | alt hne h _ ih =>
    simp only [SeqSem, Fits, ih, Tok.Fits, h.sem hne]

theorem RawToks.litWF {ts : List Tok} {raws : List Item} (h : RawToks ts raws) :
    ∀ x ∈ raws, LitWF x := by
  induction h with
  | nil => simp
  | chunk h _ ih =>
    intro x hx
    rcases List.mem_cons.1 hx with rfl | hx
    · exact h.litWF
    · exact ih x hx
  | skip _ _ _ ih => exact ih
  | alt _ h _ ih =>
    intro x hx
    rcases List.mem_cons.1 hx with rfl | hx
    · exact h.litWF
    · exact ih x hx

theorem RawToks.min {ts : List Tok} {raws : List Item} (h : RawToks ts raws) (cs : List Char)
    (hs : SeqSem raws cs) : sumMin raws ≤ (utf8 cs).length := by
  induction h generalizing cs with
  | nil => simp [sumMin]
  | chunk h _ ih =>
    obtain ⟨a, b, rfl, ha, hb⟩ := hs
    have := ih b hb
    have := h.min.2.2 a ha
    rw [utf8_append]
    simp only [sumMin, List.length_append]
    omega
  | skip _ _ _ ih => exact ih cs hs
  | alt hne h _ ih =>
    obtain ⟨a, b, rfl, ha, hb⟩ := hs
    have := ih b hb
    have := h.min hne a ha
    rw [utf8_append]
    simp only [sumMin, List.length_append]
    omega

/-- No star anywhere: sizes add up. -/
theorem RawToks.max_fin {ts : List Tok} {raws : List Item} (h : RawToks ts raws)
    (h1 : .sub .star ∉ ts) (h2 : ∀ alts, .alt alts ∈ ts → ∀ a ∈ alts, .star ∉ a) :
    (∀ x ∈ raws, 0 ≤ x.maxLen) ∧ ∀ cs, SeqSem raws cs → (utf8 cs).length ≤ sumMax raws := by
  induction h with
  | nil =>
    refine ⟨by simp, ?_⟩
    intro cs hs
    rw [show cs = [] from hs]
    simp [sumMax]
  | @chunk c it ts raws h _ ih =>
    obtain ⟨i1, i2⟩ := ih (fun hm => h1 (by simp [hm])) (fun al hm => h2 al (by simp [hm]))
    rcases h.max with ⟨hm, _⟩ | ⟨_, m2, m3⟩
    · exact absurd (List.mem_append_left _ (List.mem_map.2 ⟨_, hm, rfl⟩)) h1
    · refine ⟨?_, ?_⟩
      · intro x hx
        rcases List.mem_cons.1 hx with rfl | hx
        · exact m2
        · exact i1 x hx
      · rintro cs ⟨a, b, rfl, ha, hb⟩
        have := i2 b hb
        have := m3 a ha
        rw [utf8_append]
        simp only [sumMax, List.length_append]
        omega
  | skip _ _ _ ih =>
    exact ih (fun hm => h1 (by simp [hm])) (fun al hm => h2 al (by simp [hm]))
  | @alt alts it ts raws hne h _ ih =>
    obtain ⟨i1, i2⟩ := ih (fun hm => h1 (by simp [hm])) (fun al hm => h2 al (by simp [hm]))
    have hst := h2 alts (by simp)
    have key : 0 ≤ it.maxLen ∧ ∀ cs, it.Sem cs → (utf8 cs).length ≤ it.maxLen := by
      have hsem := h.sem hne
      cases h with
      | lit hw h hl =>
        rw [hl.lens.2]
        refine ⟨by omega, fun cs hs => ?_⟩
        rw [(hl.sem cs).1 hs]
        omega
      | list hp hw hsem' h0 hmx hmax h2 =>
        exact ⟨hmx, fun cs hs => hmax cs ((hsem' cs).1 hs)⟩
      | star hp h => exact absurd (by simp) (hst _ h)
      | group hp h g1 g2 hmn hmn' hinf hfin =>
        have hall : ∀ v ∈ _, 0 ≤ Item.maxLen v := fun v hv => by
          obtain ⟨a, ha, hav⟩ := g2 v hv
          exact (hav.maxFin (hst a ha)).1
        have hb := hfin hall
        refine ⟨?_, ?_⟩
        · obtain ⟨v, hv, _⟩ := hmn'
          have := hb v hv
          have := hall v hv
          simp only [Item.maxLen]
          omega
        · intro cs hs
          obtain ⟨a, ha, hf⟩ := (hsem cs).1 hs
          obtain ⟨v, hv, hav⟩ := g1 a ha
          have := (hav.maxFin (hst a ha)).2 cs hf
          have := hb v hv
          simp only [Item.maxLen]
          omega
    refine ⟨?_, ?_⟩
    · intro x hx
      rcases List.mem_cons.1 hx with rfl | hx
      · exact key.1
      · exact i1 x hx
    · rintro cs ⟨a, b, rfl, ha, hb⟩
      have := i2 b hb
      have := key.2 a ha
      rw [utf8_append]
      simp only [sumMax, List.length_append]
      omega

/-- A star that counts: some item is unbounded. -/
theorem RawToks.max_inf {ts : List Tok} {raws : List Item} (h : RawToks ts raws)
    (hs : ∃ t ∈ ts, t = .sub .star ∨
      ∃ alts, t = .alt alts ∧ ∃ a ∈ alts, a.getLast? = some .star) :
    ∃ x ∈ raws, x.maxLen = -1 := by
  induction h with
  | nil => obtain ⟨t, ht, _⟩ := hs; cases ht
  | @chunk c it ts raws h _ ih =>
    obtain ⟨t, ht, hor⟩ := hs
    rcases List.mem_append.1 ht with ht | ht
    · obtain ⟨s, hs, rfl⟩ := List.mem_map.1 ht
      rcases hor with e | ⟨alts, e, _⟩
      · injection e with e
        subst e
        rcases h.max with ⟨_, rfl⟩ | ⟨hn, _⟩
        · exact ⟨Item.star 0, by simp, rfl⟩
        · exact absurd hs hn
      · cases e
    · obtain ⟨x, hx, e⟩ := ih ⟨t, ht, hor⟩
      exact ⟨x, by simp [hx], e⟩
  | @skip alts ts raws hne h _ ih =>
    obtain ⟨t, ht, hor⟩ := hs
    rcases List.mem_cons.1 ht with rfl | ht
    · rcases hor with e | ⟨alts', e, a, ha, hl⟩
      · cases e
      · injection e with e
        subst e
        rw [h a ha] at hl
        cases hl
    · exact ih ⟨t, ht, hor⟩
  | @alt alts it ts raws hne h _ ih =>
    obtain ⟨t, ht, hor⟩ := hs
    rcases List.mem_cons.1 ht with rfl | ht
    · rcases hor with e | ⟨alts', e, a, ha, hl⟩
      · cases e
      · injection e with e
        subst e
        refine ⟨it, by simp, ?_⟩
        have hm := List.mem_of_getLast? hl
        cases h with
        | lit hw h _ =>
          rw [h a ha] at hm
          simp at hm
        | list hp hw hsem' h0 hmx hmax h2 =>
          obtain ⟨cs, rfl⟩ := (plainAlts_iff alts).1 hp a ha
          simp at hm
        | star hp h => rfl
        | group hp h g1 g2 hmn hmn' hinf hfin =>
          obtain ⟨v, hv, hav⟩ := g1 a ha
          exact hinf ⟨v, hv, hav.maxInf hl⟩
    · obtain ⟨x, hx, e⟩ := ih ⟨t, ht, hor⟩
      exact ⟨x, by simp [hx], e⟩

/-! ## Shapes -/

theorem shape_subs (ex : Bool) (p : Pos) (c : List Sub) (ts : List Tok) :
    Shape ex p (c.map .sub ++ ts) ↔ subsShape ex p c (fun q => Shape ex q ts) := by
  induction c generalizing p with
  | nil => exact Iff.rfl
  | cons s c ih =>
    rw [List.map_cons, List.cons_append]
    cases s with
    | lit d => exact ih .plain
    | any =>
      show (p ≠ .behind ∧ Shape ex p _) ↔ _
      rw [ih]; exact Iff.rfl
    | star =>
      show ((p = .behind → ex = false) ∧ Shape ex _ _) ↔ _
      rw [ih]; exact Iff.rfl
    | cls es => exact ih .plain

theorem subsShape_mono {ex : Bool} {K L : Pos → Prop} (hK : ∀ q, K .behind → L q) (hKL : ∀ q, K q → L q)
    (a : List Sub) (q : Pos) (h : subsShape ex .behind a K) : subsShape ex q a L := by
  have imp : ∀ (a : List Sub) (q : Pos), subsShape ex q a K → subsShape ex q a L := by
    intro a
    induction a with
    | nil => exact hKL
    | cons s a ih =>
      intro q h
      cases s with
      | lit c => exact ih _ h
      | any => exact ⟨h.1, ih _ h.2⟩
      | star => exact ⟨h.1, ih _ h.2⟩
      | cls es => exact ih _ h
  induction a generalizing q with
  | nil => exact hK q h
  | cons s a ih =>
    cases s with
    | lit c => exact imp _ _ h
    | any => exact absurd rfl h.1
    | star =>
      refine ⟨fun _ => h.1 rfl, ih _ ?_⟩
      have := h.2
      rw [if_pos rfl] at this
      exact this
    | cls es => exact imp _ _ h

theorem shape_mono {ex : Bool} (ts : List Tok) (q : Pos) (h : Shape ex .behind ts) :
    Shape ex q ts := by
  induction ts generalizing q with
  | nil => trivial
  | cons t ts ih =>
    cases t with
    | sub s => exact subsShape_mono (fun q h => ih q h) (fun q h => h) [s] q h
    | alt alts =>
      unfold Shape at h ⊢
      by_cases hp : plainAlts alts = true
      · rw [if_pos hp] at h ⊢
        exact ⟨h.1, fun _ => h.2 (by decide)⟩
      · rw [if_neg hp] at h ⊢
        by_cases hs : [Sub.star] ∈ alts
        · rw [if_pos hs] at h ⊢
          exact subsShape_mono (fun q h => ih q h) (fun q h => h) [.star] q h
        · rw [if_neg hs] at h ⊢
          intro a ha
          exact subsShape_mono (fun q h => ih _ h) (fun q h => h) a _ (h a ha)

theorem Chunk.good {ex : Bool} {R : List Item} {c : List Sub} {it : Item} (h : Chunk c it)
    {p : Pos} {K : Pos → Prop} (hs : subsShape ex p c K) {raws : List Item}
    (hK : ∀ q, K q → GoodRaw ex R q raws) : GoodRaw ex R p (it :: raws) := by
  cases h with
  | @lits cs _ hne h =>
    refine .lit h (hK _ ?_)
    cases cs with
    | nil => exact absurd rfl hne
    | cons c cs =>
      have : ∀ (cs : List Char), subsShape ex .plain (cs.map .lit) K → K .plain := by
        intro cs
        induction cs with
        | nil => exact id
        | cons c cs ih => exact ih
      exact this cs hs
  | any => exact .any hs.1 (hK _ hs.2)
  | stars k =>
    have hs' : (p = .behind → ex = false) ∧
        subsShape ex (if p = .behind then .behind else .after) (List.replicate k .star) K := hs
    refine .star hs'.1 (hK _ ?_)
    have : ∀ (k : Nat) (q : Pos), q ≠ .plain → subsShape ex q (List.replicate k .star) K → K q := by
      intro k
      induction k with
      | zero => intro q _ h; exact h
      | succ k ih =>
        intro q hq h
        rw [List.replicate_succ] at h
        have h2 := h.2
        cases q with
        | plain => exact absurd rfl hq
        | after => exact ih .after (by decide) h2
        | behind => exact ih .behind (by decide) h2
    refine this k _ ?_ hs'.2
    split <;> decide
  | cls h =>
    rcases h.kind with ⟨c, hc⟩ | hr
    · exact .lit hc (hK _ hs)
    · exact .ranges hr (hK _ hs)

theorem RawSubs.good {ex : Bool} {R : List Item} {a : List Sub} {raws : List Item}
    (h : RawSubs a raws) {p : Pos} {K : Pos → Prop} (hs : subsShape ex p a K)
    (hK : ∀ q, K q → Fine ex q.flag R) : GoodRaw ex R p raws := by
  induction h generalizing p with
  | nil => exact .nil (hK p hs)
  | @cons c it ss raws h _ ih =>
    have happ : ∀ (c : List Sub) (p : Pos), subsShape ex p (c ++ ss) K →
        subsShape ex p c (fun q => subsShape ex q ss K) := by
      intro c
      induction c with
      | nil => intro p h; exact h
      | cons s c ih =>
        intro p h
        cases s with
        | lit d => exact ih _ h
        | any => exact ⟨h.1, ih _ h.2⟩
        | star => exact ⟨h.1, ih _ h.2⟩
        | cls es => exact ih _ h
    exact h.good (happ c p hs) (fun q hq => ih hq)

theorem startsStar_raw {ts : List Tok} {raws : List Item} (h : RawToks ts raws)
    (hs : startsStar ts = true) : rawStar raws = true := by
  induction h with
  | nil => cases hs
  | @chunk c it ts raws h _ ih =>
    cases h with
    | @lits cs _ hne h =>
      cases cs with
      | nil => exact absurd rfl hne
      | cons d cs => cases hs
    | any => exact ih hs
    | stars k => rfl
    | cls h => cases hs
  | skip hne h _ ih => cases hs
  | alt hne h _ ih => cases hs

/-- Nothing but literals left, but the last token is none: nothing is left. -/
theorem allLit_last {ts : List Tok}
    (hlast : ∀ init c, ts ≠ init ++ [.sub (.lit c)])
    (h : (ts.all fun t => match t with | .sub (.lit _) => true | _ => false) = true) : ts = [] := by
  rcases List.eq_nil_or_concat ts with e | ⟨init, t, e⟩
  · exact e
  · exfalso
    rw [List.concat_eq_append] at e
    rw [e, List.all_append] at h
    simp only [List.all_cons, List.all_nil, Bool.and_true, Bool.and_eq_true] at h
    have h2 := h.2
    match t, h2, e with
    | .sub (.lit c), _, e => exact hlast init c e
    | .sub .any, h2, _ => cases h2
    | .sub .star, h2, _ => cases h2
    | .sub (.cls _), h2, _ => cases h2
    | .alt _, h2, _ => cases h2

/-- Words satisfy the restrictions on groups when they satisfy those on lists. -/
theorem subsShape_words {ex : Bool} {p : Pos} {alts : List (List Sub)} {ts : List Tok} {w : List Char}
    {A : Prop} (hs : Shape ex .plain ts ∧ (p ≠ .plain → A ∧ ([] ∈ alts → Shape ex .behind ts)))
    (ha : w.map Sub.lit ∈ alts) :
    subsShape ex p.cross (w.map .lit) (fun q => Shape ex q.cross ts) := by
  cases w with
  | nil =>
    cases p with
    | plain => exact hs.1
    | after => exact (hs.2 (by decide)).2 ha
    | behind => exact (hs.2 (by decide)).2 ha
  | cons c w =>
    have : ∀ w : List Char, subsShape ex .plain (w.map .lit) (fun q => Shape ex q.cross ts) := by
      intro w
      induction w with
      | nil => exact hs.1
      | cons c w ih => exact ih
    exact this w

theorem RawToks.good {ex : Bool} {ts : List Tok} {raws : List Item} (h : RawToks ts raws)
    {p : Pos} (hs : Shape ex p ts) (hlast : (∀ init c, ts ≠ init ++ [.sub (.lit c)]) ∨ ∀ t ∈ ts, ∃ s, t = .sub s) :
    GoodRaw ex [] p raws := by
  induction h generalizing p with
  | nil => exact .nil ⟨.nil _, .nil _⟩
  | @chunk c it ts raws h _ ih =>
    have hl' : (∀ init c, ts ≠ init ++ [.sub (.lit c)]) ∨ ∀ t ∈ ts, ∃ s, t = .sub s := by
      rcases hlast with hlast | hlast
      · left
        intro init d e
        exact hlast (c.map .sub ++ init) d (by rw [e]; simp)
      · right
        intro t ht
        exact hlast t (by simp [ht])
    exact h.good ((shape_subs ex p c ts).1 hs) (fun q hq => ih hq hl')
  | @skip alts ts raws hne h _ ih =>
    have hlast := hlast.resolve_right (fun h => by
      obtain ⟨s, hs⟩ := h (.alt alts) (by simp)
      cases hs)
    have hl' : (∀ init c, ts ≠ init ++ [.sub (.lit c)]) ∨ ∀ t ∈ ts, ∃ s, t = .sub s := by
      left
      intro init d e
      exact hlast (.alt alts :: init) d (by rw [e]; simp)
    have hp : plainAlts alts = true := by
      rw [plainAlts_iff]
      intro a ha
      exact ⟨[], by rw [h a ha]; rfl⟩
    unfold Shape at hs
    rw [if_pos hp] at hs
    have hmem : [] ∈ alts := by
      obtain ⟨a, ha⟩ := List.exists_mem_of_ne_nil _ hne
      rw [h a ha] at ha
      exact ha
    by_cases hpp : p = .plain
    · subst hpp; exact ih hs.1 hl'
    · exact ih (shape_mono ts p ((hs.2 hpp).2 hmem)) hl'
  | @alt alts it ts raws hne h hr ih =>
    have hlast := hlast.resolve_right (fun h => by
      obtain ⟨s, hs⟩ := h (.alt alts) (by simp)
      cases hs)
    have hl'' : ∀ init c, ts ≠ init ++ [.sub (.lit c)] := by
      intro init d e
      exact hlast (.alt alts :: init) d (by rw [e]; simp)
    have hl' := Or.inl (b := ∀ t ∈ ts, ∃ s, t = .sub s) hl''
    have toFine : ∀ q : Pos, Shape ex q.cross ts → Fine ex q.flag (norm raws) := by
      intro q hq
      have h1 := ih hq hl'
      have hne : q.cross ≠ .after := by cases q <;> decide
      have h2 := h1.fineP hne
      rw [List.append_nil, Pos.flag_cross] at h2
      exact h2
    unfold Shape at hs
    cases h with
    | lit hw h hl =>
      have hp : plainAlts alts = true := by
        rw [plainAlts_iff]
        intro a ha
        exact ⟨_, h a ha⟩
      rw [if_pos hp] at hs
      exact .lit hl (ih hs.1 hl')
    | list hp hw hsem h0 hmx hmax hmin h2 =>
      rw [if_pos hp] at hs
      have pne : p.flag = true → p ≠ .plain := by rintro h rfl; cases h
      refine .list hw ?_ (ih hs.1 hl') ?_
      · intro hf he
        rcases (hs.2 (pne hf)).1 he with h | h
        · exact absurd h h2
        · right
          unfold endsOrStar at h
          rw [Bool.or_eq_true] at h
          rcases h with h | h
          · exact Or.inr (startsStar_raw hr h)
          · left
            have := allLit_last hl'' h
            subst this
            refine ⟨?_, rfl⟩
            generalize hts : ([] : List Tok) = ts' at hr
            cases hr with
            | nil => rfl
            | chunk h _ =>
              have := h.ne_nil
              simp [this] at hts
            | skip => cases hts
            | alt => cases hts
      · intro hf hz
        exact ih ((hs.2 (pne hf)).2 (h0 hz)) hl'
    | star hp h =>
      rw [if_neg (by simp [hp]), if_pos h] at hs
      exact (Chunk.stars 0).good hs (fun q hq => ih hq hl')
    | group hp h h1 h2 hmn hmn' hinf hfin hnp =>
      rename_i vals mn mx
      replace hs : ∀ a ∈ alts, subsShape ex p.cross a (fun q => Shape ex q.cross ts) := by
        by_cases hpl : plainAlts alts = true
        · rw [if_pos hpl] at hs
          intro a ha
          obtain ⟨w, rfl⟩ := (plainAlts_iff alts).1 hpl a ha
          exact subsShape_words hs ha
        · rw [if_neg hpl, if_neg h] at hs
          exact hs
      have hwf : GroupWF vals mn := by
        constructor
        · intro cs hcs
          obtain ⟨v, hv, hsv⟩ := (anySem_iff _ _).1 hcs
          obtain ⟨a, ha, hav⟩ := h2 v hv
          have := hmn v hv
          have := hav.min cs ((hav.sem cs).1 hsv)
          omega
        · intro h0
          obtain ⟨v, hv, e⟩ := hmn'
          obtain ⟨a, ha, hav⟩ := h2 v hv
          refine (anySem_iff _ _).2 ⟨v, hv, (hav.sem []).2 ?_⟩
          have hall := hav.zero (by omega)
          clear hav ha
          induction a with
          | nil => rfl
          | cons s a ih =>
            rw [hall s (by simp)]
            exact ⟨[], [], rfl, trivial, ih (fun x hx => hall x (by simp [hx]))⟩
      refine .group hwf (fun v hv => ?_) (fun v hv => ?_) (fun h0 => ?_)
      · obtain ⟨a, ha, hav⟩ := h2 v hv
        exact hav.ne_nil
      · obtain ⟨a, ha, hav⟩ := h2 v hv
        obtain ⟨vr, hvr, hg⟩ := hav.raw
        rw [hg, List.append_nil]
        have hcr : p.cross ≠ .after := by cases p <;> decide
        have hgood : GoodRaw ex (norm raws) p.cross vr := by
          rcases hvr with ⟨hvr, _⟩ | ⟨rfl, rfl⟩
          · exact hvr.good (hs a ha) toFine
          · refine .lit (ws := []) rfl (.nil ?_)
            have hk := toFine p.cross (hs [] ha)
            have : p.cross.flag = true ∨ p.cross.flag = false := by cases p <;> simp [Pos.cross, Pos.flag]
            rcases this with e | e
            · rw [e] at hk; exact hk.of_false
            · rw [e] at hk; exact hk
        have := hgood.fineP hcr
        rw [Pos.flag_cross] at this
        exact this
      · rw [List.append_nil]
        obtain ⟨v, hv, e⟩ := hmn'
        obtain ⟨a, ha, hav⟩ := h2 v hv
        have hall := hav.zero (by omega)
        have hsa := hs a ha
        -- only stars: the continuation is checked at a place at least as strict
        have key : ∀ (a : List Sub) (q : Pos), (∀ s ∈ a, s = .star) →
            subsShape ex q a (fun q => Shape ex q.cross ts) → Fine ex q.flag (norm raws) := by
          intro a
          induction a with
          | nil => intro q _ h; exact toFine q h
          | cons s a ih =>
            intro q hst h
            rw [hst s (by simp)] at h
            have h' := ih _ (fun x hx => hst x (by simp [hx])) h.2
            cases q with
            | plain => exact Fine.of_false h'
            | after => exact h'
            | behind => exact h'
        have := key a p.cross hall hsa
        rw [Pos.flag_cross] at this
        exact this

end GoMatcher
