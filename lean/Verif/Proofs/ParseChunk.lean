import Verif.Proofs.ParseClass

/-! # The parser on written globs: one step -/

namespace GoMatcher

/-- A run of simple tokens that the parser reads as one item. -/
inductive Chunk : List Sub → Item → Prop
  | lits {cs : List Char} {it : Item} (hne : cs ≠ []) (h : IsLit it cs) :
      Chunk (cs.map Sub.lit) it
  | any : Chunk [.any] (.any 1)
  | stars (k : Nat) : Chunk (List.replicate (k + 1) .star) (.star 0)
  | cls {es : List ClassElt} {it : Item} (h : ClsItem es it) : Chunk [.cls es] it

theorem Chunk.ne_nil {c : List Sub} {it : Item} (h : Chunk c it) : c ≠ [] := by
  cases h with
  | lits hne _ => simpa using hne
  | any => simp
  | stars k => simp [List.replicate_succ]
  | cls _ => simp

theorem Sub.Ok.weaken {b : Bool} {s : Sub} (h : s.Ok b) : s.Ok false := by
  cases s with
  | lit c => exact ⟨h.1, h.2.1, by simp⟩
  | any => trivial
  | star => trivial
  | cls es => exact ⟨h.1, h.2.1, h.2.2.1, fun c hc => ⟨(h.2.2.2 c hc).1, by simp⟩⟩

theorem renderGlob_cons (t : Tok) (ts : List Tok) :
    renderGlob (t :: ts) = t.render ++ renderGlob ts := rfl

theorem renderGlob_append (a b : List Tok) :
    renderGlob (a ++ b) = renderGlob a ++ renderGlob b := by simp [renderGlob]

theorem renderGlob_subs (ss : List Sub) : renderGlob (ss.map .sub) = renderSubs ss := by
  unfold renderGlob renderSubs
  rw [List.flatMap_map]
  rfl

theorem renderSubs_lits (cs : List Char) : renderSubs (cs.map .lit) = cs := by
  unfold renderSubs
  rw [List.flatMap_map]
  simp [Sub.render]

theorem renderSubs_stars (k : Nat) :
    renderSubs (List.replicate k .star) = List.replicate k '*' := by
  induction k with
  | zero => rfl
  | succ k ih =>
    rw [List.replicate_succ, List.replicate_succ, ← ih]
    rfl

/-- Leading literals. -/
theorem litRun (ts : List Tok) : ∃ (cs : List Char) (ts' : List Tok),
    ts = (cs.map Sub.lit).map Tok.sub ++ ts' ∧ ∀ c t, ts' ≠ .sub (.lit c) :: t := by
  induction ts with
  | nil => exact ⟨[], [], rfl, by simp⟩
  | cons t ts ih =>
    obtain ⟨cs, ts', e, h⟩ := ih
    match t with
    | .sub (.lit c) => exact ⟨c :: cs, ts', by simp [e], h⟩
    | .sub .any => exact ⟨[], _, rfl, by simp⟩
    | .sub .star => exact ⟨[], _, rfl, by simp⟩
    | .sub (.cls es) => exact ⟨[], _, rfl, by simp⟩
    | .alt alts => exact ⟨[], _, rfl, by simp⟩

/-- Leading stars. -/
theorem starRun (ts : List Tok) : ∃ (k : Nat) (ts' : List Tok),
    ts = (List.replicate k Sub.star).map Tok.sub ++ ts' ∧ ∀ t, ts' ≠ .sub .star :: t := by
  induction ts with
  | nil => exact ⟨0, [], rfl, by simp⟩
  | cons t ts ih =>
    obtain ⟨k, ts', e, h⟩ := ih
    match t with
    | .sub .star => exact ⟨k + 1, ts', by simp [e, List.replicate_succ], h⟩
    | .sub (.lit c) => exact ⟨0, _, rfl, by simp⟩
    | .sub .any => exact ⟨0, _, rfl, by simp⟩
    | .sub (.cls es) => exact ⟨0, _, rfl, by simp⟩
    | .alt alts => exact ⟨0, _, rfl, by simp⟩

/-- The first character of a token that is no literal. -/
theorem render_special {t : Tok} (h : ∀ c, t ≠ .sub (.lit c)) :
    ∃ c r, t.render = c :: r ∧ isSpecial c = true := by
  match t with
  | .sub (.lit c) => exact absurd rfl (h c)
  | .sub .any => exact ⟨'?', [], rfl, by decide⟩
  | .sub .star => exact ⟨'*', [], rfl, by decide⟩
  | .sub (.cls es) => exact ⟨'[', _, rfl, by decide⟩
  | .alt alts => exact ⟨'{', _, rfl, by decide⟩

/-- The first character of a token. -/
theorem render_head {t : Tok} (hok : t.Ok) :
    ∃ c r, t.render = c :: r ∧ (c = '*' → t = .sub .star) := by
  match t, hok with
  | .sub (.lit c), hok =>
    refine ⟨c, [], rfl, ?_⟩
    rintro rfl
    have := hok.1
    revert this
    decide
  | .sub .any, _ => exact ⟨'?', [], rfl, by decide⟩
  | .sub .star, _ => exact ⟨'*', [], rfl, fun _ => rfl⟩
  | .sub (.cls es), _ => exact ⟨'[', _, rfl, fun h => absurd h (by decide)⟩
  | .alt alts, _ => exact ⟨'{', _, rfl, fun h => absurd h (by decide)⟩

theorem utf8_ascii_cons {c : Char} (h : c.toNat < 128) (cs : List Char) :
    utf8 (c :: cs) = UInt8.ofNat c.toNat :: utf8 cs := by
  rw [utf8_cons, encodeRune_ascii h]; rfl

/-! ## Skipping stars -/

theorem find_skip (k : Nat) (r : List Char) (f i : Nat)
    (hf : (utf8 (List.replicate k '*' ++ r)).length ≤ f)
    (hr : ∀ t, r ≠ '*' :: t) :
    (rangeStr.go f i (utf8 (List.replicate k '*' ++ r))).find? (fun p => p.2 ≠ 42) =
      match r with
      | [] => none
      | c :: _ => some (i + k, c.toNat) := by
  induction k generalizing f i with
  | zero =>
    simp only [List.replicate_zero, List.nil_append] at hf ⊢
    cases r with
    | nil => cases f <;> simp [rangeStr.go]
    | cons c r =>
      have hne := utf8_cons_ne_nil c r
      have hl : 0 < (utf8 (c :: r)).length := List.length_pos_iff.2 hne
      cases f with
      | zero => omega
      | succ f =>
        have hd := decodeRune_utf8_cons c r
        cases hs : utf8 (c :: r) with
        | nil => exact absurd hs hne
        | cons b t =>
          rw [hs] at hd
          simp only [rangeStr.go, hd]
          rw [List.find?_cons_of_pos]
          · rfl
          · simp only [ne_eq, decide_eq_true_eq]
            intro e
            exact hr r (by rw [Char.toNat_val_inj (c := c) (d := '*') e])
  | succ k ih =>
    have e : List.replicate (k + 1) '*' ++ r = '*' :: (List.replicate k '*' ++ r) := by
      rw [List.replicate_succ]; rfl
    rw [e] at hf ⊢
    have hd := decodeRune_utf8_cons '*' (List.replicate k '*' ++ r)
    have hdrop := drop_utf8_cons '*' (List.replicate k '*' ++ r)
    have hu := utf8_ascii_cons (c := '*') (by decide) (List.replicate k '*' ++ r)
    cases f with
    | zero => rw [hu] at hf; simp at hf
    | succ f =>
      rw [hu] at hf hd hdrop ⊢
      simp only [rangeStr.go, hd]
      rw [List.find?_cons_of_neg (by simp), hdrop, ih]
      · cases r with
        | nil => rfl
        | cons c r =>
          have : (encodeRune '*'.toNat).length = 1 := by decide
          simp only [this]
          congr 2
          omega
      · simp only [List.length_cons] at hf
        omega

theorem utf8_replicate_star_length (k : Nat) : (utf8 (List.replicate k '*')).length = k := by
  induction k with
  | zero => rfl
  | succ k ih =>
    rw [List.replicate_succ, utf8_ascii_cons (by decide)]
    simp [ih]

theorem skipStars_run (k : Nat) (r : List Char) (hr : ∀ t, r ≠ '*' :: t) :
    skipStars (utf8 (List.replicate k '*' ++ r)) = .ok (utf8 r) := by
  unfold skipStars rangeStr
  rw [find_skip k r _ 0 (Nat.le_refl _) hr]
  cases r with
  | nil => rfl
  | cons c r =>
    dsimp only
    have h1 := utf8_replicate_star_length k
    unfold sliceFrom
    rw [if_pos (by rw [utf8_append]; simp; omega)]
    have h2 : 0 + k = (utf8 (List.replicate k '*')).length := by omega
    rw [utf8_append, h2, List.drop_left]

/-! ## One step of the parser -/

theorem nextItem_sub (fuel : Nat) (s : Sub) (ts : List Tok) (hs : s.Ok false)
    (hok : ∀ t ∈ ts, t.Ok) :
    ∃ c it ts', .sub s :: ts = c.map Tok.sub ++ ts' ∧ Chunk c it ∧
      nextItem (fuel + 1) (utf8 (renderGlob (.sub s :: ts))) =
        .ok (.ok (some it, utf8 (renderGlob ts'))) := by
  cases s with
  | lit c =>
    obtain ⟨cs, ts', e, hne⟩ := litRun ts
    have hok' : ∀ d ∈ c :: cs, isSpecial d = false ∧ isFF d = false := by
      intro d hd
      rcases List.mem_cons.1 hd with rfl | hd
      · exact ⟨hs.1, hs.2.1⟩
      · have := hok (.sub (.lit d)) (by rw [e]; simp [hd])
        exact ⟨this.1, this.2.1⟩
    have hren : renderGlob (.sub (.lit c) :: ts) = (c :: cs) ++ renderGlob ts' := by
      rw [renderGlob_cons, e, renderGlob_append, renderGlob_subs, renderSubs_lits]
      rfl
    have hnw := no_wild (cs := c :: cs) (fun d hd => (hok' d hd).1)
    rw [hren]
    have hgen : .sub (.lit c) :: ts = ((c :: cs).map Sub.lit).map Tok.sub ++ ts' := by
      rw [e]; rfl
    obtain ⟨b, t, hbt⟩ : ∃ b t, utf8 (c :: cs) = b :: t := by
      cases h : utf8 (c :: cs) with
      | nil => exact absurd h (utf8_cons_ne_nil _ _)
      | cons b t => exact ⟨b, t, rfl⟩
    have hb : isWild b = false := hnw b (by rw [hbt]; simp)
    have hbs : b ≠ 91 ∧ b ≠ 123 ∧ b ≠ 42 ∧ b ≠ 63 ∧ ¬ (b = 93 || b = 125) = true := by
      refine ⟨?_, ?_, ?_, ?_, ?_⟩
      · rintro rfl; exact absurd hb (by decide)
      · rintro rfl; exact absurd hb (by decide)
      · rintro rfl; exact absurd hb (by decide)
      · rintro rfl; exact absurd hb (by decide)
      · intro h
        simp only [Bool.or_eq_true, decide_eq_true_eq] at h
        rcases h with rfl | rfl <;> exact absurd hb (by decide)
    have hu : utf8 (c :: cs ++ renderGlob ts') = b :: (t ++ utf8 (renderGlob ts')) := by
      rw [utf8_append, hbt]; rfl
    have hstep : nextItem (fuel + 1) (utf8 (c :: cs ++ renderGlob ts')) =
        match indexWildcard (utf8 (c :: cs ++ renderGlob ts')) with
        | none => .ok (.ok (some (.str (utf8 (c :: cs ++ renderGlob ts'))), []))
        | some n => (do
          let v ← sliceTo (utf8 (c :: cs ++ renderGlob ts')) n
          let next ← sliceFrom (utf8 (c :: cs ++ renderGlob ts')) n
          .ok (.ok (some (literalItem v), next)) : R (Except GErr (Option Item × Str))) := by
      rw [hu, nextItem]
      dsimp only
      rw [if_neg hbs.1, if_neg hbs.2.1, if_neg hbs.2.2.1, if_neg hbs.2.2.2.1,
        if_neg hbs.2.2.2.2]
      rfl
    rw [hstep]
    cases ts' with
    | nil =>
      have hi : indexWildcard (utf8 (c :: cs ++ renderGlob [])) = none := by
        unfold indexWildcard
        rw [indexP_none]
        simpa [renderGlob] using hnw
      rw [hi]
      refine ⟨_, _, [], hgen, Chunk.lits (it := .str (utf8 (c :: cs))) (by simp) rfl, ?_⟩
      simp [renderGlob]
    | cons t' ts' =>
      obtain ⟨d, r, hd, hsp⟩ := render_special (t := t') (fun c' e' => hne c' ts' (by rw [e']))
      obtain ⟨b', hb', hw'⟩ := isWild_of_special hsp
      have hu2 : utf8 (c :: cs ++ renderGlob (t' :: ts')) =
          utf8 (c :: cs) ++ b' :: utf8 (r ++ renderGlob ts') := by
        rw [utf8_append, renderGlob_cons, hd, List.cons_append,
          show d :: (r ++ renderGlob ts') = [d] ++ (r ++ renderGlob ts') from rfl,
          utf8_append [d], hb']
        rfl
      have hi : indexWildcard (utf8 (c :: cs ++ renderGlob (t' :: ts'))) =
          some (utf8 (c :: cs)).length := by
        rw [hu2]; exact indexP_append hnw hw'
      rw [hi]
      dsimp only
      rw [sliceTo, if_pos (by rw [utf8_append]; simp), sliceFrom,
        if_pos (by rw [utf8_append]; simp)]
      simp only [R.bind_ok]
      rw [utf8_append, List.take_left, List.drop_left]
      exact ⟨_, _, t' :: ts', hgen,
        Chunk.lits (by simp) (literalItem_isLit (by simp) (fun d hd => (hok' d hd).2)), rfl⟩
  | any =>
    refine ⟨_, _, ts, rfl, Chunk.any, ?_⟩
    have hu : utf8 (renderGlob (.sub .any :: ts)) = 63 :: utf8 (renderGlob ts) := rfl
    rw [hu, nextItem]
    rfl
  | star =>
    obtain ⟨k, ts', e, hne⟩ := starRun ts
    have hr : ∀ t, renderGlob ts' ≠ '*' :: t := by
      intro t ht
      cases ts' with
      | nil => simp [renderGlob] at ht
      | cons t' ts' =>
        obtain ⟨d, r, hd, hst⟩ := render_head (hok t' (by rw [e]; simp))
        rw [renderGlob_cons, hd, List.cons_append] at ht
        injection ht with h1 _
        exact hne ts' (by rw [hst h1])
    have hren : renderGlob (.sub .star :: ts) = List.replicate (k + 1) '*' ++ renderGlob ts' := by
      rw [renderGlob_cons, e, renderGlob_append, renderGlob_subs, renderSubs_stars,
        List.replicate_succ]
      rfl
    have hu : utf8 (renderGlob (.sub .star :: ts)) = 42 :: utf8 (renderGlob ts) := rfl
    have hsk := skipStars_run (k + 1) (renderGlob ts') hr
    rw [← hren, hu] at hsk
    refine ⟨_, _, ts', ?_, Chunk.stars k, ?_⟩
    · rw [e, List.replicate_succ]; rfl
    · rw [hu, nextItem]
      dsimp only
      rw [if_neg (by decide), if_neg (by decide), if_pos rfl, hsk]
      rfl
  | cls es =>
    obtain ⟨hne, hes, h0, hch⟩ := hs
    obtain ⟨rs, hexp, hsem⟩ := RunesRanges.expand_sem es hes
    obtain ⟨it, hit, hcls⟩ := classItem_spec hne hes h0 hsem (expand_needMerge hexp)
    refine ⟨_, it, ts, rfl, Chunk.cls hcls, ?_⟩
    have hu : utf8 (renderGlob (.sub (.cls es) :: ts)) =
        (91 :: utf8 (es.flatMap ClassElt.render)) ++ 93 :: utf8 (renderGlob ts) := by
      rw [renderGlob_cons]
      show utf8 (('[' :: es.flatMap ClassElt.render ++ [']']) ++ renderGlob ts) = _
      rw [utf8_append, utf8_append, utf8_ascii_cons (by decide)]
      simp only [List.append_assoc]
      rfl
    have hnot : (93 : UInt8) ∉ (91 :: utf8 (es.flatMap ClassElt.render)) := by
      intro hm
      rcases List.mem_cons.1 hm with h | h
      · exact absurd h (by decide)
      · obtain ⟨c, hc, hcn⟩ := (mem_utf8_ascii (by decide) _).1 h
        exact (hch c hc).1 (Char.toNat_val_inj hcn)
    have hcut := cutAfter_byte (utf8 (renderGlob ts)) hnot
    rw [hu]
    rw [List.cons_append] at hcut ⊢
    rw [nextItem]
    dsimp only
    rw [if_pos rfl, hcut]
    simp only [R.bind_ok]
    rw [hexp]
    dsimp only
    rw [hit]

end GoMatcher
