import Verif.Proofs.Sized

/-! # `MinLen` of every accepted glob; both bounds of a literal one -/

namespace GoMatcher

/-- The lengths of the parser loop: prefix and items add up to `MinLen - n`; without items also to
`MaxLen - n`. -/
structure LenInv (n : Nat) (st : ParseSt) : Prop where
  sized : ∀ x ∈ st.inners, x.Sized
  min : st.minLen = n + st.pref.length + Item.sumOf st.inners
  max : st.inners = [] → st.maxLen = n + st.pref.length

theorem addMaxLen_of {a b : Int} (ha : a > -1) (hb : b > -1) : addMaxLen a b = a + b := by
  unfold addMaxLen; rw [if_pos ⟨ha, hb⟩]

theorem LenInv.step {n : Nat} {st : ParseSt} (h : LenInv n st) {y : Item} (hy : y.Sized) :
    LenInv n (st.step y) := by
  refine ⟨step_sized h.sized hy, ?_, ?_⟩
  · have h1 := h.min
    unfold ParseSt.step
    dsimp only
    by_cases h0 : st.inners = []
    · rw [if_pos (by simp [h0])]
      rw [h0] at h1
      simp only [Item.sumOf] at h1
      cases hy with
      | str v => simp only [Item.minLen, List.length_append, h0, Item.sumOf]; omega
      | rune hr =>
        have := encodeRune_length hr
        simp only [Item.minLen, List.length_append, h0, Item.sumOf]; omega
      | byte hb =>
        have := stringOfByte_length hb
        simp only [Item.minLen, List.length_append, h0, Item.sumOf]; omega
      | _ => simp only [Item.sumOf]; omega
    · rw [if_neg (by simpa using h0)]
      dsimp only
      rw [(appendItem_sized h.sized hy).2]
      omega
  · have h1 := h.max
    unfold ParseSt.step
    dsimp only
    by_cases h0 : st.inners = []
    · rw [if_pos (by simp [h0])]
      have h2 := h1 h0
      cases hy with
      | str v =>
        intro _
        simp only [Item.maxLen, List.length_append]
        rw [addMaxLen_of (by omega) (by omega)]; omega
      | rune hr =>
        intro _
        have := encodeRune_length hr
        simp only [Item.maxLen, List.length_append]
        rw [addMaxLen_of (by omega) (by omega)]; omega
      | byte hb =>
        intro _
        have := stringOfByte_length hb
        simp only [Item.maxLen, List.length_append]
        rw [addMaxLen_of (by omega) (by omega)]; omega
      | _ => intro h; cases h
    · rw [if_neg (by simpa using h0)]
      dsimp only
      intro h3
      exfalso
      unfold appendItem at h3
      split at h3
      · cases h3
      · split at h3 <;> simp at h3

theorem LenInv.loop {n : Nat} (fuel : Nat) (s : Str) (st st' : ParseSt) (h0 : LenInv n st)
    (h : parseLoop fuel s st = .ok (.ok st')) : LenInv n st' := by
  induction fuel generalizing s st with
  | zero => simp [parseLoop] at h
  | succ fuel ih =>
    cases s with
    | nil =>
      simp only [parseLoop, R.ok.injEq, Except.ok.injEq] at h
      rw [← h]
      exact h0
    | cons b t =>
      rw [parseLoop] at h
      obtain ⟨r, hr, h⟩ := R.bind_eq_ok.1 h
      split at h
      · cases h
      · exact ih _ _ h0 h
      · exact ih _ _ (h0.step ((parse_sized fuel).1 _ _ _ hr)) h

theorem takeSuffix_len {xs : List Item} (hx : ∀ x ∈ xs, x.Sized) (suff : Str) :
    Item.sumOf (takeSuffix xs suff).1 + (takeSuffix xs suff).2.length = Item.sumOf xs + suff.length ∧
    ((takeSuffix xs suff).1 = [] → xs = []) := by
  unfold takeSuffix
  by_cases h : xs.length > 1
  · rw [if_pos h]
    have hne : xs ≠ [] := by rintro rfl; simp at h
    obtain ⟨init, last, rfl⟩ : ∃ init last, xs = init ++ [last] :=
      ⟨xs.dropLast, xs.getLast hne, (List.dropLast_concat_getLast hne).symm⟩
    have hi : init ≠ [] := by rintro rfl; simp at h
    have hl := hx last (by simp)
    simp only [List.getLast?_concat, List.dropLast_concat]
    rw [sumOf_append]
    cases hl with
    | str v => exact ⟨by simp only [Item.sumOf, Item.minLen, List.length_append]; omega, fun e => absurd e hi⟩
    | rune hr =>
      have := encodeRune_length hr
      exact ⟨by simp only [Item.sumOf, Item.minLen, List.length_append]; omega, fun e => absurd e hi⟩
    | byte hb =>
      have := stringOfByte_length hb
      exact ⟨by simp only [Item.sumOf, Item.minLen, List.length_append]; omega, fun e => absurd e hi⟩
    | _ => exact ⟨by simp only [sumOf_append], by simp⟩
  · rw [if_neg h]
    exact ⟨rfl, id⟩

theorem finishGlob_lens (g : Glob) : (finishGlob g).minLen = g.minLen ∧ (finishGlob g).maxLen = g.maxLen ∧
    (g.items = [] → (finishGlob g).node = g.pref ++ g.suff) ∧
    (g.items ≠ [] → (finishGlob g).pref = g.pref ∧ (finishGlob g).suff = g.suff) := by
  unfold finishGlob
  by_cases h : g.items = []
  · rw [if_pos (by simp [h])]
    simp [h]
  · rw [if_neg (by simpa using h)]
    dsimp only
    split
    · split <;> simp [h]
    · simp [h]

/-- Every accepted byte string: `MinLen` is the sum over prefix, items and suffix; a literal glob has its
own length as both bounds. -/
theorem parseGlob_lens {s : Str} {g : Glob} (h : parseGlob s = .ok (.ok g)) :
    (g.items ≠ [] → g.minLen = g.pref.length + Item.sumOf g.items + g.suff.length) ∧
    (g.items = [] → g.minLen = g.node.length ∧ g.maxLen = g.node.length) := by
  unfold parseGlob at h
  split at h
  · simp only [R.ok.injEq, Except.ok.injEq] at h
    rw [← h]
    exact ⟨fun h => absurd rfl h, fun _ => ⟨rfl, rfl⟩⟩
  · obtain ⟨pref, hp, h⟩ := R.bind_eq_ok.1 h
    obtain ⟨body, hb, h⟩ := R.bind_eq_ok.1 h
    dsimp only at h
    split at h
    · split at h
      · cases h
      · obtain ⟨⟨body', suff⟩, hc, h⟩ := R.bind_eq_ok.1 h
        dsimp only at h
        split at h
        · simp only [R.ok.injEq, Except.ok.injEq] at h
          rw [← h, finishGlob_keeps]
          refine ⟨fun hi => ?_, fun hi => by cases hi⟩
          obtain ⟨h1, _, _, h4⟩ := finishGlob_lens
            { glob := s, pref := pref, suff := suff, minLen := pref.length + suff.length, maxLen := -1, items := [Item.star 0] }
          obtain ⟨h5, h6⟩ := h4 hi
          rw [h1, h5, h6]
          simp only [Item.sumOf, Item.minLen]; omega
        split at h
        · simp only [R.ok.injEq, Except.ok.injEq] at h
          rw [← h, finishGlob_keeps]
          refine ⟨fun hi => ?_, fun hi => by cases hi⟩
          obtain ⟨h1, _, _, h4⟩ := finishGlob_lens
            { glob := s, pref := pref, suff := suff, minLen := pref.length + suff.length + 1,
              maxLen := addMaxLen (pref.length + suff.length) 4, items := [Item.any 1] }
          obtain ⟨h5, h6⟩ := h4 hi
          rw [h1, h5, h6]
          simp only [Item.sumOf, Item.minLen]; omega
        · obtain ⟨r, hr, h⟩ := R.bind_eq_ok.1 h
          split at h
          · cases h
          · rename_i st
            simp only [R.ok.injEq, Except.ok.injEq] at h
            have hI : LenInv suff.length st := LenInv.loop _ _ _ st
              { sized := by intro x hx; cases hx
                min := by simp only [Item.sumOf]; omega
                max := by intro _; dsimp only; omega } hr
            obtain ⟨k1, k2⟩ := takeSuffix_len hI.sized suff
            obtain ⟨h1, h2, h3, h4⟩ := finishGlob_lens
              { glob := s, pref := st.pref, suff := (takeSuffix st.inners suff).2, minLen := st.minLen,
                maxLen := st.maxLen, items := (takeSuffix st.inners suff).1 }
            have hm := hI.min
            rw [← h, finishGlob_keeps]
            refine ⟨fun hi => ?_, fun hi => ?_⟩
            · obtain ⟨h5, h6⟩ := h4 hi
              rw [h1, h5, h6]
              dsimp only at k1 ⊢
              omega
            · have hn := k2 hi
              have hx := hI.max hn
              have h7 := h3 hi
              rw [h1, h2, h7]
              dsimp only at hi ⊢
              rw [hi] at k1
              rw [hn] at hm
              have k3 : Item.sumOf st.inners = 0 := by rw [hn]; rfl
              rw [k3] at k1
              simp only [Item.sumOf] at hm k1
              rw [List.length_append]
              omega
    · cases h

/-- Hence a literal glob matches exactly its node text, unless that text is a star. -/
theorem literal_matches {s : Str} {g : Glob} (h : parseGlob s = .ok (.ok g)) (hi : g.items = [])
    (hs : g.node ≠ [42]) (v : Str) : g.matches v = .ok (decide (g.node = v)) := by
  obtain ⟨h1, h2⟩ := (parseGlob_lens h).2 hi
  unfold Glob.matches
  rw [if_neg hs]
  by_cases e : g.node = v
  · rw [if_neg (by rw [h1, e]; omega), if_neg (by rw [h2, e]; omega), if_pos (by simp [hi])]
  · simp only [decide_eq_false e]
    repeat' split
    all_goals first | rfl | (exfalso; simp_all; done) | skip

end GoMatcher
