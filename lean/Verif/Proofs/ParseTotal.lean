import Verif.Model.Glob
import Verif.Proofs.Wildcard
import Verif.Proofs.Utf8

/-! # The glob parser always answers -/

namespace GoMatcher

theorem indexP_lt {p : UInt8 → Bool} {s : Str} {n : Nat} (h : indexP p s = some n) :
    n < s.length := by
  induction s generalizing n with
  | nil => simp [indexP] at h
  | cons b t ih =>
    unfold indexP at h
    split at h
    · cases h; simp
    · obtain ⟨m, hm, rfl⟩ := Option.map_eq_some_iff.1 h
      have := ih hm
      simp
      omega

theorem lastIndexP_lt {p : UInt8 → Bool} {s : Str} {n : Nat} (h : lastIndexP p s = some n) :
    n < s.length := by
  induction s generalizing n with
  | nil => simp [lastIndexP] at h
  | cons b t ih =>
    unfold lastIndexP at h
    split at h
    · rename_i i hi
      cases h
      have := ih hi
      simp
      omega
    · split at h
      · cases h; simp
      · cases h

theorem lastIndexP_isSome {p : UInt8 → Bool} {s : Str} (h : ∃ b ∈ s, p b = true) :
    ∃ n, lastIndexP p s = some n := by
  induction s with
  | nil => obtain ⟨b, hb, _⟩ := h; cases hb
  | cons b t ih =>
    unfold lastIndexP
    split
    · exact ⟨_, rfl⟩
    · rename_i hn
      obtain ⟨c, hc, hp⟩ := h
      rcases List.mem_cons.1 hc with rfl | hc
      · exact ⟨0, by simp [hp]⟩
      · obtain ⟨n, e⟩ := ih ⟨c, hc, hp⟩
        rw [hn] at e; cases e

theorem indexP_at {p : UInt8 → Bool} {s : Str} {n : Nat} (h : indexP p s = some n) :
    ∃ b t, s.drop n = b :: t ∧ p b = true := by
  induction s generalizing n with
  | nil => simp [indexP] at h
  | cons b t ih =>
    unfold indexP at h
    split at h
    · rename_i hp; cases h; exact ⟨b, t, rfl, hp⟩
    · obtain ⟨m, hm, rfl⟩ := Option.map_eq_some_iff.1 h
      simpa using ih hm

theorem cutAfter_ok (s : Str) (close : UInt8) (hs : s ≠ []) :
    ∃ seg next, cutAfter s close = .ok (seg, next) ∧ seg ++ next = s ∧
      next.length < s.length := by
  unfold cutAfter
  have hpos := List.length_pos_iff.2 hs
  cases h : strIndex s [close] with
  | none => exact ⟨s, [], rfl, by simp, by simpa using hpos⟩
  | some i =>
    have hl := strIndex_lt_length h
    simp only [List.length_singleton] at hl
    refine ⟨s.take (i + 1), s.drop (i + 1), ?_, by simp, by simp; omega⟩
    simp [sliceFrom, sliceTo, hl]

theorem rangeStr_go_bounds (f i : Nat) (s : Str) :
    ∀ p ∈ rangeStr.go f i s, i ≤ p.1 ∧ p.1 ≤ i + s.length := by
  induction f generalizing i s with
  | zero => simp [rangeStr.go]
  | succ f ih =>
    cases s with
    | nil => simp [rangeStr.go]
    | cons b t =>
      intro p hp
      rw [rangeStr.go] at hp
      rcases List.mem_cons.1 hp with rfl | hp
      · simp
      · have := ih _ _ p hp
        have hw := decodeRune_width_le (b :: t)
        rw [List.length_drop] at this
        omega

theorem skipStars_ok (t : Str) : ∃ r, skipStars (42 :: t) = .ok r ∧ r.length < (42 :: t).length := by
  unfold skipStars
  have hd : decodeRune (42 :: t) = (42, 1) := by simp [decodeRune]
  have e : rangeStr (42 :: t) = (0, 42) :: rangeStr.go t.length 1 t := by
    unfold rangeStr
    rw [List.length_cons, rangeStr.go, hd]
    rfl
  rw [e]
  simp only [List.find?_cons]
  simp only [ne_eq, not_true_eq_false, decide_false]
  split
  · rename_i i c hf
    have := rangeStr_go_bounds _ _ _ _ (List.mem_of_find?_eq_some hf)
    refine ⟨(42 :: t).drop i, ?_, ?_⟩
    · rw [sliceFrom, if_pos (by simp; omega)]
    · simp only [List.length_drop, List.length_cons]; dsimp only at this; omega
  · exact ⟨[], rfl, by simp⟩

/-! ## Lists -/

theorem joinByte_length (sep : UInt8) (ps : List Str) (p : Str) (hp : p ∈ ps) :
    p.length + ps.length ≤ (joinByte sep ps).length + 1 := by
  induction ps with
  | nil => cases hp
  | cons q ps ih =>
    cases ps with
    | nil =>
      rw [List.mem_singleton.1 hp]
      simp [joinByte]
    | cons r ps =>
      rw [joinByte_cons_cons]
      rcases List.mem_cons.1 hp with rfl | hp
      · clear ih
        have h2 : (r :: ps).length ≤ (joinByte sep (r :: ps)).length + 1 := by
          clear hp
          induction ps generalizing r with
          | nil => simp
          | cons q ps ih =>
            rw [joinByte_cons_cons]
            have := ih q
            simp at this ⊢
            omega
        simp at h2 ⊢
        omega
      · have := ih hp
        simp at this ⊢
        omega

theorem dedupAdj_length (l : List Str) : (dedupAdj l).length ≤ l.length := by
  induction l with
  | nil => simp [dedupAdj]
  | cons x t ih =>
    cases t with
    | nil => simp [dedupAdj]
    | cons y t =>
      unfold dedupAdj
      split
      · have := ih; simp at this ⊢; omega
      · have := ih; simp at this ⊢; omega

/-- What `ListExpand` can return: sorted distinct values that together with their
separators fit into the text. -/
theorem listExpand_some {s : Str} {vals : List Str} (h : listExpand s = some vals) :
    vals.Pairwise (fun a b => strLt a b = true) ∧
    ∀ v ∈ vals, v.length + vals.length + 1 ≤ s.length := by
  by_cases hb : ∃ body, s = 123 :: (body ++ [125])
  · obtain ⟨body, rfl⟩ := hb
    rw [listExpand_braces] at h
    split at h
    · cases h; simp
    · rename_i hbody
      cases h
      have hne : sortBy strLe (splitByte body 44) ≠ [] := by
        intro h0
        have := (sortBy_perm strLe (splitByte body 44)).length_eq
        rw [h0] at this
        exact splitByte_ne_nil body 44 (List.length_eq_zero_iff.mp this.symm)
      obtain ⟨b, hb1, hb2, hb3⟩ := removeDuplicated_spec _ hne
      rw [hb1]
      refine ⟨dedupAdj_sorted _ ((sortBy_pairwise strLe strLe_total strLe_trans _).sublist hb2), ?_⟩
      intro v hv
      rw [mem_dedupAdj, hb3, mem_sortBy] at hv
      have h1 := joinByte_length 44 _ _ hv
      rw [joinByte_splitByte] at h1
      have h2 := dedupAdj_length b
      have h3 := hb2.length_le
      rw [(sortBy_perm strLe (splitByte body 44)).length_eq] at h3
      simp
      omega
  · rw [listExpand_none s hb] at h; cases h

theorem listScan_min (st : ListScan) (vs : List Str) (h : (listScan st vs).hasStar = false) :
    (∀ v ∈ vs, (listScan st vs).minLen ≤ v.length) ∧ (listScan st vs).minLen ≤ st.minLen ∧
    ((listScan st vs).minLen = st.minLen ∨ ∃ v ∈ vs, (listScan st vs).minLen = v.length) := by
  induction vs generalizing st with
  | nil => simp [listScan]
  | cons v vs ih =>
    unfold listScan at h ⊢
    dsimp only at h ⊢
    generalize hst1 : (if st.maxLen < (v.length : Int) then { st with maxLen := (v.length : Int) } else st) = st1 at h ⊢
    have hmin1 : st1.minLen = st.minLen := by rw [← hst1]; split <;> rfl
    generalize hst2 : (if st1.minLen > (v.length : Int) then { st1 with minLen := (v.length : Int) } else st1) = st2 at h ⊢
    have hmin2 : st2.minLen ≤ v.length ∧ st2.minLen ≤ st.minLen ∧
        (st2.minLen = st.minLen ∨ st2.minLen = v.length) := by
      rw [← hst2]
      split
      · dsimp only; omega
      · omega
    cases v with
    | nil =>
      obtain ⟨h1, h2, h3⟩ := ih st2 h
      dsimp only
      refine ⟨?_, by omega, ?_⟩
      · intro w hw
        rcases List.mem_cons.1 hw with rfl | hw
        · omega
        · exact h1 w hw
      · rcases h3 with h3 | ⟨w, hw, h3⟩
        · rcases hmin2.2.2 with h4 | h4
          · left; omega
          · right; exact ⟨[], by simp, by omega⟩
        · right; exact ⟨w, by simp [hw], h3⟩
    | cons b t =>
      dsimp only at h ⊢
      split at h
      · simp at h
      · rename_i hw
        rw [if_neg hw]
        obtain ⟨h1, h2, h3⟩ := ih _ h
        dsimp only at h2 h3
        refine ⟨?_, by omega, ?_⟩
        · intro w hw
          rcases List.mem_cons.1 hw with rfl | hw
          · omega
          · exact h1 w hw
        · rcases h3 with h3 | ⟨w, hw, h3⟩
          · rcases hmin2.2.2 with h4 | h4
            · left; omega
            · right; exact ⟨b :: t, by simp, by omega⟩
          · right; exact ⟨w, by simp [hw], h3⟩

theorem strLt_nil (a : Str) : strLt a [] = false := by
  cases a <;> simp [strLt, strLe]

/-- `NewItemList` does not panic on the result of `ListExpand`. -/
theorem listItem_ok {vals : List Str} (hs : vals.Pairwise (fun a b => strLt a b = true)) :
    listItem vals = .inr () ∨ ∃ it, listItem vals = .inl (.ok it) := by
  unfold listItem
  split
  · exact Or.inr ⟨_, rfl⟩
  · split
    · exact Or.inr ⟨_, rfl⟩
    · exact Or.inr ⟨_, rfl⟩
  · rename_i v0 vs hne
    dsimp only
    cases hst : (listScan {} (v0 :: vs)).hasStar with
    | true => simp
    | false =>
      right
      simp only [Bool.false_eq_true, if_false]
      have hnp : ¬ ((listScan {} (v0 :: vs)).minLen = 0 ∧ v0 ≠ []) := by
        rintro ⟨h0, hv0⟩
        obtain ⟨_, _, h3⟩ := listScan_min {} (v0 :: vs) hst
        rcases h3 with h3 | ⟨v, hv, h3⟩
        · rw [h0] at h3
          simp at h3
        · rw [h0] at h3
          have hv' : v = [] := by
            cases v with
            | nil => rfl
            | cons b t => simp at h3; omega
          subst hv'
          rcases List.mem_cons.1 hv with h | h
          · exact hv0 h.symm
          · have := (List.pairwise_cons.1 hs).1 [] h
            rw [strLt_nil] at this
            cases this
      rw [if_neg hnp]
      exact ⟨_, rfl⟩

/-! ## The parser -/

/-- The result is no timeout and no panic. -/
def R.IsOk {α : Type} (x : R α) : Prop := ∃ a, x = .ok a

theorem parse_total (fuel : Nat) :
    (∀ s : Str, 2 * s.length + 1 ≤ fuel → ∃ r, nextItem fuel s = .ok r ∧
      ∀ it rest, r = .ok (it, rest) → rest.length < s.length) ∧
    (∀ (B : Nat) (vals : List Str) items, (∀ v ∈ vals, v.length ≤ B) →
      vals.length + 2 * B + 3 ≤ fuel → (newGroup fuel vals items).IsOk) ∧
    (∀ (v : Str) c, 2 * v.length + 2 ≤ fuel → (chainLoop fuel v c).IsOk) := by
  induction fuel with
  | zero =>
    refine ⟨?_, ?_, ?_⟩ <;> intros <;> omega
  | succ fuel ih =>
    obtain ⟨ih1, ih2, ih3⟩ := ih
    refine ⟨?_, ?_, ?_⟩
    · intro s hf
      cases s with
      | nil => exact ⟨_, rfl, by intro it rest h; cases h⟩
      | cons b t =>
        rw [nextItem]
        dsimp only
        by_cases hb1 : b = 91
        · rw [if_pos hb1]
          obtain ⟨seg, next, hc, _, hlen⟩ := cutAfter_ok (b :: t) 93 (by simp)
          rw [hc]
          simp only [R.bind_ok]
          split
          · exact ⟨_, rfl, by intro it rest h; cases h⟩
          · refine ⟨_, rfl, ?_⟩
            intro it rest h
            cases h
            exact hlen
        rw [if_neg hb1]
        by_cases hb2 : b = 123
        · rw [if_pos hb2]
          obtain ⟨seg, next, hc, happ, hlen⟩ := cutAfter_ok (b :: t) 125 (by simp)
          rw [hc]
          simp only [R.bind_ok]
          cases hl : listExpand seg with
          | none => exact ⟨_, rfl, by intro it rest h; cases h⟩
          | some vals =>
            dsimp only
            obtain ⟨hsort, hbound⟩ := listExpand_some hl
            rcases listItem_ok hsort with hi | ⟨it, hi⟩
            · rw [hi]
              dsimp only
              have hseg : seg.length ≤ (b :: t).length := by rw [← happ]; simp
              have hne : vals ≠ [] := by
                rintro rfl
                simp [listItem] at hi
              have hpos := List.length_pos_iff.2 hne
              obtain ⟨r, hr⟩ := ih2 (seg.length - 1 - vals.length) vals [] (by
                intro v hv
                have := hbound v hv
                omega) (by
                obtain ⟨v, hv⟩ := List.exists_mem_of_ne_nil _ hne
                have := hbound v hv
                omega)
              rw [hr]
              simp only [R.bind_ok]
              cases r with
              | error e => exact ⟨_, rfl, by intro it rest h; cases h⟩
              | ok it =>
                refine ⟨_, rfl, ?_⟩
                intro it rest h
                cases h
                exact hlen
            · rw [hi]
              simp only [R.bind_ok]
              refine ⟨_, rfl, ?_⟩
              intro it rest h
              cases h
              exact hlen
        rw [if_neg hb2]
        by_cases hb3 : b = 42
        · rw [if_pos hb3]
          subst hb3
          obtain ⟨r, hr, hlen⟩ := skipStars_ok t
          rw [hr]
          simp only [R.bind_ok]
          refine ⟨_, rfl, ?_⟩
          intro it rest h
          cases h
          exact hlen
        rw [if_neg hb3]
        by_cases hb4 : b = 63
        · rw [if_pos hb4]
          refine ⟨_, rfl, ?_⟩
          intro it rest h
          cases h
          simp
        rw [if_neg hb4]
        split
        · exact ⟨_, rfl, by intro it rest h; cases h⟩
        · rename_i hb5
          cases hw : indexWildcard (b :: t) with
          | none =>
            refine ⟨_, rfl, ?_⟩
            intro it rest h
            cases h
            simp
          | some n =>
            dsimp only
            have hn := indexP_lt hw
            have hn0 : n ≠ 0 := by
              rintro rfl
              obtain ⟨b', t', e, hp⟩ := indexP_at hw
              simp only [List.drop_zero, List.cons.injEq] at e
              obtain ⟨rfl, rfl⟩ := e
              simp [isWild, hb1, hb2, hb3, hb4] at hp hb5
              rcases hp with h | h
              · exact hb5.1 h
              · exact hb5.2 h
            rw [sliceTo, if_pos (by omega), sliceFrom, if_pos (by omega)]
            simp only [R.bind_ok]
            refine ⟨_, rfl, ?_⟩
            intro it rest h
            cases h
            simp only [List.length_drop]
            omega
    · intro B vals items hB hf
      cases vals with
      | nil => exact ⟨_, rfl⟩
      | cons v vs =>
        rw [newGroup]
        have hB' : ∀ w ∈ vs, w.length ≤ B := fun w hw => hB w (by simp [hw])
        have hv := hB v (by simp)
        simp only [List.length_cons] at hf
        split
        · split
          · exact ⟨_, rfl⟩
          · split
            · exact ih2 B vs _ hB' (by omega)
            · obtain ⟨r, hr⟩ := ih3 v {} (by omega)
              rw [hr]
              simp only [R.bind_ok]
              cases r with
              | error e => exact ⟨_, rfl⟩
              | ok c => exact ih2 B vs _ hB' (by omega)
        · exact ih2 B vs _ hB' (by omega)
    · intro v c hf
      cases v with
      | nil => exact ⟨_, rfl⟩
      | cons b t =>
        rw [chainLoop]
        obtain ⟨r, hr, hlen⟩ := ih1 (b :: t) (by omega)
        rw [hr]
        simp only [R.bind_ok]
        split
        · exact ⟨_, rfl⟩
        · rename_i v' 
          have := hlen _ _ rfl
          exact ih3 _ _ (by omega)
        · have := hlen _ _ rfl
          exact ih3 _ _ (by omega)

theorem parseLoop_total (fuel : Nat) (s : Str) (st : ParseSt) (hf : 2 * s.length + 2 ≤ fuel) :
    (parseLoop fuel s st).IsOk := by
  induction fuel generalizing s st with
  | zero => omega
  | succ fuel ih =>
    cases s with
    | nil => exact ⟨_, rfl⟩
    | cons b t =>
      rw [parseLoop]
      obtain ⟨r, hr, hlen⟩ := (parse_total fuel).1 (b :: t) (by omega)
      rw [hr]
      simp only [R.bind_ok]
      split
      · exact ⟨_, rfl⟩
      · have := hlen _ _ rfl
        exact ih _ _ (by omega)
      · have := hlen _ _ rfl
        exact ih _ _ (by omega)

theorem parseGlob_total (s : Str) : (parseGlob s).IsOk := by
  unfold parseGlob
  cases hp : indexWildcard s with
  | none => exact ⟨_, rfl⟩
  | some pos =>
    dsimp only
    have hlt := indexP_lt hp
    rw [sliceTo, if_pos (by omega), sliceFrom, if_pos (by omega)]
    simp only [R.bind_ok]
    obtain ⟨b0, t, hbody, hw⟩ := indexP_at hp
    obtain ⟨e, he⟩ := lastIndexP_isSome (p := isWild) (s := s.drop pos) ⟨b0, by simp [hbody], hw⟩
    have he' : indexLastWildcard (s.drop pos) = some e := he
    have helt := lastIndexP_lt he
    rw [he', hbody]
    rw [hbody] at helt
    dsimp only
    split
    · exact ⟨_, rfl⟩
    · have hcut : ∃ body suff, (if (e : Int) < ((b0 :: t).length : Int) - 1 then do
            let suff ← sliceFrom (b0 :: t) (e + 1)
            let body ← sliceTo (b0 :: t) (e + 1)
            R.ok (body, suff)
          else R.ok (b0 :: t, [])) = R.ok (body, suff) := by
        split
        · rw [sliceTo, if_pos (by omega), sliceFrom, if_pos (by omega)]
          exact ⟨_, _, rfl⟩
        · exact ⟨_, _, rfl⟩
      obtain ⟨body, suff, hc⟩ := hcut
      rw [hc]
      simp only [R.bind_ok]
      split
      · exact ⟨_, rfl⟩
      · split
        · exact ⟨_, rfl⟩
        · obtain ⟨r, hr⟩ := parseLoop_total (parseFuel body.length) body
            { minLen := (s.take pos).length + suff.length,
              maxLen := (s.take pos).length + suff.length, pref := s.take pos }
            (by unfold parseFuel; omega)
          rw [hr]
          simp only [R.bind_ok]
          cases r with
          | error e => exact ⟨_, rfl⟩
          | ok st => exact ⟨_, rfl⟩

end GoMatcher
