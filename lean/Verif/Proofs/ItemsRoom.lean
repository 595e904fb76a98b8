import Verif.Proofs.StepsParse
import Verif.Proofs.RuneScan

/-! # How many items a glob can have -/

namespace GoMatcher

/-- Items that the parser merges with a literal beside them. -/
def Item.isLit : Item → Bool
  | .str _ | .rune _ | .byte _ => true
  | _ => false

/-- Length of the list, one more when it ends with an item that is no literal. -/
def roomOf (l : List Item) : Nat :=
  l.length + match l.getLast? with
    | some x => if x.isLit then 0 else 1
    | none => 0

theorem roomOf_snoc (l : List Item) (x : Item) :
    roomOf (l ++ [x]) = l.length + 1 + if x.isLit then 0 else 1 := by
  simp [roomOf]

theorem mergeItem_isLit {last item m : Item} (h : mergeItem last item = some m) :
    m.isLit = last.isLit := by
  unfold mergeItem at h
  split at h <;> cases h <;> rfl

theorem mergeItem_lits {last item : Item} (h : mergeItem last item = none)
    (hi : item.isLit = true) : last.isLit = false := by
  cases item <;> simp [Item.isLit] at hi <;> cases last <;> simp [mergeItem] at h <;> rfl

theorem appendItem_room (l : List Item) (x : Item) (hl : l ≠ []) :
    roomOf (appendItem l x) ≤ roomOf l + 2 ∧
    (x.isLit = true → roomOf (appendItem l x) ≤ roomOf l) ∧ appendItem l x ≠ [] := by
  rcases List.eq_nil_or_concat l with rfl | ⟨l', y, rfl⟩
  · exact absurd rfl hl
  · rw [List.concat_eq_append]
    unfold appendItem
    rw [List.getLast?_append]
    simp only [List.getLast?_singleton, Option.some_or]
    cases hm : mergeItem y x with
    | none =>
      dsimp only
      rw [roomOf_snoc, roomOf_snoc]
      refine ⟨?_, ?_, by simp⟩
      · simp only [List.length_append, List.length_cons, List.length_nil]
        split <;> split <;> omega
      · intro hx
        rw [mergeItem_lits hm hx, hx]
        simp
    | some m =>
      dsimp only
      rw [List.dropLast_concat, roomOf_snoc, roomOf_snoc, mergeItem_isLit hm]
      exact ⟨by omega, fun _ => Nat.le_refl _, by simp⟩

/-- The first item is never a literal. -/
def HeadOk (l : List Item) : Prop := ∀ x r, l = x :: r → x.isLit = false

theorem appendItem_headOk {l : List Item} {x : Item} (hl : l ≠ []) (h : HeadOk l) :
    HeadOk (appendItem l x) := by
  rcases List.eq_nil_or_concat l with rfl | ⟨l', y, rfl⟩
  · exact absurd rfl hl
  · rw [List.concat_eq_append] at h ⊢
    unfold appendItem
    rw [List.getLast?_append]
    simp only [List.getLast?_singleton, Option.some_or]
    cases hm : mergeItem y x with
    | none =>
      dsimp only
      intro z r e
      rw [List.append_assoc] at e
      cases l' with
      | nil => cases e; exact h _ _ rfl
      | cons a l' => cases e; exact h _ _ rfl
    | some m =>
      dsimp only
      rw [List.dropLast_concat]
      intro z r e
      cases l' with
      | nil => cases e; rw [mergeItem_isLit hm]; exact h _ _ rfl
      | cons a l' => cases e; exact h _ _ rfl

theorem step_room {st : ParseSt} {x : Item} (hh : HeadOk st.inners) :
    HeadOk (st.step x).inners ∧ roomOf (st.step x).inners ≤ roomOf st.inners + 2 ∧
    (x.isLit = true → roomOf (st.step x).inners ≤ roomOf st.inners) := by
  unfold ParseSt.step
  dsimp only
  split
  · rename_i h0
    have h0 : st.inners = [] := List.length_eq_zero_iff.1 h0
    split
    · simp [h0, HeadOk, roomOf]
    · simp [h0, HeadOk, roomOf]
    · simp [h0, HeadOk, roomOf]
    · rename_i a b c
      have hx : x.isLit = false := by
        cases x <;> first | rfl | exact absurd rfl (a _) | exact absurd rfl (b _) |
          exact absurd rfl (c _)
      refine ⟨?_, ?_, ?_⟩
      · intro z r e; cases e; exact hx
      · rw [h0]; simp [roomOf, hx]
      · rw [hx]; simp
  · rename_i h0
    have hl : st.inners ≠ [] := fun e => h0 (by rw [e]; rfl)
    obtain ⟨h1, h2, _⟩ := appendItem_room st.inners x hl
    exact ⟨appendItem_headOk hl hh, h1, h2⟩

/-- Bytes that open a wildcard. -/
def openers (s : Str) : Nat := s.countP fun b => decide (b = 91 ∨ b = 123 ∨ b = 42 ∨ b = 63)

theorem openers_append (a b : Str) : openers (a ++ b) = openers a + openers b := List.countP_append

theorem openers_drop_le (n : Nat) (s : Str) : openers (s.drop n) ≤ openers s := by
  have := openers_append (s.take n) (s.drop n)
  rw [List.take_append_drop] at this
  omega

theorem openers_take_le (n : Nat) (s : Str) : openers (s.take n) ≤ openers s := by
  have := openers_append (s.take n) (s.drop n)
  rw [List.take_append_drop] at this
  omega

theorem openers_cons_pos {b : UInt8} (t : Str) (h : b = 91 ∨ b = 123 ∨ b = 42 ∨ b = 63) :
    openers (b :: t) = openers t + 1 := by
  simp [openers, h]

theorem skipStars_tail {s r : Str} (h : skipStars (42 :: s) = .ok r) : openers r ≤ openers s := by
  unfold skipStars at h
  split at h
  · rename_i i c hf
    obtain ⟨_, rfl⟩ := sliceFrom_eq_ok h
    cases i with
    | zero =>
      exfalso
      rw [rangeStr, List.length_cons, rangeStr.go] at hf
      have hd : decodeRune (42 :: s) = (42, 1) := by simp [decodeRune]
      rw [hd] at hf
      dsimp only at hf
      rw [List.find?_cons] at hf
      simp only [ne_eq, not_true_eq_false, decide_false] at hf
      have h1 : ∀ f i (s : Str), ∀ p ∈ rangeStr.go f i s, i ≤ p.1 := by
        intro f
        induction f with
        | zero => intro i s p hp; simp [rangeStr.go] at hp
        | succ f ih =>
          intro i s p hp
          cases s with
          | nil => simp [rangeStr.go] at hp
          | cons b t =>
            rw [rangeStr.go] at hp
            rcases List.mem_cons.1 hp with rfl | hp
            · exact Nat.le_refl _
            · have := ih _ _ p hp
              omega
      have := h1 _ _ _ _ (List.mem_of_find?_eq_some hf)
      simp at this
    | succ i => rw [List.drop_succ_cons]; exact openers_drop_le _ _
  · cases h; simp [openers]

/-- One item of the glob: a literal, or one opening byte is used up. -/
theorem nextItem_openers {fuel : Nat} {b : UInt8} {t rest : Str} {x : Option Item}
    (h : nextItem fuel (b :: t) = .ok (.ok (x, rest))) :
    (openers rest ≤ openers (b :: t) ∧ ∃ y, x = some y ∧ y.isLit = true) ∨
    openers rest + 1 ≤ openers (b :: t) := by
  cases fuel with
  | zero => simp [nextItem] at h
  | succ fuel =>
    rw [nextItem] at h
    dsimp only at h
    have cut : ∀ c seg next, cutAfter (b :: t) c = .ok (seg, next) →
        seg ++ next = b :: t → 1 ≤ seg.length → openers next ≤ openers t := by
      intro c seg next _ e hl
      cases seg with
      | nil => simp at hl
      | cons d seg =>
        simp only [List.cons_append, List.cons.injEq] at e
        rw [← e.2, openers_append]
        omega
    split at h
    · rename_i h91
      obtain ⟨seg, next, e, e1, e2⟩ := cutAfter_ok (b :: t) 93 (by simp)
      have e3 : 1 ≤ seg.length := by
        have := congrArg List.length e1
        simp only [List.length_append, List.length_cons] at this e2
        omega
      have := cut _ _ _ e e1 e3
      rw [e, R.bind_ok] at h
      dsimp only at h
      split at h
      · simp at h
      · simp only [R.ok.injEq, Except.ok.injEq, Prod.mk.injEq] at h
        obtain ⟨_, rfl⟩ := h
        right
        rw [openers_cons_pos t (.inl h91)]
        omega
    · split at h
      · rename_i h123
        obtain ⟨seg, next, e, e1, e2⟩ := cutAfter_ok (b :: t) 125 (by simp)
        have e3 : 1 ≤ seg.length := by
          have := congrArg List.length e1
          simp only [List.length_append, List.length_cons] at this e2
          omega
        have := cut _ _ _ e e1 e3
        rw [e, R.bind_ok] at h
        dsimp only at h
        right
        rw [openers_cons_pos t (.inr (.inl h123))]
        split at h
        · simp at h
        · split at h
          · obtain ⟨it, _, h⟩ := R.bind_eq_ok.1 h
            simp only [R.ok.injEq, Except.ok.injEq, Prod.mk.injEq] at h
            obtain ⟨_, rfl⟩ := h
            omega
          · obtain ⟨it, _, h⟩ := R.bind_eq_ok.1 h
            cases it with
            | error e => simp at h
            | ok it =>
              simp only [R.ok.injEq, Except.ok.injEq, Prod.mk.injEq] at h
              obtain ⟨_, rfl⟩ := h
              omega
      · split at h
        · rename_i h42
          subst h42
          obtain ⟨r, hr, h⟩ := R.bind_eq_ok.1 h
          simp only [R.ok.injEq, Except.ok.injEq, Prod.mk.injEq] at h
          obtain ⟨_, rfl⟩ := h
          right
          rw [openers_cons_pos t (by simp)]
          have := skipStars_tail hr
          omega
        · split at h
          · rename_i h63
            simp only [R.ok.injEq, Except.ok.injEq, Prod.mk.injEq] at h
            obtain ⟨_, rfl⟩ := h
            right
            rw [openers_cons_pos t (by simp [h63])]
            omega
          · left
            split at h
            · simp at h
            · split at h
              · simp only [R.ok.injEq, Except.ok.injEq, Prod.mk.injEq] at h
                obtain ⟨rfl, rfl⟩ := h
                exact ⟨by simp [openers], _, rfl, rfl⟩
              · obtain ⟨v, hv, h⟩ := R.bind_eq_ok.1 h
                obtain ⟨next, hn, h⟩ := R.bind_eq_ok.1 h
                simp only [R.ok.injEq, Except.ok.injEq, Prod.mk.injEq] at h
                obtain ⟨rfl, rfl⟩ := h
                obtain ⟨_, rfl⟩ := sliceFrom_eq_ok hn
                refine ⟨openers_drop_le _ _, _, rfl, ?_⟩
                unfold literalItem
                dsimp only
                split
                · split <;> rfl
                · rfl

theorem parseLoop_room {fuel : Nat} {s : Str} {st st' : ParseSt} (hh : HeadOk st.inners)
    (h : parseLoop fuel s st = .ok (.ok st')) :
    HeadOk st'.inners ∧ roomOf st'.inners ≤ roomOf st.inners + 2 * openers s := by
  induction fuel generalizing s st with
  | zero => simp [parseLoop] at h
  | succ fuel ih =>
    cases s with
    | nil =>
      simp only [parseLoop, R.ok.injEq, Except.ok.injEq] at h
      subst h
      exact ⟨hh, by omega⟩
    | cons b t =>
      rw [parseLoop] at h
      obtain ⟨r, hr, h⟩ := R.bind_eq_ok.1 h
      cases r with
      | error e => simp at h
      | ok p =>
        obtain ⟨x, rest⟩ := p
        have hn := nextItem_openers hr
        cases x with
        | none =>
          obtain ⟨g1, g2⟩ := ih hh h
          refine ⟨g1, ?_⟩
          rcases hn with ⟨_, y, hy, _⟩ | hn
          · cases hy
          · omega
        | some y =>
          obtain ⟨k1, k2, k3⟩ := step_room (x := y) hh
          obtain ⟨g1, g2⟩ := ih k1 h
          refine ⟨g1, ?_⟩
          rcases hn with ⟨hn, y', hy, hl⟩ | hn
          · cases hy
            have := k3 hl
            omega
          · omega

theorem takeSuffix_room {l : List Item} (h : HeadOk l) (suff : Str) :
    (takeSuffix l suff).1 = [] ∨ (takeSuffix l suff).1.length + 1 ≤ roomOf l := by
  rcases List.eq_nil_or_concat l with rfl | ⟨l', y, rfl⟩
  · exact .inl (by simp [takeSuffix])
  · right
    rw [List.concat_eq_append] at h ⊢
    rw [roomOf_snoc]
    unfold takeSuffix
    simp only [List.length_append, List.length_cons, List.length_nil, List.getLast?_append,
      List.getLast?_singleton, Option.some_or, List.dropLast_concat]
    split
    · split
      · dsimp only; omega
      · dsimp only; omega
      · dsimp only; omega
      · rename_i a b c
        have hx : y.isLit = false := by
          cases y <;> first | rfl | exact absurd rfl (a _) | exact absurd rfl (b _) |
            exact absurd rfl (c _)
        rw [hx]
        simp
    · have : l' = [] := List.length_eq_zero_iff.1 (by omega)
      subst this
      rw [h y [] rfl]
      simp

/-- A parsed glob has fewer than twice as many items as bytes that open a wildcard. -/
theorem parse_room {s : Str} {g : Glob} (h : parseGlob s = .ok (.ok g)) :
    g.items.length ≤ 2 * openers s - 1 := by
  unfold parseGlob at h
  split at h
  · simp only [R.ok.injEq, Except.ok.injEq] at h
    subst h
    exact Nat.zero_le _
  · rename_i pos hpos
    obtain ⟨pref, h1, h⟩ := R.bind_eq_ok.1 h
    obtain ⟨body, h2, h⟩ := R.bind_eq_ok.1 h
    obtain ⟨hp, hbody⟩ := sliceFrom_eq_ok h2
    split at h
    · rename_i end_ b0 t0 he
      split at h
      · simp at h
      · obtain ⟨⟨body', suff⟩, h3, h⟩ := R.bind_eq_ok.1 h
        have hbl : openers body' ≤ openers s := by
          have hs : openers (b0 :: t0) ≤ openers s := by
            rw [hbody]; exact openers_drop_le _ _
          split at h3
          · obtain ⟨x1, _, h3⟩ := R.bind_eq_ok.1 h3
            obtain ⟨x2, k2, h3⟩ := R.bind_eq_ok.1 h3
            simp only [R.ok.injEq, Prod.mk.injEq] at h3
            obtain ⟨rfl, rfl⟩ := h3
            unfold sliceTo at k2
            split at k2
            · cases k2
              exact Nat.le_trans (openers_take_le _ _) hs
            · cases k2
          · simp only [R.ok.injEq, Prod.mk.injEq] at h3
            obtain ⟨rfl, rfl⟩ := h3
            exact hs
        dsimp only at h
        split at h
        · rename_i e
          have : openers body' = 1 := by rw [e]; rfl
          simp only [R.ok.injEq, Except.ok.injEq] at h
          subst h
          rw [finishGlob_sameItems]
          simp only [List.length_cons, List.length_nil]
          omega
        · split at h
          · rename_i e
            have : openers body' = 1 := by rw [e]; rfl
            simp only [R.ok.injEq, Except.ok.injEq] at h
            subst h
            rw [finishGlob_sameItems]
            simp only [List.length_cons, List.length_nil]
            omega
          · obtain ⟨r, hr, h⟩ := R.bind_eq_ok.1 h
            cases r with
            | error e => simp at h
            | ok st =>
              simp only [R.ok.injEq, Except.ok.injEq] at h
              subst h
              rw [finishGlob_sameItems]
              obtain ⟨g1, g2⟩ := parseLoop_room (by intro x r e; simp at e) hr
              dsimp only
              rcases takeSuffix_room g1 suff with k | k
              · rw [k]; exact Nat.zero_le _
              · simp only [roomOf, List.length_nil, List.getLast?_nil] at g2
                unfold roomOf at k
                omega
    · cases h

end GoMatcher
