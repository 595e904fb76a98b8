import Verif.Model.Steps
import Verif.Proofs.MatchSafe
import Verif.Proofs.MatchMono
import Verif.Proofs.ParseTotal

/-! # Bounds on the steps of the matcher -/

namespace GoMatcher

/-- Not nested, and no empty string. -/
def Solid : Item → Prop
  | .str w => w ≠ []
  | .byte _ | .rune _ | .any _ | .star _ | .ranges _ => True
  | _ => False

/-- Behind a star comes neither a star nor `?`. -/
def Calm : List Item → Prop
  | [] => True
  | .star _ :: .star _ :: _ => False
  | .star _ :: .any _ :: _ => False
  | it :: rest => Solid it ∧ Calm rest

theorem Calm.tail {it : Item} {rest : List Item} (h : Calm (it :: rest)) : Calm rest := by
  unfold Calm at h
  split at h
  · trivial
  · exact h.elim
  · exact h.elim
  · rename_i e; cases e; exact h.2

theorem Calm.head {it : Item} {rest : List Item} (h : Calm (it :: rest)) : Solid it := by
  unfold Calm at h
  split at h
  · contradiction
  · exact h.elim
  · exact h.elim
  · rename_i e; cases e; exact h.1

/-- Items before the first star. -/
def lead : List Item → Nat
  | [] => 0
  | .star _ :: _ => 0
  | _ :: rest => lead rest + 1

/-- Items behind the first star. -/
def after : List Item → List Item
  | [] => []
  | .star _ :: rest => rest
  | _ :: rest => after rest

theorem lead_star (n : Nat) (r : List Item) : lead (.star n :: r) = 0 := rfl
theorem after_star (n : Nat) (r : List Item) : after (.star n :: r) = r := rfl

theorem lead_cons {it : Item} (h : ∀ n, it ≠ .star n) (r : List Item) :
    lead (it :: r) = lead r + 1 := by
  cases it <;> first | rfl | exact absurd rfl (h _)

theorem after_cons {it : Item} (h : ∀ n, it ≠ .star n) (r : List Item) :
    after (it :: r) = after r := by
  cases it <;> first | rfl | exact absurd rfl (h _)

theorem lead_after (l : List Item) : lead l + (after l).length ≤ l.length := by
  induction l with
  | nil => simp [lead, after]
  | cons it r ih =>
    by_cases h : ∃ n, it = .star n
    · obtain ⟨n, rfl⟩ := h
      simp [lead_star, after_star]
    · rw [not_exists] at h
      rw [lead_cons h, after_cons h]
      simp only [List.length_cons]
      omega

theorem lead_after_star {l : List Item} (h : after l ≠ []) :
    lead l + (after l).length + 1 ≤ l.length := by
  induction l with
  | nil => exact absurd rfl h
  | cons it r ih =>
    by_cases hs : ∃ n, it = .star n
    · obtain ⟨n, rfl⟩ := hs
      simp [lead_star, after_star]
    · rw [not_exists] at hs
      rw [after_cons hs] at h ⊢
      rw [lead_cons hs]
      have := ih h
      simp only [List.length_cons]
      omega

theorem RunesRanges.indexAscii_lt (rs : RunesRanges) {s : Str} {k i c w : Nat}
    (h : rs.indexAscii k s = some (i, c, w)) : i < k + s.length := by
  induction s generalizing k with
  | nil => simp [indexAscii] at h
  | cons b t ih =>
    unfold indexAscii at h
    split at h
    · cases h; simp
    · have := ih h
      simp
      omega

theorem RunesRanges.indexLoop_lt (rs : RunesRanges) {fuel : Nat} {s : Str} {k i c w : Nat}
    (h : rs.indexLoop fuel k s = some (i, c, w)) : i < k + s.length := by
  induction fuel generalizing k s with
  | zero => simp [indexLoop] at h
  | succ fuel ih =>
    cases s with
    | nil => simp [indexLoop] at h
    | cons b t =>
      unfold indexLoop at h
      have hw := decodeRune_width_le (b :: t)
      split at h
      · split at h
        · cases h; simp
        · have := ih h
          simp
          omega
      · dsimp only at h
        split at h
        · cases h
        · split at h
          · cases h; simp
          · have := ih h
            rw [List.length_drop] at this
            omega

theorem RunesRanges.index_lt (rs : RunesRanges) {s : Str} {i c w : Nat}
    (h : rs.index s = some (i, c, w)) : i < s.length := by
  unfold index at h
  split at h
  · simpa using rs.indexAscii_lt h
  · simpa using rs.indexLoop_lt h

theorem rangeStr_go_lt (f i : Nat) (s : Str) : ∀ p ∈ rangeStr.go f i s, p.1 < i + s.length := by
  induction f generalizing i s with
  | zero => simp [rangeStr.go]
  | succ f ih =>
    cases s with
    | nil => simp [rangeStr.go]
    | cons b t =>
      intro p hp
      rw [rangeStr.go] at hp
      rcases List.mem_cons.1 hp with rfl | hp
      · simp
      · have := ih _ _ p hp
        have hw := decodeRune_width_le (b :: t)
        rw [List.length_drop] at this
        omega

theorem indexRune_lt {s : Str} {r i : Nat} (h : indexRune s r = some i) : i < s.length := by
  unfold indexRune at h
  split at h
  · exact indexByte_le h
  · split at h
    · obtain ⟨p, hp, rfl⟩ := Option.map_eq_some_iff.1 h
      have := rangeStr_go_lt _ _ _ p (List.mem_of_find?_eq_some hp)
      simpa using this
    · split at h
      · cases h
      · rename_i hv
        have hv : RuneOk r := runeOk_of_valid (by simpa using hv)
        have h1 := strIndex_le h
        have h2 : encodeRune r ≠ [] := by
          unfold encodeRune
          repeat' split
          all_goals simp
        have := List.length_pos_iff.2 h2
        omega

/-- A search that succeeds ends before the end of the text. -/
theorem solid_find {it : Item} (h : Solid it) (hs : ∀ n, it ≠ .star n) (ha : ∀ n, it ≠ .any n)
    {s : Str} : ∃ x, it.find s = .ok (x, .done) ∧ ∀ o l, x = some (o, l) → o < s.length := by
  cases it with
  | str w =>
    refine ⟨_, rfl, fun o l h' => ?_⟩
    obtain ⟨i, hi, h'⟩ := Option.map_eq_some_iff.1 h'
    cases h'
    have := strIndex_le hi
    have := List.length_pos_iff.2 h
    omega
  | byte b =>
    refine ⟨_, rfl, fun o l h' => ?_⟩
    obtain ⟨i, hi, h'⟩ := Option.map_eq_some_iff.1 h'
    cases h'
    exact indexByte_le hi
  | rune r =>
    refine ⟨_, rfl, fun o l h' => ?_⟩
    obtain ⟨i, hi, h'⟩ := Option.map_eq_some_iff.1 h'
    cases h'
    exact indexRune_lt hi
  | ranges rs =>
    refine ⟨_, rfl, fun o l h' => ?_⟩
    obtain ⟨⟨i, c, w⟩, hi, h'⟩ := Option.map_eq_some_iff.1 h'
    cases h'
    exact rs.index_lt hi
  | any n => exact absurd rfl (ha n)
  | star n => exact absurd rfl (hs n)
  | list _ => exact h.elim
  | group _ _ _ => exact h.elim
  | chain _ _ _ => exact h.elim

theorem solid_matchAt {it : Item} (h : Solid it) (hs : ∀ n, it ≠ .star n) (s : Str) :
    (it.matchAt s).2 = .done := by
  cases it with
  | star n => exact absurd rfl (hs n)
  | list _ => exact h.elim
  | group _ _ _ => exact h.elim
  | chain _ _ _ => exact h.elim
  | _ => rfl

/-- The search of the caller ends here. -/
def Settled (r : R (Bool × Bool)) : Prop := r ≠ .ok (false, false)

/-- Bound for the search behind a star. -/
def bnd (n k : Nat) : Nat := (n + 1) * (2 * k + 1)

theorem bnd_mono {n m : Nat} (h : n ≤ m) (k : Nat) : bnd n k ≤ bnd m k :=
  Nat.mul_le_mul_right _ (by omega)

theorem steps_calm (fuel : Nat) :
    (∀ s items, Calm items →
      stepsItems fuel s items [] ≤ lead items + 1 ∨
      (Settled (matchItems fuel s items []) ∧
        stepsItems fuel s items [] ≤ lead items + 2 + bnd s.length (after items).length ∧
        after items ≠ []) ∨
      (Settled (matchItems fuel s items []) ∧ stepsItems fuel s items [] ≤ lead items + 1)) ∧
    (∀ s items, Calm items → items ≠ [] → (∀ n r, items ≠ .star n :: r) →
      (∀ n r, items ≠ .any n :: r) →
      Settled (matchStarItems fuel s items []) ∧
        stepsStarItems fuel s items [] ≤ 1 + bnd s.length items.length) ∧
    (∀ s items, Calm items → items ≠ [] → (∀ n r, items ≠ .star n :: r) →
      (∀ n r, items ≠ .any n :: r) →
      Settled (starLoop fuel s items []) ∧
        stepsStarLoop fuel s items [] ≤ bnd s.length items.length) := by
  induction fuel with
  | zero =>
    refine ⟨fun s items _ => .inl (by simp [stepsItems]), fun s items _ _ _ _ => ?_,
      fun s items _ _ _ _ => ?_⟩
    · exact ⟨by simp [matchStarItems, Settled], by simp [stepsStarItems]⟩
    · exact ⟨by simp [starLoop, Settled], by simp [stepsStarLoop]⟩
  | succ fuel ih =>
    obtain ⟨ihM, ihS, ihL⟩ := ih
    refine ⟨?_, ?_, ?_⟩
    · intro s items hc
      rw [stepsItems, matchItems]
      unfold stepsMatch matchStep
      cases items with
      | nil => left; simp [NextItems.isEmpty]
      | cons it rest =>
        dsimp only
        by_cases hlen : (s.length : Int) < it.minLen
        · left; rw [if_pos hlen]; omega
        rw [if_neg hlen, if_neg hlen]
        by_cases hs : ∃ n, it = .star n
        · obtain ⟨n, rfl⟩ := hs
          simp only [Item.matchAt]
          rw [lead_star, after_star]
          cases hk : skipRunes s n with
          | none => left; simp
          | some o =>
            dsimp only
            cases hsl : sliceFrom s o with
            | ok t =>
              dsimp only [stepsFlag, matchFlag]
              have ht : t.length ≤ s.length := by
                obtain ⟨_, rfl⟩ := sliceFrom_eq_ok hsl
                simp
              cases rest with
              | nil => left; simp [NextItems.isEmpty]
              | cons x r =>
                simp only [List.isEmpty_cons, Bool.false_eq_true, if_false]
                have hx : (∀ n r', x :: r ≠ .star n :: r') ∧ (∀ n r', x :: r ≠ .any n :: r') := by
                  constructor <;> (rintro m r' e; cases e; exact hc.elim)
                obtain ⟨h1, h2⟩ := ihS t (x :: r) hc.tail (by simp) hx.1 hx.2
                right; left
                refine ⟨h1, ?_, by simp⟩
                have := bnd_mono ht (x :: r).length
                omega
            | panic => left; simp
            | timeout => left; simp
        · rw [not_exists] at hs
          have hf := solid_matchAt hc.head hs s
          rw [lead_cons hs, after_cons hs]
          generalize it.matchAt s = p at hf ⊢
          obtain ⟨o, f⟩ := p
          dsimp only at hf
          subst hf
          cases o with
          | none => left; simp
          | some o =>
            dsimp only
            cases hsl : sliceFrom s o with
            | ok t =>
              dsimp only
              have e1 : stepsFlag (matchItems fuel) (stepsItems fuel) (stepsStarItems fuel) it .done t
                  rest [] = stepsItems fuel t rest [] := by
                unfold stepsFlag; rfl
              have e2 : matchFlag (matchItems fuel) (matchStarItems fuel) it .done t rest [] =
                  matchItems fuel t rest [] := by
                unfold matchFlag; rfl
              rw [e1, e2]
              have ht : t.length ≤ s.length := by
                obtain ⟨_, rfl⟩ := sliceFrom_eq_ok hsl
                simp
              have := bnd_mono ht (after rest).length
              rcases ihM t rest hc.tail with h | ⟨h1, h2, h3⟩ | ⟨h1, h2⟩
              · left; omega
              · right; left; exact ⟨h1, by omega, h3⟩
              · right; right; exact ⟨h1, by omega⟩
            | panic => left; simp
            | timeout => left; simp
    · intro s items hc h0 hs ha
      rw [stepsStarItems, matchStarItems]
      cases items with
      | nil => exact absurd rfl h0
      | cons it rest =>
        obtain ⟨h1, h2⟩ := ihL s (it :: rest) hc h0 hs ha
        exact ⟨h1, by simp only [stepsStar]; omega⟩
    · intro s items hc h0 hs ha
      rw [stepsStarLoop, starLoop]
      cases items with
      | nil => exact absurd rfl h0
      | cons it rest =>
        unfold stepsLoop loopStep
        dsimp only
        have hb : 1 ≤ bnd s.length (it :: rest).length := Nat.mul_pos (by omega) (by omega)
        by_cases hlen : (s.length : Int) < it.minLen
        · rw [if_pos hlen, if_pos hlen]
          exact ⟨by simp [Settled], hb⟩
        rw [if_neg hlen, if_neg hlen]
        have hs' : ∀ n, it ≠ .star n := fun n e => hs n rest (by rw [e])
        have ha' : ∀ n, it ≠ .any n := fun n e => ha n rest (by rw [e])
        obtain ⟨x, hx, hlt⟩ := solid_find hc.head hs' ha' (s := s)
        rw [hx]
        cases x with
        | none => exact ⟨by simp [Settled], hb⟩
        | some p =>
          obtain ⟨o, l⟩ := p
          dsimp only
          have ho := hlt o l rfl
          rw [sliceFrom_le (Nat.le_of_lt ho)]
          dsimp only
          generalize ht : s.drop o = t
          have htl : t.length ≤ s.length := by rw [← ht]; simp
          have ht0 : t ≠ [] := by
            intro e
            have := congrArg List.length (ht.trans e)
            simp at this
            omega
          have e1 : stepsLoopFlag (matchItems fuel) (matchStarItems fuel) (stepsItems fuel)
              (stepsStarItems fuel) (stepsStarLoop fuel) it .done l t rest [] =
              match sliceFromInt t l with
              | .ok sub =>
                stepsItems fuel sub rest [] +
                  match matchItems fuel sub rest [] with
                  | .ok (m, ab) =>
                    if m || ab then 0 else stepsAgain (stepsStarLoop fuel) t (it :: rest) []
                  | _ => 0
              | _ => 0 := by
            unfold stepsLoopFlag; rfl
          have e2 : loopFlag (matchItems fuel) (matchStarItems fuel) (starLoop fuel) it .done l t
              rest [] =
              match sliceFromInt t l with
              | .ok sub =>
                match matchItems fuel sub rest [] with
                | .ok (m, ab) =>
                  if m || ab then .ok (m, ab) else againStep (starLoop fuel) t (it :: rest) []
                | .panic => .panic
                | .timeout => .timeout
              | .panic => .panic
              | .timeout => .timeout := by
            unfold loopFlag; rfl
          rw [e1, e2]
          cases hsl : sliceFromInt t l with
          | ok sub =>
            dsimp only
            have hsub : sub.length ≤ s.length := by
              obtain ⟨_, _, rfl⟩ := sliceFromInt_eq_ok hsl
              simp
              omega
            have hq := lead_after rest
            have hbig : lead rest + 3 ≤ bnd s.length (it :: rest).length := by
              have : 1 * (2 * (it :: rest).length + 1) ≤ bnd s.length (it :: rest).length :=
                Nat.mul_le_mul_right _ (by omega)
              simp only [List.length_cons] at this ⊢
              omega
            have hmain := ihM sub rest hc.tail
            generalize hr : matchItems fuel sub rest [] = r at hmain ⊢
            generalize hcst : stepsItems fuel sub rest [] = c at hmain ⊢
            -- all costs, if the search ends here
            have hend : c + 1 ≤ bnd s.length (it :: rest).length ∨ ¬ Settled r := by
              rcases hmain with h | ⟨_, h2, h3⟩ | ⟨_, h2⟩
              · left; omega
              · left
                have := lead_after_star h3
                have hm := bnd_mono hsub (after rest).length
                have hk : (s.length + 1) * (2 * (after rest).length + 1) +
                    (s.length + 1) * (2 * lead rest + 4) ≤ bnd s.length (it :: rest).length := by
                  rw [← Nat.mul_add]
                  exact Nat.mul_le_mul_left _ (by simp only [List.length_cons]; omega)
                have hk2 : 1 * (2 * lead rest + 4) ≤ (s.length + 1) * (2 * lead rest + 4) :=
                  Nat.mul_le_mul_right _ (by omega)
                unfold bnd at hm h2 ⊢
                unfold bnd at hk
                omega
              · left; omega
            by_cases hset : Settled r
            · have hend := hend.resolve_right (fun h => h hset)
              cases r with
              | ok p =>
                obtain ⟨m, ab⟩ := p
                have hm : (m || ab) = true := by
                  cases m <;> cases ab <;> first | rfl | exact absurd rfl hset
                simp only [hm, if_true]
                exact ⟨hset, by simp only [Nat.add_zero]; omega⟩
              | panic => exact ⟨by simp [Settled], by simp only [Nat.add_zero]; omega⟩
              | timeout => exact ⟨by simp [Settled], by simp only [Nat.add_zero]; omega⟩
            · have hr' : r = .ok (false, false) := Classical.byContradiction hset
              rw [hr']
              simp only [Bool.or_self, Bool.false_eq_true, if_false]
              have hcle : c ≤ lead rest + 1 := by
                rcases hmain with h | ⟨h, _⟩ | ⟨h, _⟩
                · exact h
                · exact absurd h hset
                · exact absurd h hset
              unfold stepsAgain againStep
              dsimp only
              have hn : ¬ (decodeRune t).2 < 1 := by
                have := decodeRune_width_pos ht0
                omega
              rw [if_neg hn, if_neg hn]
              obtain ⟨h1, h2⟩ := ihL (t.drop (decodeRune t).2) (it :: rest) hc h0 hs ha
              refine ⟨h1, ?_⟩
              have hlt' := rune_drop_lt hn
              have hm : bnd (t.drop (decodeRune t).2).length (it :: rest).length +
                  (2 * (it :: rest).length + 1) ≤ bnd s.length (it :: rest).length := by
                unfold bnd
                rw [← Nat.succ_mul]
                exact Nat.mul_le_mul_right _ (by omega)
              have hl : (it :: rest).length = rest.length + 1 := rfl
              show 1 + (c + stepsStarLoop fuel (t.drop (decodeRune t).2) (it :: rest) []) ≤ _
              omega
          | panic => exact ⟨by simp [Settled], by dsimp only; omega⟩
          | timeout => exact ⟨by simp [Settled], by dsimp only; omega⟩

/-- Steps of a sequence of simple items. -/
theorem steps_le {items : List Item} (h : Calm items) (fuel : Nat) (s : Str) :
    stepsItems fuel s items [] ≤ (s.length + 1) * (2 * items.length + 2) := by
  have h1 : 1 * (2 * items.length + 2) ≤ (s.length + 1) * (2 * items.length + 2) :=
    Nat.mul_le_mul_right _ (by omega)
  have hq := lead_after items
  rcases (steps_calm fuel).1 s items h with h | ⟨_, h2, h3⟩ | ⟨_, h2⟩
  · omega
  · have := lead_after_star h3
    have hk : bnd s.length (after items).length + (s.length + 1) * (2 * lead items + 2) ≤
        (s.length + 1) * (2 * items.length + 2) := by
      unfold bnd
      rw [← Nat.mul_add]
      exact Nat.mul_le_mul_left _ (by omega)
    have hk2 : 1 * (2 * lead items + 2) ≤ (s.length + 1) * (2 * lead items + 2) :=
      Nat.mul_le_mul_right _ (by omega)
    omega
  · omega

end GoMatcher
