import Verif.Model.Wildcard
import Verif.Proofs.Utf8Inv

/-! # Scans by runes and scans by bytes -/

namespace GoMatcher

/-- The next rune of any byte string: either one byte below 128, or bytes that are all at least 128
and a rune that is at least 128. -/
theorem decodeRune_ascii_or {b : UInt8} {t : Str} :
    (b.toNat < 128 ∧ decodeRune (b :: t) = (b.toNat, 1)) ∨
    (128 ≤ (decodeRune (b :: t)).1 ∧ 1 ≤ (decodeRune (b :: t)).2 ∧
      ∀ c ∈ (b :: t).take (decodeRune (b :: t)).2, 128 ≤ c.toNat) := by
  by_cases hb : b.toNat < 128
  · left
    refine ⟨hb, ?_⟩
    rw [decodeRune]
    simp [hb]
  · right
    rcases decodeRune_inv (s := b :: t) (by simp) with h | ⟨r, t', ho, h1, h2⟩
    · rw [h]
      refine ⟨by decide, Nat.le_refl _, ?_⟩
      intro c hc
      simp only [List.take_succ_cons, List.take_zero, List.mem_singleton] at hc
      subst hc; omega
    · rw [h2]
      dsimp only
      rw [h1, List.take_left']
      · have hr : 128 ≤ r := by
          apply Classical.byContradiction
          intro hlt
          have : encodeRune r = [UInt8.ofNat r] := by simp [encodeRune]; omega
          rw [this] at h1
          simp only [List.cons_append, List.cons.injEq] at h1
          rw [h1.1, ofNat_toNat_lt (by omega)] at hb
          omega
        refine ⟨hr, encodeRune_pos r, ?_⟩
        intro c hc
        have hsz := ho
        unfold encodeRune at hc
        have hlt : r ≤ 0x10FFFF := by unfold RuneOk at ho; omega
        split at hc
        · omega
        · split at hc
          · simp only [List.mem_cons, List.not_mem_nil, or_false] at hc
            rcases hc with rfl | rfl <;> rw [ofNat_toNat_lt (by omega)] <;> omega
          · split at hc
            · simp only [List.mem_cons, List.not_mem_nil, or_false] at hc
              rcases hc with rfl | rfl | rfl <;> decide
            · split at hc
              · simp only [List.mem_cons, List.not_mem_nil, or_false] at hc
                rcases hc with rfl | rfl | rfl <;> rw [ofNat_toNat_lt (by omega)] <;> omega
              · simp only [List.mem_cons, List.not_mem_nil, or_false] at hc
                rcases hc with rfl | rfl | rfl | rfl <;> rw [ofNat_toNat_lt (by omega)] <;> omega
      · rfl

/-- Number of runes with a property that only ASCII has: the number of bytes. -/
theorem rangeStr_count (P : Nat → Prop) [DecidablePred P] (hP : ∀ n, P n → n < 128) (f i n : Nat)
    (s : Str) (hf : s.length ≤ f) :
    (rangeStr.go f i s).foldl (fun n p => if P p.2 then n + 1 else n) n =
      n + s.countP fun b => decide (P b.toNat) := by
  induction f generalizing i n s with
  | zero =>
    cases s with
    | nil => simp [rangeStr.go]
    | cons b t => simp at hf
  | succ f ih =>
    cases s with
    | nil => simp [rangeStr.go]
    | cons b t =>
      rw [rangeStr.go]
      rw [List.foldl_cons]
      dsimp only
      simp only [List.length_cons] at hf
      rcases decodeRune_ascii_or (b := b) (t := t) with ⟨h1, h2⟩ | ⟨h1, h2, h3⟩
      · rw [h2]
        dsimp only
        rw [List.drop_succ_cons, List.drop_zero, ih _ _ _ (by omega), List.countP_cons]
        by_cases hp : P b.toNat
        · simp only [hp, if_true, decide_true]; omega
        · simp [hp]
      · rw [if_neg (fun hp => by have := hP _ hp; omega),
          ih _ _ _ (by rw [List.length_drop, List.length_cons]; omega)]
        have : (b :: t).countP (fun b => decide (P b.toNat)) =
            ((b :: t).drop (decodeRune (b :: t)).2).countP fun b => decide (P b.toNat) := by
          conv => lhs; rw [← List.take_append_drop (decodeRune (b :: t)).2 (b :: t)]
          rw [List.countP_append]
          have : ((b :: t).take (decodeRune (b :: t)).2).countP (fun b => decide (P b.toNat)) = 0 := by
            rw [List.countP_eq_zero]
            intro c hc hp
            have := hP _ (by simpa using hp)
            have := h3 c hc
            omega
          omega
        rw [this]

/-- First rune with a property that only ASCII has: the first byte with it. -/
theorem rangeStr_find (P : Nat → Bool) (hP : ∀ n, P n = true → n < 128) (f i : Nat)
    (s : Str) (hf : s.length ≤ f) :
    ((rangeStr.go f i s).find? fun p => P p.2).map Prod.fst =
      (indexP (fun b => P b.toNat) s).map (i + ·) := by
  induction f generalizing i s with
  | zero =>
    cases s with
    | nil => simp [rangeStr.go, indexP]
    | cons b t => simp at hf
  | succ f ih =>
    cases s with
    | nil => simp [rangeStr.go, indexP]
    | cons b t =>
      rw [rangeStr.go]
      rw [List.find?_cons]
      dsimp only
      simp only [List.length_cons] at hf
      rcases decodeRune_ascii_or (b := b) (t := t) with ⟨h1, h2⟩ | ⟨h1, h2, h3⟩
      · rw [h2]
        dsimp only
        rw [List.drop_succ_cons, List.drop_zero, indexP]
        cases hp : P b.toNat with
        | true => simp
        | false =>
          dsimp only
          rw [ih _ _ (by omega)]
          simp only [Bool.false_eq_true, if_false, Option.map_map]
          congr 1
          funext k
          simp only [Function.comp]
          omega
      · have hf1 : P (decodeRune (b :: t)).1 = false := by
          cases h : P (decodeRune (b :: t)).1 with
          | false => rfl
          | true => have := hP _ h; omega
        rw [hf1]
        dsimp only
        rw [ih _ _ (by rw [List.length_drop, List.length_cons]; omega)]
        have key : ∀ (k : Nat) (l : Str), (∀ c ∈ l.take k, 128 ≤ c.toNat) → k ≤ l.length →
            indexP (fun b => P b.toNat) l =
              (indexP (fun b => P b.toNat) (l.drop k)).map (k + ·) := by
          intro k
          induction k with
          | zero => intro l _ _; simp
          | succ k ihk =>
            intro l hl hk
            cases l with
            | nil => simp at hk
            | cons c l =>
              have hc : P c.toNat = false := by
                cases h : P c.toNat with
                | false => rfl
                | true =>
                  have := hP _ h
                  have := hl c (by simp)
                  omega
              rw [indexP]
              simp only [hc, Bool.false_eq_true, if_false]
              rw [ihk l (fun d hd => hl d (by simp [hd])) (by simpa using hk), List.drop_succ_cons,
                Option.map_map]
              congr 1
              funext j
              simp only [Function.comp]
              omega
        rw [key (decodeRune (b :: t)).2 (b :: t) h3 (decodeRune_width_le _), Option.map_map]
        congr 1
        funext k
        simp only [Function.comp]
        omega

end GoMatcher
