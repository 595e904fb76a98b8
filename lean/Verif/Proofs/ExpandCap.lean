import Verif.Proofs.ExpandPanic

/-! # The capacity of the result slice -/

namespace GoMatcher

/-- Number of lists and classes. -/
def bigs (exps : List XExpr) : Nat := exps.countP fun e => e.typ = .list ∨ e.typ = .runes

theorem bigs_append (a b : List XExpr) : bigs (a ++ b) = bigs a + bigs b := by simp [bigs]

theorem bigs_pushExpr (exps : List XExpr) (e : XExpr) : bigs (pushExpr exps e) ≤ bigs exps + 1 := by
  have app : bigs (exps ++ [e]) ≤ bigs exps + 1 := by
    rw [bigs_append]
    have : bigs [e] ≤ 1 := List.countP_le_length
    omega
  unfold pushExpr
  split
  · split
    · rename_i l hl
      split
      · rename_i hlt
        obtain ⟨init, rfl⟩ : ∃ init, exps = init ++ [l] := List.getLast?_eq_some_iff.1 hl
        rw [List.dropLast_concat, bigs_append, bigs_append]
        have : bigs [{ l with body := l.body ++ e.body }] = 0 := by simp [bigs, hlt]
        omega
      · split
        · exact app
        · omega
    · split
      · exact app
      · omega
  · exact app

/-- Opening brackets. -/
def opens (s : Str) : Nat := s.countP fun b => b = 123 ∨ b = 91

theorem opens_append (a b : Str) : opens (a ++ b) = opens a + opens b := by simp [opens]

theorem bigs_parseLoop (n : Nat) (s : Str) (exps out : List XExpr) (h : xParseLoop n s exps = .ok out) :
    bigs out ≤ bigs exps + opens s := by
  have str : ∀ (exps : List XExpr) (b : Str), bigs (exps ++ [{ body := b }]) = bigs exps := by
    intro exps b; rw [bigs_append]; simp [bigs]
  have wild : ∀ (exps : List XExpr) (b : Str), bigs (exps ++ [{ typ := .wild, body := b }]) = bigs exps := by
    intro exps b; rw [bigs_append]; simp [bigs]
  induction n generalizing s exps with
  | zero => rw [xParseLoop] at h; cases h
  | succ n ih =>
    rw [xParseLoop] at h
    rcases getPair_cases s with ⟨hw, hg⟩ | ⟨a, o, x, c, t, rfl, ha, hx, hb, hg⟩ | ⟨a, w, t, rfl, ha, hw, hg⟩
    · rw [hg] at h
      cases h
      rw [str]
      omega
    · rw [hg] at h
      dsimp only at h
      have e2 : (a ++ o :: (x ++ c :: t)).drop (a.length + 1 + x.length + 1) = t := by
        have : a ++ o :: (x ++ c :: t) = (a ++ (o :: x ++ [c])) ++ t := by simp
        rw [this, show a.length + 1 + x.length + 1 = (a ++ (o :: x ++ [c])).length by simp; omega,
          List.drop_left]
      rw [e2] at h
      have h1 : bigs (if a.length > 0 then exps ++ [{ body := (a ++ o :: (x ++ c :: t)).take a.length }] else exps) = bigs exps := by
        split
        · rw [str]
        · rfl
      generalize (if a.length > 0 then exps ++ [{ body := (a ++ o :: (x ++ c :: t)).take a.length }] else exps) = exps1 at *
      have h2 := bigs_pushExpr exps1 (getExpression (((a ++ o :: (x ++ c :: t)).take (a.length + 1 + x.length + 1)).drop a.length))
      generalize pushExpr exps1 (getExpression (((a ++ o :: (x ++ c :: t)).take (a.length + 1 + x.length + 1)).drop a.length)) = exps2 at *
      have ho : opens (a ++ o :: (x ++ c :: t)) ≥ 1 + opens t := by
        have : a ++ o :: (x ++ c :: t) = a ++ [o] ++ x ++ [c] ++ t := by simp
        rw [this]
        simp only [opens_append]
        have : opens [o] = 1 := by rcases hb with ⟨rfl, _⟩ | ⟨rfl, _⟩ <;> rfl
        omega
      split at h
      · cases h
        omega
      · have := ih t exps2 h
        omega
    · rw [hg] at h
      dsimp only at h
      cases h
      rw [wild]
      split
      · rw [str]; omega
      · omega

theorem bigs_parse {s : Str} {exps : List XExpr} (h : parseExpr s = .ok exps) : bigs exps ≤ opens s := by
  cases hg : getPair s with
  | mk p q =>
    cases q with
    | some q =>
      rw [parseExpr_pair hg] at h
      cases hl : xParseLoop (s.length + 1) s [] with
      | ok out =>
        rw [hl, R.bind_ok] at h
        have h1 := bigs_parseLoop _ _ _ _ hl
        have h2 : bigs ([] : List XExpr) = 0 := rfl
        unfold splitLast at h
        split at h
        · cases h
        · rename_i l hlast
          split at h
          · rename_i hlt
            dsimp only at h
            split at h
            · cases h
              obtain ⟨init, rfl⟩ : ∃ init, out = init ++ [l] := List.getLast?_eq_some_iff.1 hlast
              rw [List.dropLast_concat, bigs_append]
              rw [bigs_append] at h1
              have : bigs [{ l with body := l.body.take (lastWildEnd l.body) }, { body := l.body.drop (lastWildEnd l.body) }] = 0 := by
                simp [bigs, hlt]
              omega
            · cases h; omega
          · cases h; omega
      | panic => rw [hl] at h; cases h
      | timeout => rw [hl] at h; cases h
    | none =>
      unfold parseExpr at h
      rw [hg] at h
      split at h
      · cases h; simp [bigs]
      · dsimp only at h
        split at h
        · cases h; simp [bigs]
        · cases h; simp [bigs]
      · dsimp only at h
        split at h
        · cases h; simp [bigs]
        · cases h; simp [bigs]
      · rename_i h1 
        simp at h1

theorem capCount_bound {K : Int} (hK : 1 ≤ K) (exps : List XExpr) (h : ∀ e ∈ exps, GoodExpr K e) (c : Int) (hc : 0 ≤ c)
    (hb : c * K ^ bigs exps ≤ 2 ^ 44) : 0 ≤ capCount c exps ∧ capCount c exps ≤ 2 ^ 44 := by
  have powpos : ∀ n : Nat, 1 ≤ K ^ n := by
    intro n
    induction n with
    | zero => simp
    | succ n ih =>
      rw [Int.pow_succ]
      have : 1 * 1 ≤ K ^ n * K := Int.mul_le_mul ih hK (by omega) (by omega)
      omega
  induction exps generalizing c with
  | nil =>
    rw [capCount]
    simp [bigs] at hb
    exact ⟨hc, by omega⟩
  | cons e es ih =>
    have hg := h e (by simp)
    have hcount : 0 ≤ e.count := by
      have := hg.le
      omega
    have key : 0 ≤ c * e.count ∧ (c * e.count) * K ^ bigs es ≤ 2 ^ 44 := by
      refine ⟨Int.mul_nonneg hc hcount, ?_⟩
      refine Int.le_trans ?_ hb
      by_cases hbig : e.typ = .list ∨ e.typ = .runes
      · have : bigs (e :: es) = bigs es + 1 := by simp [bigs, hbig]
        rw [this, Int.pow_succ]
        have h1 : c * e.count ≤ c * K := Int.mul_le_mul_of_nonneg_left hg.bound hc
        have h2 := Int.mul_le_mul_of_nonneg_right h1 (show 0 ≤ K ^ bigs es by have := powpos (bigs es); omega)
        rw [Int.mul_comm (K ^ bigs es) K, ← Int.mul_assoc]
        exact h2
      · have : bigs (e :: es) = bigs es := by simp [bigs, hbig]
        rw [this]
        have h1 : e.count = 1 := by
          unfold XExpr.count
          cases ht : e.typ with
          | str => rfl
          | wild => rfl
          | list => exact absurd (.inl ht) hbig
          | runes => exact absurd (.inr ht) hbig
        rw [h1, Int.mul_one]
        exact Int.le_refl _
    have hle : c * e.count ≤ 2 ^ 44 := by
      have h1 := powpos (bigs es)
      have h2 := Int.mul_le_mul_of_nonneg_left h1 key.1
      omega
    have hint : int64 (c * e.count) = c * e.count := int64_small (by omega) (by omega)
    rw [capCount]
    simp only [hint]
    split
    · exact ⟨key.1, hle⟩
    · exact ih (fun x hx => h x (by simp [hx])) _ key.1 key.2

end GoMatcher
