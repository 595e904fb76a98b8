import Verif.Proofs.Expand

/-! # Laws of the expansion results -/

namespace GoMatcher

theorem int64_small {x : Int} (h1 : -(2 ^ 63) ≤ x) (h2 : x < 2 ^ 63) : int64 x = x := by
  unfold int64
  rw [Int.bmod_def]
  have h3 : ((2 ^ 64 : Nat) : Int) = 18446744073709551616 := by decide
  rw [h3]
  split <;> omega

theorem int64_idem (x : Int) : int64 (int64 x) = int64 x := by
  unfold int64
  simp

/-- The texts as written, one after the other. -/
def bodies : List XExpr → Str
  | [] => []
  | e :: es => e.body ++ bodies es

theorem outs_zero (es : List XExpr) (c d : Int) : outs es c 0 d = [bodies es] := by
  induction es generalizing c d with
  | nil => rfl
  | cons e es ih =>
    have hm : nextMax e c 0 d = 0 := by
      unfold nextMax
      simp
    rw [outs, hm, if_pos rfl, ih]
    rfl

/-- States that `expand` goes through. -/
structure Valid (c m d : Int) : Prop where
  count : m > 0 → c ≤ m
  norm : m > 0 → int64 c = c
  depth : 0 < d → d ≤ 1 → m = 0

theorem valid_start (max depth : Int) : Valid 0 max (if depth > 0 then depth + 1 else depth) where
  count h := by omega
  norm _ := by decide
  depth h1 h2 := by split at h1 <;> split at h2 <;> omega

theorem nextMax_cases (e : XExpr) (c m d : Int) :
    nextMax e c m d = 0 ∨ (nextMax e c m d = m ∧ ¬ (m > 0 ∧ m < nextCount e c m)) := by
  unfold nextMax
  dsimp only
  by_cases h1 : d > 0 ∧ (e.typ = .str ∨ e.typ = .wild) ∧ nextDepth e d ≤ 1
  · rw [if_pos h1]; exact .inl rfl
  · rw [if_neg h1]
    by_cases h2 : m > 0 ∧ m < nextCount e c m
    · rw [if_pos h2]; exact .inl rfl
    · rw [if_neg h2]; exact .inr ⟨rfl, h2⟩

theorem Valid.next {c m d : Int} (h : Valid c m d) (e : XExpr) :
    Valid (nextCount e c m) (nextMax e c m d) (nextDepth e d) := by
  refine ⟨?_, ?_, ?_⟩
  · intro hm
    rcases nextMax_cases e c m d with h1 | ⟨h1, h2⟩ <;> omega
  · intro hm
    have : m > 0 := by
      rcases nextMax_cases e c m d with h1 | ⟨h1, h2⟩ <;> omega
    unfold nextCount
    rw [if_pos this, int64_idem]
  · intro h1 h2
    unfold nextMax
    unfold nextDepth at h1 h2
    by_cases hd : d > 0 ∧ (e.typ = .str ∨ e.typ = .wild)
    · rw [if_pos hd] at h1 h2
      rw [if_pos ⟨hd.1, hd.2, by unfold nextDepth; rw [if_pos hd]; exact h2⟩]
    · rw [if_neg hd] at h1 h2
      have := h.depth h1 h2
      subst this
      simp

theorem outs_count (es : List XExpr) {c c' m d : Int} (h : m > 0 → (if c ≤ 0 then (1 : Int) else c) = if c' ≤ 0 then 1 else c')
    (hm : m ≤ 0 → c = c') : outs es c m d = outs es c' m d := by
  by_cases hp : m > 0
  · cases es with
    | nil => rfl
    | cons e es =>
      have h1 : nextCount e c m = nextCount e c' m := by
        unfold nextCount
        rw [if_pos hp, if_pos hp, h hp]
      have h2 : nextMax e c m d = nextMax e c' m d := by
        unfold nextMax
        rw [h1]
      rw [outs, outs, h1, h2]
  · rw [hm (by omega)]

theorem outs_fixed {e : XExpr} (he : e.alts = [e.body]) (es : List XExpr) (c m d : Int) :
    outs (e :: es) c m d =
      (outs es (nextCount e c m) (nextMax e c m d) (nextDepth e d)).map (e.body ++ ·) := by
  rw [outs]
  split
  · rfl
  · rw [he]; simp

theorem alts_str {e : XExpr} (h : e.typ = .str) : e.alts = [e.body] := by
  unfold XExpr.alts; rw [h]

theorem alts_wild {e : XExpr} (h : e.typ = .wild) : e.alts = [e.body] := by
  unfold XExpr.alts; rw [h]

theorem dots_append (x y : Str) : dots (x ++ y) = dots x + dots y := by simp [dots]

theorem count_str {e : XExpr} (h : e.typ = .str) : e.count = 1 := by
  unfold XExpr.count; rw [h]

theorem nextCount_str {e : XExpr} (h : e.typ = .str) {c m d : Int} (hv : Valid c m d) :
    nextCount e c m = if m > 0 then (if c ≤ 0 then 1 else c) else c := by
  unfold nextCount
  by_cases hm : m > 0
  · rw [if_pos hm, if_pos hm, count_str h, Int.mul_one]
    by_cases hc : c ≤ 0
    · rw [if_pos hc]; decide
    · rw [if_neg hc, hv.norm hm]
  · rw [if_neg hm, if_neg hm]

theorem nextMax_str {e : XExpr} (h : e.typ = .str) {c m d : Int} (hv : Valid c m d) :
    nextMax e c m d = if d > 0 ∧ nextDepth e d ≤ 1 then 0 else m := by
  have h1 : ¬ (m > 0 ∧ m < nextCount e c m) := by
    rw [nextCount_str h hv]
    rintro ⟨h1, h2⟩
    rw [if_pos h1] at h2
    have := hv.count h1
    split at h2 <;> omega
  unfold nextMax
  simp only [h, true_or, true_and]
  rw [if_neg h1]

theorem nextDepth_str {e : XExpr} (h : e.typ = .str) (d : Int) :
    nextDepth e d = if d > 0 then d - dots e.body else d := by
  unfold nextDepth
  simp [h]

/-- Lists that cannot be told apart by the result. -/
structure Eqv (a b : List XExpr) : Prop where
  outs : ∀ c m d, Valid c m d → outs a c m d = outs b c m d
  cap : ∀ c, int64 c = c → capCount c a = capCount c b

theorem Eqv.refl (a : List XExpr) : Eqv a a := ⟨fun _ _ _ _ => rfl, fun _ _ => rfl⟩

theorem Eqv.trans {a b c : List XExpr} (h1 : Eqv a b) (h2 : Eqv b c) : Eqv a c :=
  ⟨fun x m d hv => (h1.outs x m d hv).trans (h2.outs x m d hv),
   fun x hx => (h1.cap x hx).trans (h2.cap x hx)⟩

theorem Eqv.symm {a b : List XExpr} (h1 : Eqv a b) : Eqv b a :=
  ⟨fun x m d hv => (h1.outs x m d hv).symm, fun x hx => (h1.cap x hx).symm⟩

theorem Eqv.cons {a b : List XExpr} (e : XExpr) (h : Eqv a b) : Eqv (e :: a) (e :: b) := by
  refine ⟨fun c m d hv => ?_, fun c hc => ?_⟩
  · rw [GoMatcher.outs, GoMatcher.outs, h.outs _ _ _ (hv.next e)]
  · rw [capCount, capCount]
    rw [h.cap _ (int64_idem _)]

theorem Eqv.append {a b : List XExpr} (l : List XExpr) (h : Eqv a b) : Eqv (l ++ a) (l ++ b) := by
  induction l with
  | nil => exact h
  | cons e l ih => exact ih.cons e

theorem eqv_merge {e f g : XExpr} (he : e.typ = .str) (hf : f.typ = .str) (hg : g.typ = .str)
    (hb : g.body = e.body ++ f.body) (es : List XExpr) : Eqv (e :: f :: es) (g :: es) := by
  refine ⟨fun c m d hv => ?_, fun c hc => ?_⟩
  · rw [outs_fixed (alts_str he), outs_fixed (alts_str hf), outs_fixed (alts_str hg), List.map_map]
    have hmap : ((fun x => e.body ++ x) ∘ fun x => f.body ++ x) = (fun x => g.body ++ x) := by
      funext x; simp [hb, List.append_assoc]
    rw [hmap]
    congr 1
    have hv1 := hv.next e
    rw [nextCount_str hf hv1, nextMax_str hf hv1, nextCount_str he hv, nextMax_str he hv,
      nextCount_str hg hv, nextMax_str hg hv, nextDepth_str hf, nextDepth_str he, nextDepth_str hg,
      hb, dots_append]
    by_cases hd : d > 0
    · simp only [hd, if_true, true_and]
      by_cases h1 : d - (dots e.body : Int) ≤ 1
      · have h2 : d - ((dots e.body + dots f.body : Nat) : Int) ≤ 1 := by omega
        rw [if_pos h1, if_pos h2]
        have h0 : (if d - (dots e.body : Int) > 0 ∧ (if d - (dots e.body : Int) > 0 then d - (dots e.body : Int) - dots f.body
            else d - (dots e.body : Int)) ≤ 1 then (0 : Int) else 0) = 0 := ite_self 0
        rw [h0, outs_zero, outs_zero]
      · have h3 : d - (dots e.body : Int) > 0 := by omega
        rw [if_neg h1]
        simp only [h3, if_true, true_and]
        have h4 : d - (dots e.body : Int) - dots f.body = d - ((dots e.body + dots f.body : Nat) : Int) := by omega
        rw [h4]
        by_cases hm : m > 0
        · simp only [hm, if_true]
          congr 1
          split <;> (try split) <;> omega
        · simp [hm]
    · simp only [hd, if_false, false_and]
      by_cases hm : m > 0
      · simp only [hm, if_true]
        congr 1
        split <;> (try split) <;> omega
      · simp [hm]
  · simp [capCount, he, hf, hg, count_str, int64_idem]

theorem eqv_nil {e : XExpr} (he : e.typ = .str) (hb : e.body = []) (es : List XExpr) :
    Eqv (e :: es) es := by
  refine ⟨fun c m d hv => ?_, fun c hc => ?_⟩
  · rw [outs_fixed (alts_str he), hb]
    have hd : nextDepth e d = d := by
      rw [nextDepth_str he, hb]
      simp [dots]
    have hm : nextMax e c m d = m := by
      rw [nextMax_str he hv, hd]
      split
      · rename_i h
        exact (hv.depth h.1 h.2).symm
      · rfl
    rw [hd, hm, nextCount_str he hv]
    have : (fun x : Str => [] ++ x) = id := by funext x; rfl
    rw [this, List.map_id]
    apply outs_count
    · intro h
      rw [if_pos h]
      split <;> (try split) <;> omega
    · intro h
      rw [if_neg (by omega)]
  · simp [capCount, he, count_str, hc]

/-- A wildcard piece cut in two. -/
theorem eqv_wild {e f g : XExpr} (he : e.typ = .wild) (hf : f.typ = .str) (hg : g.typ = .wild)
    (hb : g.body = e.body ++ f.body) : Eqv [e, f] [g] := by
  refine ⟨fun c m d hv => ?_, fun c hc => ?_⟩
  · rw [outs_fixed (alts_wild he), outs_fixed (alts_str hf), outs_fixed (alts_wild hg)]
    simp [outs, hb]
  · simp [capCount, he, hg, XExpr.count]

theorem topOuts_eq (exps : List XExpr) (max depth : Int) :
    topOuts exps max depth = outs exps 0 max (if depth > 0 then depth + 1 else depth) := by
  unfold topOuts
  split
  · rename_i e
    split
    · rename_i h
      rw [outs_fixed (alts_str h)]
      simp [outs]
    · rfl
  · rfl

theorem capFine_iff (exps : List XExpr) : CapFine exps ↔ capOk (capCount 1 exps) = true := by
  unfold CapFine
  constructor
  · rintro (⟨e, h1, h2⟩ | h)
    · rw [h1]
      simp only [capCount, count_str h2, h2]
      decide
    · exact h
  · exact .inr

theorem expressionsExpand_panic {exps : List XExpr} (h : ¬ CapFine exps) (max depth : Int) (t : Bool) :
    expressionsExpand exps max depth t = .panic := by
  have h1 : capOk (capCount 1 exps) = false := by
    rw [capFine_iff] at h
    simpa using h
  unfold expressionsExpand
  split
  · rename_i e
    rw [if_neg (fun he => h (.inl ⟨e, rfl, he⟩)), h1]
    rfl
  · rw [h1]
    rfl

/-! ## Number of results -/

theorem length_flatMap_map (l : List Str) (O : List Str) :
    (l.flatMap fun a => O.map (a ++ ·)).length = l.length * O.length := by
  induction l with
  | nil => simp
  | cons a l ih => simp [ih, Nat.succ_mul, Nat.add_comm]

theorem outs_pos (es : List XExpr) (h : ∀ e ∈ es, e.alts ≠ []) (c m d : Int) :
    0 < (outs es c m d).length := by
  induction es generalizing c m d with
  | nil => simp [outs]
  | cons e es ih =>
    have ih := ih (fun x hx => h x (by simp [hx])) (nextCount e c m) (nextMax e c m d) (nextDepth e d)
    rw [outs]
    split
    · simpa using ih
    · rw [length_flatMap_map]
      exact Nat.mul_pos (List.length_pos_iff.2 (h e (by simp))) ih

/-- With a limit the number of results stays within it.  `K` bounds the number of texts per
expression; the product must stay in the range of `int`. -/
theorem outs_le (es : List XExpr) (K : Int)
    (h : ∀ e ∈ es, e.alts ≠ [] ∧ (e.alts.length : Int) ≤ e.count ∧ e.count ≤ K)
    (c m d : Int) (hv : Valid c m d) (hm : 0 < m) (hK : m * K < 2 ^ 63) :
    (if c ≤ 0 then 1 else c) * ((outs es c m d).length : Int) ≤ m := by
  induction es generalizing c d with
  | nil =>
    have := hv.count hm
    simp only [outs, List.length_singleton]
    split <;> omega
  | cons e es ih =>
    obtain ⟨h1, h2, h3⟩ := h e (by simp)
    have hpos : 0 < e.alts.length := List.length_pos_iff.2 h1
    have hc0 := hv.count hm
    have hbase : (if c ≤ 0 then 1 else c) ≤ m := by split <;> omega
    have hb1 : 1 ≤ (if c ≤ 0 then 1 else c) := by split <;> omega
    generalize hbdef : (if c ≤ 0 then 1 else c) = b at *
    rw [outs]
    by_cases hz : nextMax e c m d = 0
    · rw [if_pos hz, hz, outs_zero]
      simpa using hbase
    · rw [if_neg hz, length_flatMap_map]
      rcases nextMax_cases e c m d with h4 | ⟨h4, h5⟩
      · exact absurd h4 hz
      · have hcnt : nextCount e c m = b * e.count := by
          unfold nextCount
          rw [if_pos hm, hbdef]
          apply int64_small
          · have : 0 ≤ b * e.count := Int.mul_nonneg (by omega) (by omega)
            omega
          · have : b * e.count ≤ m * K := Int.mul_le_mul hbase h3 (by omega) (by omega)
            omega
        have hv' := hv.next e
        rw [h4, hcnt] at hv'
        have h6 : 1 ≤ b * e.count := by
          have : 1 * 1 ≤ b * e.count := Int.mul_le_mul hb1 (by omega) (by omega) (by omega)
          omega
        have := ih (fun x hx => h x (by simp [hx])) (b * e.count) (nextDepth e d) hv'
        rw [if_neg (by omega)] at this
        rw [h4, hcnt]
        generalize ((outs es (b * e.count) m (nextDepth e d)).length) = L at *
        refine Int.le_trans ?_ this
        rw [Int.mul_assoc]
        apply Int.mul_le_mul_of_nonneg_left _ (by omega)
        rw [Int.natCast_mul]
        exact Int.mul_le_mul_of_nonneg_right h2 (by omega)

theorem capOk_int64 (n : Nat) : capOk (int64 (n : Int)) = true ↔ n % 2 ^ 64 ≤ 2 ^ 44 := by
  unfold capOk int64
  rw [Int.bmod_def]
  simp only [decide_eq_true_eq]
  have h3 : ((2 ^ 64 : Nat) : Int) = 18446744073709551616 := by decide
  rw [h3]
  have h4 : (2 ^ 64 : Nat) = 18446744073709551616 := by decide
  rw [h4]
  split <;> omega

end GoMatcher
