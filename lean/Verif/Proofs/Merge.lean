import Verif.Model.RunesRanges
import Verif.Proofs.Lists

/-!
# The in-place loops of `RunesRangeMerge`

`mergeGo` walks the sorted list and emits the finished ranges; the loops over the slice do the same.
-/

namespace GoMatcher

/-- A finished range: dropped when its `Last` is 0. -/
def emitRange (r : RuneRange) : List RuneRange := if r.last ≠ 0 then [r] else []

/-- `cur` is the range that is being extended, the list holds the sorted ranges behind it. -/
def mergeGo (cur : RuneRange) : List RuneRange → List RuneRange
  | [] => emitRange cur
  | nx :: rest =>
    if cur.first = nx.first ∨ cur.last + 1 ≥ nx.first then
      mergeGo (if cur.last < nx.last then { cur with last := nx.last } else cur) rest
    else emitRange cur ++ mergeGo nx rest

theorem rangeAt_append {a b : List RuneRange} {x : RuneRange} {i : Nat} (h : i = a.length) :
    rangeAt (a ++ x :: b) i = x := by
  subst h
  simp [rangeAt]

theorem set_append {a b : List RuneRange} {x y : RuneRange} {i : Nat} (h : i = a.length) :
    (a ++ x :: b).set i y = a ++ y :: b := by
  subst h
  simp

/-- What `mergeGo` emits for the ranges behind the current one. -/
def mergeTail : List RuneRange → List RuneRange
  | [] => []
  | x :: xs => mergeGo x xs

theorem mergeInner_spec (pre : List RuneRange) (l : List RuneRange) :
    ∀ (cur : RuneRange) (mid : List RuneRange) (i : Nat), i = pre.length + mid.length →
    ∃ cur' mid' l' , mergeInner pre.length l.length (i + 1) i (pre ++ cur :: (mid ++ l)) =
        (pre.length + mid'.length, pre ++ cur' :: (mid' ++ l')) ∧
      mid'.length + l'.length = mid.length + l.length ∧
      mergeGo cur l = emitRange cur' ++ mergeTail l' := by
  induction l with
  | nil =>
    intro cur mid i hi
    exact ⟨cur, mid, [], by simp [mergeInner, hi], rfl, by simp [mergeGo, mergeTail]⟩
  | cons nx l ih =>
    intro cur mid i hi
    have e1 : ∀ c : RuneRange, rangeAt (pre ++ c :: (mid ++ nx :: l)) pre.length = c := fun c => rangeAt_append rfl
    have e2 : ∀ c : RuneRange, rangeAt (pre ++ c :: (mid ++ nx :: l)) (i + 1) = nx := fun c => by
      rw [show pre ++ c :: (mid ++ nx :: l) = (pre ++ c :: mid) ++ nx :: l by simp]
      exact rangeAt_append (by simp; omega)
    have e3 : ∀ (c x : RuneRange), (pre ++ c :: (mid ++ nx :: l)).set (i + 1) x = pre ++ c :: ((mid ++ [x]) ++ l) := fun c x => by
      rw [show pre ++ c :: (mid ++ nx :: l) = (pre ++ c :: mid) ++ nx :: l by simp,
        set_append (by simp; omega)]
      simp
    rw [List.length_cons, mergeInner, e1, e2, mergeGo]
    by_cases h : cur.first = nx.first ∨ cur.last + 1 ≥ nx.first
    · rw [if_pos h, if_pos h, set_append rfl]
      by_cases h2 : cur.last < nx.last
      · simp only [if_pos h2, e2, e3]
        obtain ⟨c', m', l', k1, k2, k3⟩ := ih { cur with last := nx.last } (mid ++ [{ nx with last := 0 }]) (i + 1)
          (by simp; omega)
        exact ⟨c', m', l', k1, by simp at k2 ⊢; omega, k3⟩
      · simp only [if_neg h2, e2, e3]
        obtain ⟨c', m', l', k1, k2, k3⟩ := ih cur (mid ++ [{ nx with last := 0 }]) (i + 1) (by simp; omega)
        exact ⟨c', m', l', k1, by simp at k2 ⊢; omega, k3⟩
    · rw [if_neg h, if_neg h]
      exact ⟨cur, mid, nx :: l, by rw [hi], rfl, rfl⟩

theorem take_set_ge {a : List RuneRange} {j i : Nat} (x : RuneRange) (h : j ≤ i) :
    (a.set i x).take j = a.take j := by
  rw [List.take_set]
  exact List.set_eq_of_length_le (by simp; omega)

theorem mergeOuter_spec (n : Nat) (fuel : Nat) :
    ∀ (l pre : List RuneRange) (j : Nat), n = pre.length + l.length → l.length ≤ fuel → j ≤ pre.length →
    mergeOuter n fuel pre.length j (pre ++ l) = pre.take j ++ mergeTail l := by
  induction fuel with
  | zero =>
    intro l pre j hn hf hj
    obtain rfl := List.eq_nil_of_length_eq_zero (by omega : l.length = 0)
    simp [mergeOuter, mergeTail]
  | succ fuel ih =>
    intro l pre j hn hf hj
    cases l with
    | nil =>
      rw [mergeOuter, if_neg (by simp at hn; omega)]
      simp [mergeTail]
    | cons cur l =>
      simp only [List.length_cons] at hn hf
      obtain ⟨c', m', l', k1, k2, k3⟩ := mergeInner_spec pre l cur [] pre.length rfl
      rw [List.nil_append] at k1
      have hk : n - (pre.length + 1) = l.length := by omega
      simp only [List.length_nil] at k2
      rw [mergeOuter, if_pos (by omega), hk]
      rw [show mergeTail (cur :: l) = _ from k3]
      simp only [k1]
      by_cases hpj : pre.length = j
      · subst hpj
        simp only [ne_eq, not_true_eq_false, if_false, rangeAt_append (a := pre) rfl, List.take_length]
        have := ih l' (pre ++ c' :: m')
        simp only [List.length_append, List.length_cons, List.append_assoc, List.cons_append] at this
        rw [show pre.length + m'.length + 1 = pre.length + (m'.length + 1) by omega, this _ (by omega) (by omega)
          (by split <;> omega)]
        by_cases hz : c'.last = 0
        · simp [hz, emitRange]
        · simp [hz, emitRange, List.take_append, List.take_of_length_le]
      · have hlt : j < pre.length := by omega
        simp only [ne_eq, hpj, not_false_eq_true, if_true, rangeAt_append (a := pre) rfl]
        have hset : (pre ++ c' :: (m' ++ l')).set j c' = pre.set j c' ++ c' :: (m' ++ l') := by
          rw [List.set_append_left _ _ hlt]
        rw [hset, rangeAt_append (a := pre.set j c') (by simp), set_append (a := pre.set j c') (by simp)]
        have hat : rangeAt (pre.set j c' ++ { c' with last := 0 } :: (m' ++ l')) j = c' := by
          simp [rangeAt, List.getElem?_append, hlt]
        rw [hat]
        have := ih l' (pre.set j c' ++ { c' with last := 0 } :: m')
        simp only [List.length_append, List.length_cons, List.append_assoc, List.cons_append, List.length_set] at this
        rw [show pre.length + m'.length + 1 = pre.length + (m'.length + 1) by omega, this _ (by omega) (by omega)
          (by split <;> omega)]
        by_cases hz : c'.last = 0
        · simp only [hz, not_true_eq_false, if_false, emitRange, ne_eq, List.nil_append]
          rw [List.take_append_of_le_length (by simp; omega), take_set_ge _ (Nat.le_refl _)]
        · simp only [hz, not_false_eq_true, if_true, emitRange, ne_eq]
          rw [List.take_append_of_le_length (by simp; omega), List.take_set,
            List.take_succ_eq_append_getElem hlt, List.set_append_right _ _ (by simp; omega)]
          simp [Nat.min_eq_left hj]

theorem runesRangeMerge_eq (ranges : List RuneRange) :
    runesRangeMerge ranges = mergeTail (sortBy RuneRange.le ranges) := by
  have h := (sortBy_perm RuneRange.le ranges).length_eq
  have := mergeOuter_spec ranges.length ranges.length (sortBy RuneRange.le ranges) [] 0 (by simp [h])
    (by omega) (by simp)
  simpa [runesRangeMerge] using this

end GoMatcher
