import Verif.Proofs.StepsParse
import Verif.Proofs.ParseGlob

/-! # C71: the number of steps of `Match`

`Glob.matchSteps` counts rounds of `matchItems` and `matchStarItems` and the values tried in lists and
groups (`Model/Steps`). -/

namespace GoMatcher

/-- `{a,aa}` written `k` times. -/
def braces : Nat → Str
  | 0 => []
  | k + 1 => b!"{a,aa}" ++ braces k

/-- `k` times `a` and a `b`. -/
def longA (k : Nat) : Str := List.replicate k 97 ++ [98]

/-- The item of `{a,aa}`. -/
def aaItem : Item :=
  .list { vals := [b!"a", b!"aa"], minSize := 1, maxSize := 2, asciiStarted := true,
          firstASCII := (({} : ASCIISet).add 97).1 }

theorem braces_length (k : Nat) : (braces k).length = 6 * k := by
  induction k with
  | zero => rfl
  | succ k ih => rw [braces, List.length_append, ih]; simp; omega

theorem longA_length (k : Nat) : (longA k).length = k + 1 := by simp [longA]

theorem longA_succ (k : Nat) : longA (k + 1) = 97 :: longA k := by
  simp [longA, List.replicate_succ]

theorem next_braces (fuel : Nat) (t : Str) :
    nextItem (fuel + 1) (b!"{a,aa}" ++ t) = .ok (.ok (some aaItem, t)) := by
  have h1 : cutAfter (b!"{a,aa}" ++ t) 125 = .ok (b!"{a,aa}", t) := by
    have h : strIndex (b!"{a,aa}" ++ t) [125] = some 5 := by
      simp [strIndex]
    unfold cutAfter
    rw [h]
    simp [sliceFrom, sliceTo]
  have h2 : listExpand (b!"{a,aa}") = some [b!"a", b!"aa"] := by decide +kernel
  have h3 : listItem [b!"a", b!"aa"] = .inl (.ok (some aaItem)) := by rfl
  have e : b!"{a,aa}" ++ t = 123 :: (b!"a,aa}" ++ t) := rfl
  rw [e] at h1 ⊢
  rw [nextItem]
  dsimp only
  rw [if_neg (by decide), if_pos rfl, h1, R.bind_ok]
  dsimp only
  rw [h2]
  dsimp only
  rw [h3]
  rfl

theorem step_aa (st : ParseSt) :
    (st.step aaItem).inners = st.inners ++ [aaItem] ∧
    (st.step aaItem).minLen = st.minLen + 1 ∧
    (0 ≤ st.maxLen → (st.step aaItem).maxLen = st.maxLen + 2) ∧
    (st.step aaItem).pref = st.pref := by
  unfold ParseSt.step
  dsimp only
  have hm : ∀ m, mergeItem m aaItem = none := by intro m; cases m <;> rfl
  by_cases h0 : st.inners.length = 0
  · rw [if_pos h0]
    have h0 : st.inners = [] := List.length_eq_zero_iff.1 h0
    refine ⟨by rw [h0]; rfl, rfl, fun h => ?_, rfl⟩
    show addMaxLen st.maxLen 2 = _
    unfold addMaxLen
    rw [if_pos (by omega)]
  · rw [if_neg h0]
    refine ⟨?_, rfl, fun h => ?_, rfl⟩
    · show appendItem st.inners aaItem = _
      unfold appendItem
      cases hl : st.inners.getLast? with
      | none =>
        rw [List.getLast?_eq_none_iff] at hl
        rw [hl] at h0
        exact absurd rfl h0
      | some m => dsimp only; rw [hm]
    · show addMaxLen st.maxLen 2 = _
      unfold addMaxLen
      rw [if_pos (by omega)]

theorem loop_braces (k fuel : Nat) (hf : k + 1 ≤ fuel) (st : ParseSt) (h0 : 0 ≤ st.maxLen) :
    ∃ st', parseLoop fuel (braces k) st = .ok (.ok st') ∧
      st'.inners = st.inners ++ List.replicate k aaItem ∧ st'.minLen = st.minLen + k ∧
      st'.maxLen = st.maxLen + 2 * k ∧ st'.pref = st.pref := by
  induction k generalizing fuel st with
  | zero =>
    obtain ⟨f, rfl⟩ : ∃ f, fuel = f + 1 := ⟨fuel - 1, by omega⟩
    exact ⟨st, by rw [braces, parseLoop], by simp, by simp, by simp, rfl⟩
  | succ k ih =>
    obtain ⟨f, rfl⟩ : ∃ f, fuel = (f + 1) + 1 := ⟨fuel - 2, by omega⟩
    obtain ⟨s1, s2, s3, s4⟩ := step_aa st
    have s3 := s3 h0
    obtain ⟨st', e, i1, i2, i3, i4⟩ := ih (f + 1) (by omega) (st.step aaItem) (by omega)
    refine ⟨st', ?_, ?_, by omega, by omega, by rw [i4, s4]⟩
    · have hn := next_braces f (braces k)
      rw [braces]
      have e' : b!"{a,aa}" ++ braces k = 123 :: (b!"a,aa}" ++ braces k) := rfl
      rw [e'] at hn ⊢
      rw [parseLoop, hn, R.bind_ok]
      exact e
    · rw [i1, s1, List.append_assoc]
      rfl

theorem braces_last (k : Nat) : ∃ i, braces (k + 1) = i ++ [125] := by
  induction k with
  | zero => exact ⟨b!"{a,aa", rfl⟩
  | succ k ih =>
    obtain ⟨i, hi⟩ := ih
    exact ⟨b!"{a,aa}" ++ i, by rw [braces, hi, List.append_assoc]⟩

/-- How the repeated list is parsed. -/
theorem parse_braces (k : Nat) : ∃ g, parseGlob (braces (k + 1)) = .ok (.ok g) ∧
    g.items = List.replicate (k + 1) aaItem ∧ g.minLen = k + 1 ∧ g.maxLen = 2 * k + 2 ∧
    g.pref = [] ∧ g.suff = [] ∧ g.vals = [] ∧ g.node ≠ [42] := by
  obtain ⟨i, hi⟩ := braces_last k
  have hlen := braces_length (k + 1)
  have hil : i.length = 6 * k + 5 := by
    rw [hi] at hlen; simp at hlen; omega
  have h1 : indexWildcard (braces (k + 1)) = some 0 := rfl
  have h2 : indexLastWildcard (braces (k + 1)) = some (6 * k + 5) := by
    rw [hi, indexLastWildcard, lastIndexP_append i (t := []) (by decide) (by simp), hil]
  obtain ⟨st', e, i1, i2, i3, i4⟩ := loop_braces (k + 1)
    (parseFuel (braces (k + 1)).length) (by rw [hlen, parseFuel]; omega)
    { minLen := 0, maxLen := 0, pref := [] } (Int.le_refl 0)
  have hb : braces (k + 1) = 123 :: (b!"a,aa}" ++ braces k) := rfl
  have htake : takeSuffix st'.inners [] = (st'.inners, []) := by
    rw [i1]
    unfold takeSuffix
    split
    · rw [List.nil_append, List.replicate_succ', List.getLast?_append]
      rfl
    · rfl
  let g0 : Glob := { glob := braces (k + 1), minLen := st'.minLen, maxLen := st'.maxLen,
                     pref := st'.pref, items := st'.inners, suff := [] }
  have hg0 : g0.items = List.replicate (k + 1) aaItem := by
    show st'.inners = _
    rw [i1]; rfl
  have hfin : (finishGlob g0).items = g0.items ∧ (finishGlob g0).minLen = g0.minLen ∧
      (finishGlob g0).maxLen = g0.maxLen ∧ (finishGlob g0).pref = g0.pref ∧
      (finishGlob g0).suff = g0.suff ∧ (finishGlob g0).vals = [] ∧
      (finishGlob g0).node = g0.pref ++ Item.writeItems g0.items ++ g0.suff := by
    have hne : ¬ g0.items.length = 0 := by rw [hg0]; simp
    unfold finishGlob
    rw [if_neg hne]
    dsimp only
    split
    · rename_i l hl
      rw [hg0] at hl
      have hl2 : l.vals.length = 2 := by
        cases k with
        | zero =>
          simp only [Nat.zero_add, List.replicate_one, List.cons.injEq, and_true, aaItem,
            Item.list.injEq] at hl
          subst hl; rfl
        | succ k => simp [List.replicate_succ] at hl
      rw [if_neg (by omega)]
      exact ⟨rfl, rfl, rfl, rfl, rfl, rfl, rfl⟩
    · exact ⟨rfl, rfl, rfl, rfl, rfl, rfl, rfl⟩
  obtain ⟨f1, f2, f3, f4, f5, f6, f7⟩ := hfin
  refine ⟨finishGlob g0, ?_, by rw [f1, hg0], ?_, ?_, ?_, by rw [f5], f6, ?_⟩
  · unfold parseGlob
    rw [h1]
    dsimp only
    rw [sliceTo, if_pos (Nat.zero_le _), R.bind_ok, sliceFrom, if_pos (Nat.zero_le _), R.bind_ok,
      List.take_zero, List.drop_zero, h2, hb]
    dsimp only
    rw [if_neg (by omega), ← hb]
    rw [if_neg (by rw [hlen]; omega), R.bind_ok]
    dsimp only
    rw [if_neg (by rw [hb]; simp), if_neg (by rw [hb]; simp)]
    simp only [List.length_nil, Int.natCast_zero, Int.add_zero]
    rw [e, R.bind_ok]
    dsimp only
    rw [htake]
  · rw [f2]; show st'.minLen = _; rw [i2]; simp
  · rw [f3]; show st'.maxLen = _; rw [i3]; simp; omega
  · rw [f4]; exact i4
  · rw [f7, hg0]
    have hp : g0.pref = [] := i4
    rw [hp, List.replicate_succ]
    simp [Item.writeItems, Item.writeString, aaItem]

theorem cont_aa (fuel k : Nat) (t : Str) (ht : t ≠ [])
    (h : matchItems fuel t (List.replicate k aaItem) [] = .ok (false, false)) :
    contWith (matchItems fuel) (matchItems fuel) (List.replicate k aaItem) [] t = .ok false := by
  unfold contWith
  cases k with
  | zero => simp [NextItems.isEmpty, ht]
  | succ k =>
    rw [if_neg (by simp [List.replicate_succ]), h]
    rfl

theorem stepsCont_aa (fuel k : Nat) (t : Str)
    (h : 2 ^ k ≤ stepsItems fuel t (List.replicate k aaItem) []) :
    2 ^ k ≤ 1 + stepsCont (stepsItems fuel) (stepsItems fuel) (List.replicate k aaItem) [] t := by
  unfold stepsCont
  cases k with
  | zero => simp
  | succ k =>
    rw [if_neg (by simp [List.replicate_succ])]
    omega

theorem steps_aa (fuel k : Nat) (s : Str) (hs : s ≠ []) :
    stepsItems (fuel + 1) s (List.replicate (k + 1) aaItem) [] =
      1 + stepsList s (contWith (matchItems fuel) (matchItems fuel) (List.replicate k aaItem) [])
        (stepsCont (stepsItems fuel) (stepsItems fuel) (List.replicate k aaItem) [])
        [b!"a", b!"aa"] := by
  rw [stepsItems, List.replicate_succ]
  unfold stepsMatch
  dsimp only
  have : ¬ (s.length : Int) < aaItem.minLen := by
    show ¬ (s.length : Int) < 1
    have := List.length_pos_iff.2 hs
    omega
  rw [if_neg this]
  show (match sliceFrom s 0 with | .ok s => _ | _ => 1) = _
  rw [sliceFrom_le (Nat.zero_le _)]
  show 1 + stepsOr (.ok false) 0 _ = _
  simp [stepsOr]

theorem match_aa (fuel k : Nat) (s : Str) (hs : s ≠ []) :
    matchItems (fuel + 1) s (List.replicate (k + 1) aaItem) [] =
      retR (listLoop s (contWith (matchItems fuel) (matchItems fuel) (List.replicate k aaItem) [])
        [b!"a", b!"aa"]) := by
  rw [matchItems, List.replicate_succ]
  unfold matchStep
  dsimp only
  have : ¬ (s.length : Int) < aaItem.minLen := by
    show ¬ (s.length : Int) < 1
    have := List.length_pos_iff.2 hs
    omega
  rw [if_neg this]
  have hm : aaItem.matchAt s = (some 0, .list) := rfl
  rw [hm]
  dsimp only
  rw [sliceFrom_le (Nat.zero_le _)]
  rfl

theorem steps_low (k m fuel : Nat) (hm : 2 * k ≤ m) (hf : k + 1 ≤ fuel) :
    matchItems fuel (longA m) (List.replicate k aaItem) [] = .ok (false, false) ∧
    2 ^ k ≤ stepsItems fuel (longA m) (List.replicate k aaItem) [] := by
  induction k generalizing m fuel with
  | zero =>
    obtain ⟨f, rfl⟩ : ∃ f, fuel = f + 1 := ⟨fuel - 1, by omega⟩
    constructor
    · simp [matchItems, matchStep, NextItems.isEmpty, longA]
    · simp [stepsItems, stepsMatch, NextItems.isEmpty]
  | succ k ih =>
    obtain ⟨f, rfl⟩ : ∃ f, fuel = f + 1 := ⟨fuel - 1, by omega⟩
    obtain ⟨n, rfl⟩ : ∃ n, m = n + 2 := ⟨m - 2, by omega⟩
    have hne : ∀ n, longA n ≠ [] := by intro n; simp [longA]
    obtain ⟨m1, c1⟩ := ih (n + 1) f (by omega) (by omega)
    obtain ⟨m2, c2⟩ := ih n f (by omega) (by omega)
    have k1 := cont_aa f k _ (hne _) m1
    have k2 := cont_aa f k _ (hne _) m2
    have d1 := stepsCont_aa f k _ c1
    have d2 := stepsCont_aa f k _ c2
    have e1 : longA (n + 2) = 97 :: longA (n + 1) := longA_succ _
    have e2 : longA (n + 1) = 97 :: longA n := longA_succ _
    have p1 : hasPrefix (longA (n + 2)) (b!"a") = true := by rw [e1]; simp [hasPrefix]
    have p2 : hasPrefix (longA (n + 2)) (b!"aa") = true := by rw [e1, e2]; simp [hasPrefix]
    have q1 : (longA (n + 2)).drop (b!"a").length = longA (n + 1) := by rw [e1]; rfl
    have q2 : (longA (n + 2)).drop (b!"aa").length = longA n := by rw [e1, e2]; rfl
    constructor
    · rw [match_aa f k _ (hne _)]
      simp only [listLoop]
      rw [if_pos p1, if_pos p2, q1, q2, k1, k2]
      rfl
    · rw [steps_aa f k _ (hne _)]
      simp only [stepsList]
      rw [if_pos p1, if_pos p2, q1, q2, k1, k2]
      simp only [stepsOr]
      rw [Nat.pow_succ]
      omega

/-- Some power of two is far enough. -/
theorem pow_beats (c d : Nat) : ∃ k, c * (16 * (k + 1)) ^ d < 2 ^ k := by
  obtain ⟨j, hj⟩ : ∃ j, c + (j + 4) * d + 1 ≤ 2 ^ j := by
    let m := c + d + 4
    refine ⟨3 * m, ?_⟩
    have h1 : m + 1 ≤ 2 ^ m := Nat.lt_two_pow_self
    have h2 : 5 * ((m + 1) * (m + 1)) ≤ 2 ^ (3 * m) := by
      have e : 2 ^ (3 * m) = 2 ^ m * (2 ^ m * 2 ^ m) := by
        rw [← Nat.pow_add, ← Nat.pow_add]; congr 1; omega
      rw [e]
      exact Nat.mul_le_mul (by omega) (Nat.mul_le_mul h1 h1)
    have h3 : (3 * m + 4) * d ≤ (3 * m + 4) * m := Nat.mul_le_mul_left _ (by omega)
    have h4 : (3 * m + 4) * m = 3 * (m * m) + 4 * m := by rw [Nat.add_mul, Nat.mul_assoc]
    have h5 : (m + 1) * (m + 1) = m * m + 2 * m + 1 := by
      rw [Nat.add_mul, Nat.mul_add]; omega
    have h6 : c ≤ m := by omega
    omega
  refine ⟨2 ^ j - 1, ?_⟩
  have hpos : 1 ≤ 2 ^ j := Nat.one_le_two_pow
  have e : 16 * (2 ^ j - 1 + 1) = 2 ^ (j + 4) := by
    rw [Nat.sub_add_cancel hpos, Nat.pow_add]; omega
  rw [e, ← Nat.pow_mul]
  calc c * 2 ^ ((j + 4) * d) < 2 ^ c * 2 ^ ((j + 4) * d) :=
        Nat.mul_lt_mul_of_pos_right Nat.lt_two_pow_self (Nat.two_pow_pos _)
    _ = 2 ^ (c + (j + 4) * d) := (Nat.pow_add ..).symm
    _ ≤ 2 ^ (2 ^ j - 1) := Nat.pow_le_pow_right (by omega) (by omega)

namespace C71

/-- The steps for any glob without braces, any bytes: at most the product of the two lengths, up to a
constant.  Missing from the property: globs with braces, where it is false (`no_polynomial`). -/
theorem noBraces_partial (glob s : Str) (g : Glob) (hb : (123 : UInt8) ∉ glob)
    (hg : parseGlob glob = .ok (.ok g)) :
    g.matchSteps s ≤ 2 * (s.length + 1) * (glob.length + 1) := by
  obtain ⟨h1, h2⟩ := parse_calm hb hg
  have key : ∀ t : Str, t.length ≤ s.length → ∀ f,
      stepsItems f t g.items [] ≤ 2 * (s.length + 1) * (glob.length + 1) := by
    intro t ht f
    refine Nat.le_trans (steps_le h1 f t) ?_
    have e : 2 * (s.length + 1) * (glob.length + 1) = (s.length + 1) * (2 * (glob.length + 1)) := by
      rw [Nat.mul_comm 2, Nat.mul_assoc]
    rw [e]
    exact Nat.mul_le_mul (by omega) (by omega)
  unfold Glob.matchSteps
  dsimp only
  repeat' split
  all_goals first | exact Nat.zero_le _ | skip
  apply key
  simp only [List.length_take, List.length_drop]
  omega

/-- `*a?c*a?c` and 30 bytes. -/
example : ∃ g, parseGlob (b!"*a?c*a?c*") = .ok (.ok g) ∧ (123 : UInt8) ∉ (b!"*a?c*a?c*") ∧
    g.matchSteps (b!"aacaacaacaacaacaacaacaacaac") ≤ 2 * 28 * 10 :=
  ⟨_, rfl, by decide, noBraces_partial (b!"*a?c*a?c*") _ _ (by decide) rfl⟩

/-- `k` + 1 lists and 2 `k` + 2 bytes of text need more than 2 ^ `k` steps to be refused. -/
theorem braces_steps (k : Nat) : ∃ g, parseGlob (braces (k + 1)) = .ok (.ok g) ∧
    2 ^ k ≤ g.matchSteps (longA (2 * k + 1)) := by
  obtain ⟨g, hg, g1, g2, g3, g4, g5, g6, g7⟩ := parse_braces k
  refine ⟨g, hg, ?_⟩
  have hl := longA_length (2 * k + 1)
  unfold Glob.matchSteps
  rw [if_neg g7, if_neg (by rw [hl, g2]; omega), if_neg (by rw [hl, g3]; omega),
    if_neg (by rw [g1]; simp), g4, g5, if_neg (by simp)]
  dsimp only [List.length_nil]
  rw [if_neg (by simp), if_neg (by rw [g6]; simp), List.drop_zero, Nat.sub_zero, List.take_length, g1]
  generalize hf : 2 * ((longA (2 * k + 1)).length + Item.size.sizeL (List.replicate (k + 1) aaItem)) + 4 = f
  obtain ⟨f, rfl⟩ : ∃ f', f = f' + 1 := ⟨f - 1, by omega⟩
  have hk : k + 1 ≤ f := by rw [hl] at hf; omega
  obtain ⟨_, c1⟩ := steps_low k (2 * k) f (Nat.le_refl _) hk
  have d1 := stepsCont_aa f k _ c1
  rw [steps_aa f k _ (by simp [longA])]
  simp only [stepsList]
  have e1 : longA (2 * k + 1) = 97 :: longA (2 * k) := longA_succ _
  have p1 : hasPrefix (longA (2 * k + 1)) (b!"a") = true := by rw [e1]; simp [hasPrefix]
  have q1 : (longA (2 * k + 1)).drop (b!"a").length = longA (2 * k) := by rw [e1]; rfl
  rw [if_pos p1, q1]
  unfold stepsOr
  split <;> omega

/-- `{a,aa}{a,aa}{a,aa}` and `aaaaab`. -/
example : braces 3 = b!"{a,aa}{a,aa}{a,aa}" ∧ longA 5 = b!"aaaaab" := by decide

/-- No polynomial in the lengths of glob and text bounds the steps of `Match`. -/
theorem no_polynomial (c d : Nat) : ∃ glob s g, parseGlob glob = .ok (.ok g) ∧
    c * (glob.length + s.length + 1) ^ d < g.matchSteps s := by
  obtain ⟨k, hk⟩ := pow_beats c d
  obtain ⟨g, hg, h⟩ := braces_steps k
  refine ⟨_, longA (2 * k + 1), g, hg, Nat.lt_of_lt_of_le ?_ h⟩
  refine Nat.lt_of_le_of_lt (Nat.mul_le_mul_left c (Nat.pow_le_pow_left ?_ d)) hk
  rw [braces_length, longA_length]
  omega

end C71

end GoMatcher
