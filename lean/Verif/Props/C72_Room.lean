import Verif.Proofs.ItemsRoom

/-! # C72: the wildcard helpers, and the room reserved for the items of a glob

`HasWildcard`, `IndexWildcard`, `IndexLastWildcard` and `WildcardCount` (pkg/items/utils.go:15-35) say
where the special bytes of a text are.  `glob.Parse` reserves room for `WildcardCount(glob)` items
(glob.go:121-122).  The full statement is that this is enough for every glob.  It is not: literals
between wildcards are items too.  The right number is twice as large less one, and no smaller number
will do. -/

namespace GoMatcher.C72

/-- One of the six special bytes. -/
def Special (b : UInt8) : Prop := b ∈ b!"[]{}*?"

theorem isWild_iff (b : UInt8) : isWild b = true ↔ Special b := by
  unfold isWild Special
  simp only [Bool.or_eq_true, decide_eq_true_eq, List.mem_cons, List.not_mem_nil, or_false]
  constructor
  · rintro (((((h | h) | h) | h) | h) | h) <;> simp [h]
  · rintro (h | h | h | h | h | h) <;> simp [h]

/-- The number of wildcards is the number of bytes `[`, `{`, `*`, `?`, for every byte string, though
the code goes by runes. -/
theorem count_bytes (s : Str) :
    wildcardCount s = (s.filter fun b => b ∈ b!"[{*?").length := by
  have h := rangeStr_count (fun n => n = 91 ∨ n = 123 ∨ n = 42 ∨ n = 63)
    (by rintro n (h | h | h | h) <;> omega) s.length 0 0 s (Nat.le_refl _)
  unfold wildcardCount rangeStr
  rw [h, Nat.zero_add, List.countP_eq_length_filter]
  congr 1
  apply List.filter_congr
  intro b _
  apply decide_eq_decide.2
  simp only [List.mem_cons, List.not_mem_nil, or_false]
  rw [← UInt8.toNat_inj, ← UInt8.toNat_inj, ← UInt8.toNat_inj, ← UInt8.toNat_inj]
  constructor
  · rintro (h | h | h | h) <;> simp [h]
  · rintro (h | h | h | h) <;> simp [h]

/-- With an invalid byte and a wide rune between. -/
example : wildcardCount ([255] ++ b!"a[x]é*?{" ++ [0xE2, 0x82, 42]) = 5 := by decide +kernel

theorem openers_eq (s : Str) : openers s = wildcardCount s := by
  rw [count_bytes, openers, List.countP_eq_length_filter]
  congr 1
  apply List.filter_congr
  intro b _
  apply decide_eq_decide.2
  simp only [List.mem_cons, List.not_mem_nil, or_false]

/-- `HasWildcard` says whether there is a special byte. -/
theorem has_iff (s : Str) : hasWildcard s = true ↔ ∃ b ∈ s, Special b := by
  unfold hasWildcard
  rw [List.any_eq_true]
  constructor
  · rintro ⟨b, h1, h2⟩; exact ⟨b, h1, (isWild_iff b).1 h2⟩
  · rintro ⟨b, h1, h2⟩; exact ⟨b, h1, (isWild_iff b).2 h2⟩

/-- `IndexWildcard` is the place of the first special byte. -/
theorem first_iff (s : Str) (i : Nat) : indexWildcard s = some i ↔
    ∃ a b t, s = a ++ b :: t ∧ a.length = i ∧ Special b ∧ ∀ c ∈ a, ¬ Special c := by
  unfold indexWildcard
  induction s generalizing i with
  | nil => simp [indexP]
  | cons c s ih =>
    rw [indexP]
    cases hc : isWild c with
    | true =>
      simp only [if_true, Option.some.injEq]
      constructor
      · rintro rfl
        exact ⟨[], c, s, rfl, rfl, (isWild_iff c).1 hc, by simp⟩
      · rintro ⟨a, b, t, e, h1, h2, h3⟩
        cases a with
        | nil => exact h1
        | cons d a =>
          simp only [List.cons_append, List.cons.injEq] at e
          exact absurd ((isWild_iff c).1 hc) (h3 c (by simp [e.1]))
    | false =>
      simp only [Bool.false_eq_true, if_false, Option.map_eq_some_iff]
      constructor
      · rintro ⟨j, hj, rfl⟩
        obtain ⟨a, b, t, rfl, h1, h2, h3⟩ := (ih j).1 hj
        refine ⟨c :: a, b, t, rfl, by simp [h1], h2, ?_⟩
        intro d hd
        rcases List.mem_cons.1 hd with rfl | hd
        · intro hs; rw [← isWild_iff, hc] at hs; cases hs
        · exact h3 d hd
      · rintro ⟨a, b, t, e, h1, h2, h3⟩
        cases a with
        | nil =>
          simp only [List.nil_append, List.cons.injEq] at e
          rw [← isWild_iff, ← e.1, hc] at h2
          cases h2
        | cons d a =>
          simp only [List.cons_append, List.cons.injEq] at e
          refine ⟨a.length, (ih _).2 ⟨a, b, t, e.2, rfl, h2, fun x hx => h3 x (by simp [hx])⟩, ?_⟩
          simpa using h1

/-- `IndexLastWildcard` is the place of the last special byte. -/
theorem last_iff (s : Str) (i : Nat) : indexLastWildcard s = some i ↔
    ∃ a b t, s = a ++ b :: t ∧ a.length = i ∧ Special b ∧ ∀ c ∈ t, ¬ Special c := by
  have none_of : ∀ s : Str, lastIndexP isWild s = none ↔ ∀ c ∈ s, ¬ Special c := by
    intro s
    induction s with
    | nil => simp [lastIndexP]
    | cons c s ih =>
      rw [lastIndexP]
      cases h : lastIndexP isWild s with
      | some j =>
        simp only [reduceCtorEq, false_iff]
        intro hc
        rw [ih.2 (fun x hx => hc x (by simp [hx]))] at h
        cases h
      | none =>
        dsimp only
        have h := ih.1 h
        cases hc : isWild c with
        | true =>
          simp only [if_true, reduceCtorEq, false_iff]
          exact fun hx => hx c (by simp) ((isWild_iff c).1 hc)
        | false =>
          simp only [Bool.false_eq_true, if_false, true_iff]
          intro d hd
          rcases List.mem_cons.1 hd with rfl | hd
          · intro hs; rw [← isWild_iff, hc] at hs; cases hs
          · exact h d hd
  unfold indexLastWildcard
  induction s generalizing i with
  | nil => simp [lastIndexP]
  | cons c s ih =>
    rw [lastIndexP]
    cases h : lastIndexP isWild s with
    | some j =>
      simp only [Option.some.injEq]
      constructor
      · rintro rfl
        obtain ⟨a, b, t, rfl, h1, h2, h3⟩ := (ih j).1 h
        exact ⟨c :: a, b, t, rfl, by simp [h1], h2, h3⟩
      · rintro ⟨a, b, t, e, h1, h2, h3⟩
        cases a with
        | nil =>
          simp only [List.nil_append, List.cons.injEq] at e
          rw [e.2, (none_of t).2 h3] at h
          cases h
        | cons d a =>
          simp only [List.cons_append, List.cons.injEq] at e
          have := (ih _).2 ⟨a, b, t, e.2, rfl, h2, h3⟩
          rw [h] at this
          simp only [Option.some.injEq] at this
          simp only [List.length_cons] at h1
          omega
    | none =>
      dsimp only
      have h := (none_of s).1 h
      constructor
      · intro hi
        split at hi
        · rename_i hc
          cases hi
          exact ⟨[], c, s, rfl, rfl, (isWild_iff c).1 hc, h⟩
        · cases hi
      · rintro ⟨a, b, t, e, h1, h2, h3⟩
        cases a with
        | nil =>
          simp only [List.nil_append, List.cons.injEq] at e
          rw [if_pos ((isWild_iff c).2 (e.1 ▸ h2)), ← h1]
          rfl
        | cons d a =>
          simp only [List.cons_append, List.cons.injEq] at e
          exact absurd h2 (h b (by simp [e.2]))

/-- The three functions agree on whether there is a special byte. -/
theorem agree (s : Str) : (indexWildcard s = none ↔ hasWildcard s = false) ∧
    (indexLastWildcard s = none ↔ hasWildcard s = false) := by
  have none_iff : hasWildcard s = false ↔ ∀ b ∈ s, ¬ Special b := by
    rw [← Bool.not_eq_true, has_iff]
    simp
  rw [none_iff]
  have split_first : ∀ s : Str, (∃ b ∈ s, Special b) →
      ∃ a b t, s = a ++ b :: t ∧ Special b ∧ ∀ c ∈ a, ¬ Special c := by
    intro s
    induction s with
    | nil => simp
    | cons c s ih =>
      intro h
      by_cases hc : Special c
      · exact ⟨[], c, s, rfl, hc, by simp⟩
      · obtain ⟨b, hb, hs⟩ := h
        rcases List.mem_cons.1 hb with rfl | hb
        · exact absurd hs hc
        · obtain ⟨a, b, t, rfl, h1, h2⟩ := ih ⟨b, hb, hs⟩
          refine ⟨c :: a, b, t, rfl, h1, ?_⟩
          intro d hd
          rcases List.mem_cons.1 hd with rfl | hd
          · exact hc
          · exact h2 d hd
  constructor
  · constructor
    · intro h b hb hs
      obtain ⟨a, b, t, e, h1, h2⟩ := split_first s ⟨b, hb, hs⟩
      rw [(first_iff s a.length).2 ⟨a, b, t, e, rfl, h1, h2⟩] at h
      cases h
    · intro h
      cases hi : indexWildcard s with
      | none => rfl
      | some i =>
        obtain ⟨a, b, t, rfl, _, h2, _⟩ := (first_iff s i).1 hi
        exact absurd h2 (h b (by simp))
  · constructor
    · intro h b hb hs
      obtain ⟨a, b, t, e, h1, h2⟩ := split_first s.reverse ⟨b, by simpa using hb, hs⟩
      have e' : s = t.reverse ++ b :: a.reverse := by
        have := congrArg List.reverse e
        simpa using this
      rw [(last_iff s t.reverse.length).2 ⟨_, b, _, e', rfl, h1, by simpa using h2⟩] at h
      cases h
    · intro h
      cases hi : indexLastWildcard s with
      | none => rfl
      | some i =>
        obtain ⟨a, b, t, rfl, _, h2, _⟩ := (last_iff s i).1 hi
        exact absurd h2 (h b (by simp))

/-- The search rune by rune, as `strings.IndexAny` does on short strings, finds the same place. -/
theorem first_by_runes (s : Str) :
    ((rangeStr s).find? fun p => decide (p.2 ∈ [91, 93, 123, 125, 42, 63])).map Prod.fst =
      indexWildcard s := by
  unfold rangeStr
  rw [rangeStr_find (fun n => decide (n ∈ [91, 93, 123, 125, 42, 63])) (by
    intro n h
    simp only [List.mem_cons, List.not_mem_nil, or_false, decide_eq_true_eq] at h
    omega) _ _ _ (Nat.le_refl _)]
  simp only [Nat.zero_add, Option.map_id']
  unfold indexWildcard
  congr 1
  funext b
  rw [Bool.eq_iff_iff, isWild_iff]
  simp only [Special, List.mem_cons, List.not_mem_nil, or_false, decide_eq_true_eq]
  rw [← UInt8.toNat_inj, ← UInt8.toNat_inj, ← UInt8.toNat_inj, ← UInt8.toNat_inj,
    ← UInt8.toNat_inj, ← UInt8.toNat_inj]
  rfl

example : indexWildcard (b!"éa]*b") = some 3 ∧ indexLastWildcard (b!"éa]*b") = some 4 ∧
    hasWildcard (b!"éa]*b") = true := by decide +kernel

/-- A glob has fewer items than twice the number of its wildcards.  Missing to the full statement:
the reserved room is the number of wildcards itself, see `reserved_exceeded`. -/
theorem room_partial (s : Str) (g : Glob) (h : parseGlob s = .ok (.ok g)) :
    g.items.length ≤ 2 * wildcardCount s - 1 := by
  rw [← openers_eq]
  exact parse_room h

/-- The glob `?`, then `k` times `a?`. -/
def anyA (k : Nat) : Str := b!"?" ++ (List.replicate k (b!"a?")).flatten

theorem next_a (fuel : Nat) (t : Str) :
    nextItem (fuel + 1) (97 :: 63 :: t) = .ok (.ok (some (.byte 97), 63 :: t)) := by
  rw [nextItem]
  dsimp only
  rw [if_neg (by decide), if_neg (by decide), if_neg (by decide), if_neg (by decide),
    if_neg (by decide)]
  have : indexWildcard (97 :: 63 :: t) = some 1 := by
    simp [indexWildcard, indexP, isWild]
  rw [this]
  simp [sliceTo, sliceFrom, literalItem, decodeRune]

theorem next_any (fuel : Nat) (t : Str) :
    nextItem (fuel + 1) (63 :: t) = .ok (.ok (some (.any 1), t)) := by
  rw [nextItem]
  dsimp only
  rw [if_neg (by decide), if_neg (by decide), if_neg (by decide), if_pos rfl]

theorem loop_anyA (k fuel : Nat) (hf : 2 * k + 2 ≤ fuel) (st : ParseSt) (l : List Item)
    (hl : st.inners = l ++ [.any 1]) :
    ∃ st', parseLoop fuel (List.replicate k (b!"a?")).flatten st = .ok (.ok st') ∧
      ∃ l', st'.inners = l' ++ [.any 1] ∧ l'.length = l.length + 2 * k := by
  induction k generalizing fuel st l with
  | zero =>
    obtain ⟨f, rfl⟩ : ∃ f, fuel = f + 1 := ⟨fuel - 1, by omega⟩
    exact ⟨st, by simp [parseLoop], l, hl, by omega⟩
  | succ k ih =>
    obtain ⟨f, rfl⟩ : ∃ f, fuel = (f + 1) + 1 + 1 := ⟨fuel - 3, by omega⟩
    have hs1 : (st.step (.byte 97)).inners = l ++ [.any 1, .byte 97] := by
      unfold ParseSt.step
      dsimp only
      rw [hl]
      simp [appendItem, mergeItem]
    have hs2 : ((st.step (.byte 97)).step (.any 1)).inners = (l ++ [.any 1, .byte 97]) ++ [.any 1] := by
      generalize st.step (.byte 97) = st1 at hs1
      unfold ParseSt.step
      dsimp only
      rw [hs1]
      simp [appendItem, mergeItem, List.getLast?_cons]
    obtain ⟨st', e, l', i1, i2⟩ := ih (f + 1) (by omega) _ _ hs2
    refine ⟨st', ?_, l', i1, ?_⟩
    · rw [List.replicate_succ, List.flatten_cons]
      show parseLoop (f + 1 + 1 + 1) (97 :: 63 :: (List.replicate k (b!"a?")).flatten) st = _
      rw [parseLoop, next_a, R.bind_ok]
      dsimp only
      rw [parseLoop, next_any, R.bind_ok]
      exact e
    · simp only [List.length_append, List.length_cons, List.length_nil] at i2
      omega

theorem anyA_last (k : Nat) : ∃ i, anyA k = i ++ [63] := by
  unfold anyA
  cases k with
  | zero => exact ⟨[], rfl⟩
  | succ k =>
    refine ⟨b!"?" ++ ((List.replicate k (b!"a?")).flatten ++ [97]), ?_⟩
    rw [List.replicate_succ', List.flatten_append]
    simp

theorem anyA_count (k : Nat) : wildcardCount (anyA k) = k + 1 := by
  rw [count_bytes]
  unfold anyA
  rw [List.filter_append, List.length_append]
  have : ((List.replicate k (b!"a?")).flatten.filter fun b => decide (b ∈ b!"[{*?")).length = k := by
    induction k with
    | zero => rfl
    | succ k ih =>
      rw [List.replicate_succ, List.flatten_cons, List.filter_append, List.length_append, ih]
      have : ((b!"a?").filter fun b => decide (b ∈ b!"[{*?")).length = 1 := by decide
      omega
  rw [this]
  have : ((b!"?").filter fun b => decide (b ∈ b!"[{*?")).length = 1 := by decide
  omega

/-- No smaller number will do: for every number of wildcards there is a glob that reaches it. -/
theorem room_attained (k : Nat) : ∃ g, parseGlob (anyA k) = .ok (.ok g) ∧
    wildcardCount (anyA k) = k + 1 ∧ g.items.length = 2 * (k + 1) - 1 := by
  cases k with
  | zero => exact ⟨_, rfl, anyA_count 0, rfl⟩
  | succ k =>
    obtain ⟨i, hi⟩ := anyA_last (k + 1)
    have h1 : indexWildcard (anyA (k + 1)) = some 0 := rfl
    have h2 : indexLastWildcard (anyA (k + 1)) = some i.length :=
      (last_iff _ _).2 ⟨i, 63, [], hi, rfl, by unfold Special; decide, by simp⟩
    have hlen : (anyA (k + 1)).length = i.length + 1 := by rw [hi]; simp
    have hlen2 : (anyA (k + 1)).length = 1 + 2 * (k + 1) := by
      have : ∀ n, ((List.replicate n (b!"a?")).flatten).length = 2 * n := by
        intro n
        induction n with
        | zero => rfl
        | succ n ih => rw [List.replicate_succ, List.flatten_cons, List.length_append, ih]; simp; omega
      unfold anyA
      rw [List.length_append, this]
      rfl
    obtain ⟨f, hf⟩ : ∃ f, parseFuel (anyA (k + 1)).length = f + 1 + 1 :=
      ⟨parseFuel (anyA (k + 1)).length - 2, by unfold parseFuel; omega⟩
    have hs : (({ minLen := 0, maxLen := 0, pref := [] } : ParseSt).step (.any 1)).inners =
        [] ++ [.any 1] := rfl
    obtain ⟨st', e, l', i1, i2⟩ := loop_anyA (k + 1) (f + 1)
      (by unfold parseFuel at hf; omega) _ _ hs
    have hb : anyA (k + 1) = 63 :: (List.replicate (k + 1) (b!"a?")).flatten := rfl
    have htake : takeSuffix st'.inners [] = (st'.inners, []) := by
      rw [i1]
      unfold takeSuffix
      split
      · rw [List.getLast?_append]
        rfl
      · rfl
    refine ⟨finishGlob { glob := anyA (k + 1), minLen := st'.minLen, maxLen := st'.maxLen,
                         pref := st'.pref, items := st'.inners, suff := [] }, ?_,
      anyA_count (k + 1), ?_⟩
    · unfold parseGlob
      rw [h1]
      dsimp only
      rw [sliceTo, if_pos (Nat.zero_le _), R.bind_ok, sliceFrom, if_pos (Nat.zero_le _), R.bind_ok,
        List.take_zero, List.drop_zero, h2, hb]
      dsimp only
      rw [if_neg (by omega), ← hb]
      rw [if_neg (by rw [hlen]; omega), R.bind_ok]
      dsimp only
      rw [if_neg (by rw [hb]; simp), if_neg (by rw [hb]; simp [List.replicate_succ])]
      simp only [List.length_nil, Int.natCast_zero, Int.add_zero]
      rw [hf]
      conv => lhs; rw [hb, parseLoop, next_any, R.bind_ok]
      dsimp only
      rw [e, R.bind_ok]
      dsimp only
      rw [htake, hb]
    · rw [finishGlob_sameItems]
      dsimp only
      rw [i1, List.length_append, i2]
      simp
      omega

/-- The room reserved by `Parse` is too small as soon as a literal stands between two wildcards. -/
theorem reserved_exceeded : ∃ s g, parseGlob s = .ok (.ok g) ∧ wildcardCount s < g.items.length := by
  obtain ⟨g, h1, h2, h3⟩ := room_attained 1
  exact ⟨_, g, h1, by rw [h2, h3]; decide⟩

example : (match parseGlob (b!"x[a-c]é{u,v*}*y") with
    | .ok (.ok g) => g.items.length | _ => 0) = 4 ∧ wildcardCount (b!"x[a-c]é{u,v*}*y") = 4 := by
  decide +kernel

end GoMatcher.C72
