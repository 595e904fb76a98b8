import Verif.Proofs.ExpandPieces
import Verif.Props.C30_C34_Expand

/-! # C30-C34, C47: what `Expand` returns for every byte string

Every byte string can be cut into pieces (`texts_exist`), and every piece has its replacements
(`Spec/ExpandText.lean`), so the theorems below speak about all inputs of `Expand`. -/

namespace GoMatcher

namespace C30

/-- Every byte string has pieces, these have replacements, and there is a capacity. -/
theorem texts_exist (s : Str) : ∃ ps rest rs N, ExpandText s ps rest ∧ AllMean ps rs ∧ Capacity ps rs N := by
  obtain ⟨ps, rest, h⟩ := expandText_total s
  obtain ⟨rs, hm⟩ := allMean_total ps
  obtain ⟨N, hN, _⟩ := pieces_cap hm rest
  exact ⟨ps, rest, rs, N, h, hm, hN⟩

/-- The replacements and the capacity are determined by the pieces. -/
theorem texts_unique {ps : List XPiece} {rs rs' : List Repl} {N N' : Nat} (h : AllMean ps rs) (h' : AllMean ps rs')
    (hN : Capacity ps rs N) (hN' : Capacity ps rs' N') : rs = rs' ∧ N = N' := by
  have := allMean_unique h h'
  subst this
  exact ⟨rfl, capacity_unique hN hN'⟩

/-- `Expand` without limits returns every choice of one replacement per piece, in order, and
nothing else; unless all pieces are void or the capacity is too large.  Any byte string. -/
theorem text_exact {s : Str} {ps : List XPiece} {rest : Str} {rs : List Repl} {N : Nat}
    (h : ExpandText s ps rest) (hm : AllMean ps rs) (hN : Capacity ps rs N) (hv : ¬ OnlyVoid rs rest)
    (hc : N % 2 ^ 64 ≤ 2 ^ 44) (max depth : Int) (hmax : max < 0) (hd : depth ≤ 0) :
    expandGlob s max depth = .ok ((combine rs).map fun x => x ++ rest) := by
  have hj : CutAt max depth rs rs.length := by
    refine ⟨Nat.le_refl _, .inr ⟨by omega, fun h => absurd h (by omega), fun h => absurd h (by omega)⟩, .inl rfl⟩
  rcases expandGlob_pieces h hm hN hj with ⟨h1, _⟩ | ⟨_, h1, _⟩ | ⟨_, _, h1⟩
  · exact absurd h1 hv
  · omega
  · rw [h1, List.take_length, List.drop_length]
    simp [keptText]

/-- The number of strings is the product of the numbers of replacements. -/
theorem combine_length (rs : List Repl) : (combine rs).length = (rs.map fun r => r.texts.length).prod := by
  induction rs with
  | nil => rfl
  | cons r rs ih =>
    rw [combine, List.map_cons, List.prod_cons, ← ih]
    induction r.texts with
    | nil => simp
    | cons a L ih => simp [ih, Nat.succ_mul, Nat.add_comm]

/-- `a{b,c}[2-1]*{d,e}`: a list, a class that is not accepted, and a rest. -/
def exText : Str := utf8 "a{b,c}[2-1]*{d,e}".toList

theorem ex_text : ExpandText exText [.lit (utf8 ['a']), .braces (utf8 "b,c".toList), .cls (utf8 "2-1".toList)]
    (utf8 "*{d,e}".toList) := by
  refine ⟨by decide, ?_, .inr ⟨42, utf8 "{d,e}".toList, by decide, .inl rfl⟩⟩
  intro p hp
  simp only [List.mem_cons, List.not_mem_nil, or_false] at hp
  rcases hp with rfl | rfl | rfl
  · exact ⟨by decide, by unfold Unmarked; decide⟩
  · show Unmarked _
    unfold Unmarked; decide
  · show Unmarked _
    unfold Unmarked; decide

theorem ex_class : RefusedClass (utf8 "2-1".toList) :=
  ⟨by decide, [('2', '1')], ⟨['2', '-', '1'], by decide, Reads.range (c := '2') (d := '1') 0 (by decide) (by decide)
    (by decide) .nil⟩, fun h => absurd (h ('2', '1') (by simp)).1 (by decide)⟩

theorem ex_means : AllMean [.lit (utf8 ['a']), .braces (utf8 "b,c".toList), .cls (utf8 "2-1".toList)]
    [⟨[utf8 ['a']], utf8 ['a'], 1⟩, ⟨[utf8 ['b'], utf8 ['c']], utf8 "{b,c}".toList, 2⟩,
      ⟨[utf8 "2-1".toList], utf8 "2-1".toList, 1⟩] :=
  .cons (.lit _) (.cons (.words _ _ (by decide) ⟨by decide, by decide, by decide⟩) (.cons (.refused _ ex_class) .nil))

example : Capacity [.lit (utf8 ['a']), .braces (utf8 "b,c".toList), .cls (utf8 "2-1".toList)]
    [⟨[utf8 ['a']], utf8 ['a'], 1⟩, ⟨[utf8 ['b'], utf8 ['c']], utf8 "{b,c}".toList, 2⟩,
      ⟨[utf8 "2-1".toList], utf8 "2-1".toList, 1⟩] 2 :=
  .cons (r := ⟨[utf8 ['a']], utf8 ['a'], 1⟩) (n := 2) (by simp)
    (.cons (r := ⟨[utf8 ['b'], utf8 ['c']], utf8 "{b,c}".toList, 2⟩) (n := 1) (by simp) (.stop ex_class))

example : expandGlob exText (-1) 0 = .ok [utf8 "ab2-1*{d,e}".toList, utf8 "ac2-1*{d,e}".toList] := by
  decide +kernel

/-- `[a-b]` stands for its two members. -/
example : Means (.cls (utf8 "a-b".toList)) ⟨[utf8 ['a'], utf8 ['b']], utf8 "[a-b]".toList, 2⟩ := by
  have hl : ∀ n, Listed [('a', 'b')] n ↔ n = 97 ∨ n = 98 := by
    intro n
    have ha : 'a'.toNat = 97 := by decide
    have hb : 'b'.toNat = 98 := by decide
    simp only [Listed, List.mem_singleton, exists_eq_left, ha, hb]
    omega
  refine .members _ [('a', 'b')] [97, 98] [97, 98] (by decide) ⟨['a', '-', 'b'], by decide,
    Reads.range (c := 'a') (d := 'b') 0 (by decide) (by decide) (by decide) .nil⟩ ?_ (by decide) (by decide) ?_
    (by decide) ?_
  · intro e he
    cases List.mem_singleton.1 he
    exact ⟨by decide, by decide⟩
  · intro n
    simp only [Counted, hl, List.mem_cons, List.not_mem_nil, or_false]
    omega
  · intro n
    simp only [Emitted, Counted, hl, List.mem_cons, List.not_mem_nil, or_false]
    constructor
    · intro h
      exact ⟨⟨h, by omega⟩, fun h' => by omega⟩
    · intro h
      exact h.1.1

/-- A class with the code points `a`, `b` and a lone NUL: the NUL is lost. -/
theorem nul_lost : expandGlob (91 :: 0 :: utf8 "ab]".toList) (-1) 0 = .ok [utf8 ['a'], utf8 ['b']] := by
  decide +kernel

/-- An undecodable byte is skipped in a class. -/
example : expandGlob (91 :: 0xFF :: utf8 "a-b]".toList) (-1) 0 = .ok [utf8 ['a'], utf8 ['b']] := by
  decide +kernel

end C30

namespace C31

/-- What `Expand` returns under any limits, for every byte string: the pieces before a cut are
replaced in all ways, everything behind it is kept.  The cut is at the first piece at which the
count exceeds `max` or the dots outside of lists and classes reach `depth`. -/
theorem text_exact {s : Str} {ps : List XPiece} {rest : Str} {rs : List Repl} {N : Nat}
    (h : ExpandText s ps rest) (hm : AllMean ps rs) (hN : Capacity ps rs N) (hv : ¬ OnlyVoid rs rest)
    (hc : N % 2 ^ 64 ≤ 2 ^ 44) (max depth : Int) {j : Nat} (hj : CutAt max depth rs j) :
    expandGlob s max depth = .ok ((combine (rs.take j)).map fun x => x ++ (keptText (rs.drop j) ++ rest)) := by
  rcases expandGlob_pieces h hm hN hj with ⟨h1, _⟩ | ⟨_, h1, _⟩ | ⟨_, _, h1⟩
  · exact absurd h1 hv
  · omega
  · exact h1

/-- There is exactly one cut. -/
theorem cut_exists (max depth : Int) (rs : List Repl) : ∃ j, CutAt max depth rs j ∧ ∀ i, CutAt max depth rs i → i = j := by
  obtain ⟨j, hj⟩ := cutAt_total max depth rs
  exact ⟨j, hj, fun i hi => cutAt_unique hi hj⟩

/-- `{a,b}{c,d}` with limit 3: only the first list is replaced. -/
example : CutAt 3 0 [⟨[utf8 ['a'], utf8 ['b']], utf8 "{a,b}".toList, 2⟩, ⟨[utf8 ['c'], utf8 ['d']], utf8 "{c,d}".toList, 2⟩] 1 := by
  refine ⟨by decide, .inr ⟨by decide, fun _ k hk => ?_, by decide⟩, .inr fun h => ?_⟩
  · simp at hk
    have : k = 0 ∨ k = 1 := by omega
    rcases this with rfl | rfl <;> decide
  · have := h.2.1 (by decide) 2 (by decide)
    exact absurd this (by decide)

example : expandGlob (utf8 "{a,b}{c,d}".toList) 3 0 = .ok [utf8 "a{c,d}".toList, utf8 "b{c,d}".toList] := by
  decide +kernel

end C31

namespace C32

/-- `Expand` with `max = 0` returns the kept text, for every byte string. -/
theorem text_exact {s : Str} {ps : List XPiece} {rest : Str} {rs : List Repl} {N : Nat}
    (h : ExpandText s ps rest) (hm : AllMean ps rs) (hN : Capacity ps rs N) (hv : ¬ OnlyVoid rs rest)
    (hc : N % 2 ^ 64 ≤ 2 ^ 44) (depth : Int) : expandGlob s 0 depth = .ok [keptText rs ++ rest] := by
  have hj : CutAt 0 depth rs 0 := ⟨by omega, .inl rfl, .inr fun h => h.1 rfl⟩
  have := C31.text_exact h hm hN hv hc 0 depth hj
  rw [this]
  simp [combine]

/-- A piece that is kept as written: bytes without a meaning, a list of at least two alternatives,
a class of at least two bytes that is accepted and not empty. -/
def KeptPiece : XPiece → Prop
  | .lit _ => True
  | .braces body => 44 ∈ body
  | .cls body => 2 ≤ body.length ∧ ¬ RefusedClass body ∧ ∃ es n, ClassOf body es ∧ Counted es n

theorem kept_length {p : XPiece} {r : Repl} (h : Means p r) :
    r.kept.length ≤ p.text.length ∧ (r.kept.length = p.text.length ↔ KeptPiece p) ∧ (KeptPiece p → r.kept = p.text) := by
  cases h with
  | lit w => simp [XPiece.text, KeptPiece]
  | words body L hc hw => simp [XPiece.text, KeptPiece, hc]
  | single body hc => simp [XPiece.text, KeptPiece, hc]; omega
  | short body h =>
    have : ¬ KeptPiece (.cls body) := fun hk => by have := hk.1; omega
    simp [XPiece.text, this]; omega
  | refused body h =>
    have : ¬ KeptPiece (.cls body) := fun hk => hk.2.1 h
    simp [XPiece.text, this]; omega
  | void body es h2 hes hg hv =>
    have : ¬ KeptPiece (.cls body) := by
      rintro ⟨_, _, es', n, h3, h4⟩
      rw [classOf_unique hes h3] at h4
      exact hv n h4
    simp [XPiece.text, this]
  | members body es ns all h2 hes hg hne ha1 ha2 hn1 hn2 =>
    have : KeptPiece (.cls body) := by
      refine ⟨h2, fun h => (refused_iff h2 hes).1 h hg, es, all.head hne, hes, (ha2 _).1 (List.head_mem hne)⟩
    simp [XPiece.text, this]

theorem keptText_length {ps : List XPiece} {rs : List Repl} (hm : AllMean ps rs) :
    (keptText rs).length ≤ (piecesText ps).length ∧
    ((keptText rs).length = (piecesText ps).length ↔ ∀ p ∈ ps, KeptPiece p) ∧
    ((∀ p ∈ ps, KeptPiece p) → keptText rs = piecesText ps) := by
  induction hm with
  | nil => simp [keptText, piecesText]
  | @cons p ps r rs hp _ ih =>
    obtain ⟨i1, i2, i3⟩ := ih
    obtain ⟨k1, k2, k3⟩ := kept_length hp
    have e1 : keptText (r :: rs) = r.kept ++ keptText rs := by simp [keptText]
    have e2 : piecesText (p :: ps) = p.text ++ piecesText ps := by simp [piecesText]
    rw [e1, e2, List.length_append, List.length_append]
    refine ⟨by omega, ?_, ?_⟩
    · rw [List.forall_mem_cons, ← k2, ← i2]
      constructor
      · intro h; exact ⟨by omega, by omega⟩
      · rintro ⟨h1, h2⟩; omega
    · intro h
      rw [List.forall_mem_cons] at h
      rw [k3 h.1, i3 h.2]

/-- The text is kept as written exactly when every piece is. -/
theorem as_written_iff {s : Str} {ps : List XPiece} {rest : Str} {rs : List Repl} {N : Nat}
    (h : ExpandText s ps rest) (hm : AllMean ps rs) (hN : Capacity ps rs N) (hv : ¬ OnlyVoid rs rest)
    (hc : N % 2 ^ 64 ≤ 2 ^ 44) (depth : Int) :
    expandGlob s 0 depth = .ok [s] ↔ ∀ p ∈ ps, KeptPiece p := by
  rw [text_exact h hm hN hv hc]
  obtain ⟨_, h2, h3⟩ := keptText_length hm
  simp only [R.ok.injEq, List.cons.injEq, and_true]
  constructor
  · intro he
    apply h2.1
    have := congrArg List.length he
    rw [h.text, List.length_append, List.length_append] at this
    omega
  · intro hk
    rw [h3 hk, h.text]

example : KeptPiece (.braces (utf8 "b,c".toList)) ∧ ¬ KeptPiece (.cls (utf8 "2-1".toList)) :=
  ⟨by show _ ∈ _; decide, fun h => h.2.1 C30.ex_class⟩

end C32

namespace C33

/-- Exactly when `Expand` panics: all pieces are void, or the capacity is too large.  Any byte
string, limit and depth. -/
theorem panics_iff {s : Str} {ps : List XPiece} {rest : Str} {rs : List Repl} {N : Nat}
    (h : ExpandText s ps rest) (hm : AllMean ps rs) (hN : Capacity ps rs N) (max depth : Int) :
    expandGlob s max depth = .panic ↔ OnlyVoid rs rest ∨ 2 ^ 44 < N % 2 ^ 64 := by
  obtain ⟨j, hj⟩ := cutAt_total max depth rs
  rcases expandGlob_pieces h hm hN hj with ⟨h1, h2⟩ | ⟨_, h1, h2⟩ | ⟨h1, h2, h3⟩
  · exact ⟨fun _ => .inl h1, fun _ => h2⟩
  · exact ⟨fun _ => .inr h1, fun _ => h2⟩
  · rw [h3]
    constructor
    · intro h; cases h
    · rintro (h | h)
      · exact absurd h h1
      · omega

/-- The same for `ExpandTry`. -/
theorem try_panics_iff {s : Str} {ps : List XPiece} {rest : Str} {rs : List Repl} {N : Nat}
    (h : ExpandText s ps rest) (hm : AllMean ps rs) (hN : Capacity ps rs N) (max depth : Int) :
    expandTry s max depth = .panic ↔ OnlyVoid rs rest ∨ 2 ^ 44 < N % 2 ^ 64 := by
  rw [← panics_iff h hm hN max depth]
  rcases C34.try_is_first s max depth with ⟨h1, h2⟩ | ⟨x, xs, h1, h2⟩
  · rw [h1, h2]
  · rw [h1, h2]
    constructor <;> (intro h; cases h)

/-- `{}[--]`. -/
example : ∃ ps rs, ExpandText (utf8 "{}[--]".toList) ps [] ∧ AllMean ps rs ∧ OnlyVoid rs [] := by
  have hcls : ClassOf (utf8 "--".toList) [] := ⟨['-', '-'], by decide, .skip (.inl rfl) (.skip (.inl rfl) .nil)⟩
  refine ⟨[.braces [], .cls (utf8 "--".toList)], [⟨[[]], [], 1⟩, ⟨[[]], [], 1⟩], ⟨by decide, ?_, .inl rfl⟩,
    .cons (.single _ (by decide)) (.cons (.void _ [] (by decide) hcls (by simp) (by simp [Counted, Listed])) .nil),
    rfl, by simp, by simp⟩
  intro p hp
  simp only [List.mem_cons, List.not_mem_nil, or_false] at hp
  rcases hp with rfl | rfl
  · show Unmarked _
    simp [Unmarked]
  · show Unmarked _
    unfold Unmarked; decide

end C33

namespace C34

/-- `ExpandTry` takes the first replacement of every piece before the cut. -/
theorem try_text {s : Str} {ps : List XPiece} {rest : Str} {rs : List Repl} {N : Nat}
    (h : ExpandText s ps rest) (hm : AllMean ps rs) (hN : Capacity ps rs N) (hv : ¬ OnlyVoid rs rest)
    (hc : N % 2 ^ 64 ≤ 2 ^ 44) (max depth : Int) {j : Nat} (hj : CutAt max depth rs j) :
    ∃ x, (combine (rs.take j)).head? = some x ∧ expandTry s max depth = .ok [x ++ (keptText (rs.drop j) ++ rest)] := by
  have h1 := C31.text_exact h hm hN hv hc max depth hj
  rcases try_is_first s max depth with ⟨h2, _⟩ | ⟨x, xs, h2, h3⟩
  · rw [h1] at h2; cases h2
  · rw [h1] at h2
    simp only [R.ok.injEq] at h2
    cases hcb : combine (rs.take j) with
    | nil => rw [hcb] at h2; cases h2
    | cons y ys =>
      rw [hcb] at h2
      simp only [List.map_cons, List.cons.injEq] at h2
      refine ⟨y, rfl, ?_⟩
      rw [h3, h2.1]

end C34

namespace C47

/-- With a depth and no limit the cut is where the dots outside of lists and classes reach the
depth. -/
theorem cut_iff (max depth : Int) (hmax : max < 0) (hd : 0 < depth) (rs : List Repl) (j : Nat) :
    CutAt max depth rs j ↔ j ≤ rs.length ∧ (fixedDots (rs.take j) : Int) < depth ∧
      (j = rs.length ∨ depth ≤ (fixedDots (rs.take (j + 1)) : Int)) := by
  have ha : ∀ qs, Allowed max depth qs ↔ (fixedDots qs : Int) < depth := by
    intro qs
    unfold Allowed
    constructor
    · rintro ⟨_, _, h⟩; exact h hd
    · intro h; exact ⟨by omega, fun h => absurd h (by omega), fun _ => h⟩
  constructor
  · rintro ⟨h1, h2, h3⟩
    rw [ha] at h2 h3
    refine ⟨h1, ?_, by omega⟩
    rcases h2 with rfl | h2
    · simp only [List.take_zero, fixedDots]; omega
    · exact h2
  · rintro ⟨h1, h2, h3⟩
    exact ⟨h1, .inr ((ha _).2 h2), by rw [ha]; omega⟩

/-- What `Expand` with a depth returns, for every byte string: the pieces before the cut are
replaced in all ways, the others are kept. -/
theorem text_exact {s : Str} {ps : List XPiece} {rest : Str} {rs : List Repl} {N : Nat}
    (h : ExpandText s ps rest) (hm : AllMean ps rs) (hN : Capacity ps rs N) (hv : ¬ OnlyVoid rs rest)
    (hc : N % 2 ^ 64 ≤ 2 ^ 44) (max depth : Int) (hmax : max < 0) (hd : 0 < depth) {j : Nat} (hj : j ≤ rs.length)
    (h1 : (fixedDots (rs.take j) : Int) < depth) (h2 : j = rs.length ∨ depth ≤ (fixedDots (rs.take (j + 1)) : Int)) :
    expandGlob s max depth = .ok ((combine (rs.take j)).map fun x => x ++ (keptText (rs.drop j) ++ rest)) :=
  C31.text_exact h hm hN hv hc max depth ((cut_iff max depth hmax hd rs j).2 ⟨hj, h1, h2⟩)

/-- `{a,b}.{c,d}` with depth 1. -/
example : fixedDots [⟨[utf8 ['a'], utf8 ['b']], utf8 "{a,b}".toList, 2⟩, ⟨[utf8 ['.']], utf8 ['.'], 1⟩,
    ⟨[utf8 ['c'], utf8 ['d']], utf8 "{c,d}".toList, 2⟩] = 1 := by decide
example : expandGlob (utf8 "{a,b}.{c,d}".toList) (-1) 1 = .ok [utf8 "a.{c,d}".toList, utf8 "b.{c,d}".toList] := by
  decide +kernel

end C47

end GoMatcher
