import Verif.Proofs.Steps
import Verif.Proofs.AsciiSet

/-! # Globs without braces have few, simple items -/

namespace GoMatcher

/-- A star followed by a star or `?`. -/
def Bad (y x : Item) : Prop := (∃ n, y = .star n) ∧ ((∃ n, x = .star n) ∨ ∃ n, x = .any n)

theorem calm_cons {it : Item} {rest : List Item} :
    Calm (it :: rest) ↔ Solid it ∧ (∀ y r, rest = y :: r → ¬ Bad it y) ∧ Calm rest := by
  constructor
  · intro h
    refine ⟨h.head, ?_, h.tail⟩
    rintro y r rfl ⟨⟨n, rfl⟩, ⟨m, rfl⟩ | ⟨m, rfl⟩⟩
    · exact h
    · exact h
  · rintro ⟨h1, h2, h3⟩
    unfold Calm
    split
    · contradiction
    · rename_i e; cases e
      exact h2 _ _ rfl ⟨⟨_, rfl⟩, .inl ⟨_, rfl⟩⟩
    · rename_i e; cases e
      exact h2 _ _ rfl ⟨⟨_, rfl⟩, .inr ⟨_, rfl⟩⟩
    · rename_i e; cases e
      exact ⟨h1, h3⟩

theorem calm_snoc (l : List Item) (y x : Item) :
    Calm (l ++ [y, x]) ↔ Calm (l ++ [y]) ∧ Solid x ∧ ¬ Bad y x := by
  induction l with
  | nil =>
    simp only [List.nil_append, calm_cons]
    constructor
    · rintro ⟨h1, h2, h3, _⟩
      exact ⟨⟨h1, by simp, trivial⟩, h3, h2 _ _ rfl⟩
    · rintro ⟨⟨h1, _, _⟩, h3, h4⟩
      refine ⟨h1, ?_, h3, by simp, trivial⟩
      rintro _ _ e
      cases e
      exact h4
  | cons z l ih =>
    simp only [List.cons_append, calm_cons, ih]
    have hh : (∀ w r, l ++ [y, x] = w :: r → ¬ Bad z w) ↔ (∀ w r, l ++ [y] = w :: r → ¬ Bad z w) := by
      cases l with
      | nil => simp
      | cons a l => simp
    rw [hh]
    constructor
    · rintro ⟨a, b, c, d⟩; exact ⟨⟨a, b, c⟩, d⟩
    · rintro ⟨⟨a, b, c⟩, d⟩; exact ⟨a, b, c, d⟩

theorem calm_replace {l : List Item} {y m : Item} (h : Calm (l ++ [y])) (hm : Solid m)
    (hb : ∀ z, Bad z m → Bad z y) : Calm (l ++ [m]) := by
  rcases List.eq_nil_or_concat l with rfl | ⟨l', z, rfl⟩
  · exact calm_cons.2 ⟨hm, by simp, trivial⟩
  · rw [List.concat_eq_append, List.append_assoc] at h ⊢
    have h := (calm_snoc l' z y).1 h
    exact (calm_snoc l' z m).2 ⟨h.1, hm, fun hc => h.2.2 (hb _ hc)⟩

theorem calm_init {l : List Item} {y : Item} (h : Calm (l ++ [y])) : Calm l ∧ Solid y := by
  rcases List.eq_nil_or_concat l with rfl | ⟨l', z, rfl⟩
  · exact ⟨trivial, h.head⟩
  · rw [List.concat_eq_append, List.append_assoc] at h
    have h := (calm_snoc l' z y).1 h
    rw [List.concat_eq_append]
    exact ⟨h.1, h.2.1⟩

theorem mergeItem_calm {last item m : Item} (h : mergeItem last item = some m) (hl : Solid last)
    (hi : Solid item) : Solid m ∧ ∀ z, Bad z m → Bad z last := by
  unfold mergeItem at h
  split at h <;> cases h
  all_goals simp only [Solid, Bad, ne_eq, List.append_eq_nil_iff, stringOfByte, encodeRune_ne_nil,
    not_and, not_false_eq_true, implies_true, false_and, and_false, imp_false, reduceCtorEq, exists_false,
    or_self, true_and, exists_eq', or_true, true_or, Item.star.injEq, Item.any.injEq] at *
  all_goals simp_all

theorem mergeItem_bad {last item : Item} (h : mergeItem last item = none) : ¬ Bad last item := by
  rintro ⟨⟨n, rfl⟩, ⟨m, rfl⟩ | ⟨m, rfl⟩⟩ <;> simp [mergeItem] at h

theorem appendItem_calm {items : List Item} {item : Item} (h : Calm items) (hi : Solid item) :
    Calm (appendItem items item) ∧ (appendItem items item).length ≤ items.length + 1 := by
  rcases List.eq_nil_or_concat items with rfl | ⟨l, y, rfl⟩
  · exact ⟨calm_cons.2 ⟨hi, by simp, trivial⟩, by simp [appendItem]⟩
  · rw [List.concat_eq_append] at h ⊢
    unfold appendItem
    rw [List.getLast?_append]
    simp only [List.getLast?_singleton, Option.some_or]
    cases hm : mergeItem y item with
    | none =>
      dsimp only
      refine ⟨?_, by simp⟩
      rw [List.append_assoc]
      exact (calm_snoc l y item).2 ⟨h, hi, mergeItem_bad hm⟩
    | some m =>
      dsimp only
      rw [List.dropLast_concat]
      obtain ⟨h1, h2⟩ := mergeItem_calm hm (calm_init h).2 hi
      exact ⟨calm_replace h h1 h2, by simp⟩

theorem step_calm {st : ParseSt} {x : Item} (h : Calm st.inners) (hx : Solid x) :
    Calm (st.step x).inners ∧ (st.step x).inners.length ≤ st.inners.length + 1 := by
  unfold ParseSt.step
  dsimp only
  split
  · rename_i h0
    have h0 : st.inners = [] := List.length_eq_zero_iff.1 h0
    split
    · simp [h0, Calm]
    · simp [h0, Calm]
    · simp [h0, Calm]
    · exact ⟨calm_cons.2 ⟨hx, by simp, trivial⟩, by simp⟩
  · exact appendItem_calm h hx

theorem literalItem_solid {v : Str} (h : v ≠ []) : Solid (literalItem v) := by
  unfold literalItem
  dsimp only
  split
  · split <;> trivial
  · exact h

theorem classItem_solid {rs : RunesRanges} {x : Item} (h : classItem rs = some x) : Solid x := by
  unfold classItem at h
  dsimp only at h
  split at h
  · cases h
  · split at h
    · cases h; trivial
    · split at h
      · split at h <;> (cases h; trivial)
      · cases h; trivial

theorem skipStars_sub {s r : Str} (h : skipStars s = .ok r) : ∀ c ∈ r, c ∈ s := by
  unfold skipStars at h
  split at h
  · obtain ⟨_, rfl⟩ := sliceFrom_eq_ok h
    exact fun c hc => List.mem_of_mem_drop hc
  · cases h; simp

theorem nextItem_solid {fuel : Nat} {b : UInt8} {t rest : Str} {x : Option Item}
    (hb : (123 : UInt8) ∉ b :: t) (h : nextItem fuel (b :: t) = .ok (.ok (x, rest))) :
    (∀ y, x = some y → Solid y) ∧ rest.length ≤ t.length ∧ (123 : UInt8) ∉ rest := by
  cases fuel with
  | zero => simp [nextItem] at h
  | succ fuel =>
    rw [nextItem] at h
    dsimp only at h
    split at h
    · obtain ⟨seg, next, e, e1, e2⟩ := cutAfter_ok (b :: t) 93 (by simp)
      rw [e, R.bind_ok] at h
      dsimp only at h
      split at h
      · simp at h
      · simp only [R.ok.injEq, Except.ok.injEq, Prod.mk.injEq] at h
        obtain ⟨rfl, rfl⟩ := h
        refine ⟨fun y hy => classItem_solid hy, ?_, ?_⟩
        · simp only [List.length_cons] at e2; omega
        · rw [← e1, List.mem_append, not_or] at hb
          exact hb.2
    · split at h
      · rename_i h123
        exact absurd (by rw [h123]; simp) hb
      · split at h
        · rename_i h42
          subst h42
          obtain ⟨r, hr, hl⟩ := skipStars_ok t
          rw [hr, R.bind_ok] at h
          simp only [R.ok.injEq, Except.ok.injEq, Prod.mk.injEq] at h
          obtain ⟨rfl, rfl⟩ := h
          refine ⟨fun y hy => by cases hy; trivial, ?_, fun hc => hb (skipStars_sub hr _ hc)⟩
          simp only [List.length_cons] at hl; omega
        · split at h
          · simp only [R.ok.injEq, Except.ok.injEq, Prod.mk.injEq] at h
            obtain ⟨rfl, rfl⟩ := h
            exact ⟨fun y hy => by cases hy; trivial, Nat.le_refl _, fun hc => hb (.tail _ hc)⟩
          · split at h
            · simp at h
            · rename_i h91 h123 h42 h63 h93
              split at h
              · simp only [R.ok.injEq, Except.ok.injEq, Prod.mk.injEq] at h
                obtain ⟨rfl, rfl⟩ := h
                exact ⟨fun y hy => by cases hy; simp [Solid], by simp, by simp⟩
              · rename_i n hn
                obtain ⟨hlt, hp, _⟩ := indexP_some.1 hn
                rw [sliceTo, if_pos (Nat.le_of_lt hlt), R.bind_ok, sliceFrom,
                  if_pos (Nat.le_of_lt hlt), R.bind_ok] at h
                simp only [R.ok.injEq, Except.ok.injEq, Prod.mk.injEq] at h
                obtain ⟨rfl, rfl⟩ := h
                have hn0 : n ≠ 0 := by
                  rintro rfl
                  simp only [List.getElem_cons_zero, isWild, Bool.or_eq_true,
                    decide_eq_true_eq] at hp
                  simp only [Bool.or_eq_true, decide_eq_true_eq] at h93
                  simp_all
                refine ⟨fun y hy => ?_, ?_, fun hc => hb (List.mem_of_mem_drop hc)⟩
                · cases hy
                  apply literalItem_solid
                  cases n with
                  | zero => exact absurd rfl hn0
                  | succ n => simp
                · simp only [List.length_drop, List.length_cons]; omega

theorem parseLoop_calm {fuel : Nat} {s : Str} {st st' : ParseSt} (hb : (123 : UInt8) ∉ s)
    (hc : Calm st.inners) (h : parseLoop fuel s st = .ok (.ok st')) :
    Calm st'.inners ∧ st'.inners.length ≤ st.inners.length + s.length := by
  induction fuel generalizing s st with
  | zero => simp [parseLoop] at h
  | succ fuel ih =>
    cases s with
    | nil =>
      simp only [parseLoop, R.ok.injEq, Except.ok.injEq] at h
      subst h
      exact ⟨hc, by simp⟩
    | cons b t =>
      rw [parseLoop] at h
      obtain ⟨r, hr, h⟩ := R.bind_eq_ok.1 h
      cases r with
      | error e => simp at h
      | ok p =>
        obtain ⟨x, rest⟩ := p
        obtain ⟨h1, h2, h3⟩ := nextItem_solid hb hr
        cases x with
        | none =>
          obtain ⟨g1, g2⟩ := ih h3 hc h
          exact ⟨g1, by simp only [List.length_cons]; omega⟩
        | some y =>
          obtain ⟨k1, k2⟩ := step_calm hc (h1 y rfl)
          obtain ⟨g1, g2⟩ := ih h3 k1 h
          exact ⟨g1, by simp only [List.length_cons]; omega⟩

theorem takeSuffix_calm {l : List Item} (h : Calm l) (suff : Str) :
    Calm (takeSuffix l suff).1 ∧ (takeSuffix l suff).1.length ≤ l.length := by
  have hd : Calm l.dropLast := by
    rcases List.eq_nil_or_concat l with rfl | ⟨l', y, rfl⟩
    · exact h
    · rw [List.concat_eq_append] at h ⊢
      rw [List.dropLast_concat]
      exact (calm_init h).1
  unfold takeSuffix
  split
  · split
    · exact ⟨hd, by simp⟩
    · exact ⟨hd, by simp⟩
    · exact ⟨hd, by simp⟩
    · exact ⟨h, Nat.le_refl _⟩
  · exact ⟨h, Nat.le_refl _⟩

theorem finishGlob_sameItems (g : Glob) : (finishGlob g).items = g.items := by
  unfold finishGlob
  dsimp only
  repeat' split
  all_goals rfl

/-- A glob without `{`, any bytes. -/
theorem parse_calm {s : Str} {g : Glob} (hb : (123 : UInt8) ∉ s)
    (h : parseGlob s = .ok (.ok g)) : Calm g.items ∧ g.items.length ≤ s.length := by
  unfold parseGlob at h
  split at h
  · simp only [R.ok.injEq, Except.ok.injEq] at h
    subst h
    exact ⟨trivial, by simp⟩
  · rename_i pos hpos
    obtain ⟨pref, h1, h⟩ := R.bind_eq_ok.1 h
    obtain ⟨body, h2, h⟩ := R.bind_eq_ok.1 h
    obtain ⟨hp, hbody⟩ := sliceFrom_eq_ok h2
    split at h
    · rename_i end_ b0 t0 he
      split at h
      · simp at h
      · obtain ⟨⟨body', suff⟩, h3, h⟩ := R.bind_eq_ok.1 h
        have hbl : (∀ c ∈ body', c ∈ s) ∧ body'.length ≤ s.length := by
          have hs : (∀ c ∈ b0 :: t0, c ∈ s) ∧ (b0 :: t0).length ≤ s.length := by
            rw [hbody]
            exact ⟨fun c hc => List.mem_of_mem_drop hc, by simp⟩
          split at h3
          · obtain ⟨x1, _, h3⟩ := R.bind_eq_ok.1 h3
            obtain ⟨x2, k2, h3⟩ := R.bind_eq_ok.1 h3
            simp only [R.ok.injEq, Prod.mk.injEq] at h3
            obtain ⟨rfl, rfl⟩ := h3
            unfold sliceTo at k2
            split at k2
            · cases k2
              refine ⟨fun c hc => hs.1 c (List.mem_of_mem_take hc), ?_⟩
              have := hs.2
              rw [List.length_take]
              omega
            · cases k2
          · simp only [R.ok.injEq, Prod.mk.injEq] at h3
            obtain ⟨rfl, rfl⟩ := h3
            exact hs
        have hpos' : 1 ≤ s.length := by
          have : (b0 :: t0).length ≤ s.length := by rw [hbody]; simp
          simp only [List.length_cons] at this
          omega
        dsimp only at h
        split at h
        · simp only [R.ok.injEq, Except.ok.injEq] at h
          subst h
          rw [finishGlob_sameItems]
          exact ⟨calm_cons.2 ⟨trivial, by simp, trivial⟩, by simpa using hpos'⟩
        · split at h
          · simp only [R.ok.injEq, Except.ok.injEq] at h
            subst h
            rw [finishGlob_sameItems]
            exact ⟨calm_cons.2 ⟨trivial, by simp, trivial⟩, by simpa using hpos'⟩
          · obtain ⟨r, hr, h⟩ := R.bind_eq_ok.1 h
            cases r with
            | error e => simp at h
            | ok st =>
              simp only [R.ok.injEq, Except.ok.injEq] at h
              subst h
              rw [finishGlob_sameItems]
              obtain ⟨g1, g2⟩ := parseLoop_calm (fun hc => hb (hbl.1 _ hc)) (by exact trivial) hr
              obtain ⟨k1, k2⟩ := takeSuffix_calm g1 suff
              refine ⟨k1, ?_⟩
              have := hbl.2
              simp only [List.length_nil] at g2
              dsimp only
              omega
    · cases h

end GoMatcher
