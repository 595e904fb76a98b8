import Verif.Proofs.Bare

/-! # The items of the parser carry the minimal sizes of their parts -/

namespace GoMatcher

/-! ## Decoded runes can be encoded -/

theorem runeError_ok : RuneOk runeError := by unfold RuneOk runeError; omega

theorem leadInfo_cases {b n lo hi : Nat} (h : leadInfo b = some (n, lo, hi)) :
    (n = 2 ∧ 0xC2 ≤ b ∧ b ≤ 0xDF ∧ hi ≤ 0xBF ∧ 0x80 ≤ lo) ∨
    (n = 3 ∧ 0xE0 ≤ b ∧ b ≤ 0xEF ∧ hi ≤ 0xBF ∧ 0x80 ≤ lo ∧ (b = 0xED → hi ≤ 0x9F)) ∨
    (n = 4 ∧ 0xF0 ≤ b ∧ b ≤ 0xF4 ∧ hi ≤ 0xBF ∧ 0x80 ≤ lo ∧ (b = 0xF4 → hi ≤ 0x8F) ∧
      (b = 0xF0 → 0x90 ≤ lo)) := by
  unfold leadInfo at h
  repeat' split at h
  all_goals simp only [Option.some.injEq, Prod.mk.injEq, reduceCtorEq] at h
  all_goals omega

theorem decodeRune_ok (s : Str) : RuneOk (decodeRune s).1 := by
  unfold decodeRune
  split
  · exact runeError_ok
  · dsimp only
    split
    · unfold RuneOk; dsimp only; omega
    split
    · exact runeError_ok
    · rename_i sz lo hi hl
      have hk : ∀ b : Nat, isCont b = true → 0x80 ≤ b ∧ b ≤ 0xBF := by
        intro b hb; simpa [isCont] using hb
      have hlead := leadInfo_cases hl
      split
      · exact runeError_ok
      split
      · exact runeError_ok
      rename_i h1
      simp only [Bool.or_eq_true, decide_eq_true_eq, not_or] at h1
      split
      · unfold RuneOk; dsimp only; omega
      split
      · exact runeError_ok
      split
      · exact runeError_ok
      rename_i h2
      have h2 := hk _ (by simpa using h2)
      split
      · unfold RuneOk; dsimp only; omega
      split
      · exact runeError_ok
      split
      · exact runeError_ok
      rename_i h3
      have h3 := hk _ (by simpa using h3)
      unfold RuneOk
      dsimp only
      omega

theorem rangeStr_ok (s : Str) : ∀ p ∈ rangeStr s, RuneOk p.2 := by
  have go : ∀ (f i : Nat) (s : Str), ∀ p ∈ rangeStr.go f i s, RuneOk p.2 := by
    intro f
    induction f with
    | zero => intro i s p hp; cases s <;> simp [rangeStr.go] at hp
    | succ f ih =>
      intro i s p hp
      cases s with
      | nil => simp [rangeStr.go] at hp
      | cons b t =>
        rw [rangeStr.go] at hp
        rcases List.mem_cons.1 hp with rfl | hp
        · exact decodeRune_ok _
        · exact ih _ _ p hp
  exact go _ _ _

/-! ## Classes -/

theorem mergeGo_first (l : List RuneRange) (cur : RuneRange) (hc : RuneOk cur.first)
    (hl : ∀ r ∈ l, RuneOk r.first) : ∀ r ∈ mergeGo cur l, RuneOk r.first := by
  have emit : ∀ cur : RuneRange, RuneOk cur.first → ∀ r ∈ emitRange cur, RuneOk r.first := by
    intro cur hc r hr
    unfold emitRange at hr
    split at hr
    · rw [List.mem_singleton.1 hr]; exact hc
    · cases hr
  induction l generalizing cur with
  | nil => exact emit cur hc
  | cons nx l ih =>
    have ih := fun cur hc => ih cur hc (fun x hx => hl x (by simp [hx]))
    intro r hr
    rw [mergeGo] at hr
    split at hr
    · refine ih _ ?_ r hr
      split <;> exact hc
    · rcases List.mem_append.1 hr with hr | hr
      · exact emit cur hc r hr
      · exact ih _ (hl nx (by simp)) r hr

theorem runesRangeMerge_first {l : List RuneRange} (hl : ∀ r ∈ l, RuneOk r.first) :
    ∀ r ∈ runesRangeMerge l, RuneOk r.first := by
  have hp := sortBy_perm RuneRange.le l
  rw [runesRangeMerge_eq]
  unfold mergeTail
  cases hs : sortBy RuneRange.le l with
  | nil => intro r hr; simp at hr
  | cons a t =>
    rw [hs] at hp
    exact mergeGo_first t a (hl a (hp.mem_iff.1 (by simp)))
      (fun r hr => hl r (hp.mem_iff.1 (by simp [hr])))

theorem setSizes_ranges (r : RunesRanges) (n : Int) : (r.setSizes n).ranges = r.ranges := by
  unfold RunesRanges.setSizes
  dsimp only
  repeat' split
  all_goals rfl

theorem addOne_first {rs : RunesRanges} {start : Nat} (h : ∀ r ∈ rs.ranges, RuneOk r.first)
    (hs : RuneOk start) : ∀ r ∈ (rs.addOne start).ranges, RuneOk r.first := by
  unfold RunesRanges.addOne
  split
  · rw [setSizes_ranges]; exact h
  · rw [setSizes_ranges]
    intro r hr
    rcases List.mem_append.1 hr with hr | hr
    · exact h r hr
    · rw [List.mem_singleton.1 hr]; exact hs

theorem expandLoop_first (cs : List Nat) (hcs : ∀ c ∈ cs, RuneOk c) (rs : RunesRanges) (start : Nat)
    (hst : RuneOk start) (b : Bool) (h0 : ∀ r ∈ rs.ranges, RuneOk r.first) (rs' : RunesRanges)
    (h : RunesRanges.expandLoop rs start b cs = some rs') : ∀ r ∈ rs'.ranges, RuneOk r.first := by
  induction cs generalizing rs start b with
  | nil =>
    rw [RunesRanges.expandLoop] at h
    injection h with h
    subst h
    dsimp only
    refine runesRangeMerge_first ?_
    split
    · exact addOne_first h0 hst
    · exact h0
  | cons c cs ih =>
    have ih := ih (fun x hx => hcs x (by simp [hx]))
    have hc := hcs c (by simp)
    rw [RunesRanges.expandLoop] at h
    dsimp only at h
    repeat' split at h
    all_goals first
      | (cases h; done)
      | exact ih _ _ hst _ h0 h
      | exact ih _ _ hc _ h0 h
      | exact ih _ _ runeError_ok _ (by rw [setSizes_ranges]; exact h0) h
      | exact ih _ _ hc _ (addOne_first h0 hst) h
      | (refine ih _ _ runeError_ok _ ?_ h
         intro r hr
         rw [setSizes_ranges] at hr
         rcases List.mem_append.1 hr with hr | hr
         · exact h0 r hr
         · rw [List.mem_singleton.1 hr]; exact hst)

theorem expand_first {s : Str} {rs : RunesRanges} (h : RunesRanges.expand s = some rs) :
    ∀ r ∈ rs.ranges, RuneOk r.first := by
  unfold RunesRanges.expand at h
  split at h
  · split at h
    · dsimp only at h
      split at h
      · injection h with h
        subst h
        intro r hr
        cases hr
      · refine expandLoop_first _ ?_ _ _ runeError_ok _ (by intro r hr; cases hr) _ h
        intro c hc
        obtain ⟨p, hp, rfl⟩ := List.mem_map.1 hc
        exact rangeStr_ok _ p hp
    · cases h
  · cases h

theorem count_lt (s : ASCIISet) : s.count.2.toNat < 128 := by
  rw [ASCIISet.count_eq]
  dsimp only
  cases h : (ASCIISet.codes.filter s.contains).head? with
  | none => decide
  | some x =>
    have hx : x ∈ ASCIISet.codes := by
      have := List.mem_of_mem_head? h
      exact (List.mem_filter.1 this).1
    unfold ASCIISet.codes at hx
    obtain ⟨n, hn, rfl⟩ := List.mem_map.1 hx
    simp only [List.mem_range'_1] at hn
    simp only [Option.getD_some, UInt8.toNat_ofNat']
    omega

theorem classItem_sized {rs : RunesRanges} (h : ∀ r ∈ rs.ranges, RuneOk r.first) {it : Item}
    (e : classItem rs = some it) : it.Sized := by
  unfold classItem at e
  dsimp only at e
  split at e
  · cases e
  split at e
  · cases e; exact .byte (count_lt _)
  split at e
  · rename_i r hr
    split at e
    · cases e; exact .rune (h r (by simp [hr]))
    · cases e; exact .ranges _
  · cases e; exact .ranges _

/-! ## Sequences -/

theorem literalItem_sized (v : Str) : (literalItem v).Sized := by
  unfold literalItem
  dsimp only
  split
  · split
    · rename_i h
      refine .byte ?_
      simp only [UInt8.toNat_ofNat']
      omega
    · exact .rune (decodeRune_ok _)
  · exact .str _

theorem stringOfByte_length {b : UInt8} (h : b.toNat < 128) : (stringOfByte b).length = 1 := by
  unfold stringOfByte encodeRune
  rw [if_pos (by omega)]
  rfl

theorem mergeItem_sized {x y m : Item} (hx : x.Sized) (hy : y.Sized) (h : mergeItem x y = some m) :
    m.Sized ∧ m.minLen = x.minLen + y.minLen := by
  cases hy <;> cases hx <;> simp only [mergeItem, Option.some.injEq, reduceCtorEq] at h <;> subst h
  all_goals refine ⟨by constructor, ?_⟩
  all_goals simp only [Item.minLen, List.length_append, Int.natCast_add]
  all_goals first
    | omega
    | skip
  all_goals (repeat rw [encodeRune_length (by assumption)])
  all_goals (repeat rw [stringOfByte_length (by assumption)])
  all_goals omega

theorem sumOf_append (xs ys : List Item) : Item.sumOf (xs ++ ys) = Item.sumOf xs + Item.sumOf ys := by
  induction xs with
  | nil => simp [Item.sumOf]
  | cons x xs ih => rw [List.cons_append, Item.sumOf, Item.sumOf, ih]; omega

theorem appendItem_sized {xs : List Item} {y : Item} (hx : ∀ x ∈ xs, x.Sized) (hy : y.Sized) :
    (∀ x ∈ appendItem xs y, x.Sized) ∧ Item.sumOf (appendItem xs y) = Item.sumOf xs + y.minLen := by
  unfold appendItem
  split
  · rename_i h
    rw [List.getLast?_eq_none_iff] at h
    subst h
    exact ⟨by simpa using hy, by simp [Item.sumOf]⟩
  · rename_i last hl
    obtain ⟨init, rfl⟩ : ∃ init, xs = init ++ [last] := by
      obtain ⟨init, h⟩ := List.getLast?_eq_some_iff.1 hl
      exact ⟨init, h⟩
    split
    · rename_i m hm
      obtain ⟨h1, h2⟩ := mergeItem_sized (hx last (by simp)) hy hm
      simp only [List.dropLast_concat]
      refine ⟨?_, ?_⟩
      · intro x hxm
        rcases List.mem_append.1 hxm with h | h
        · exact hx x (by simp [h])
        · rw [List.mem_singleton.1 h]; exact h1
      · simp only [sumOf_append, Item.sumOf, h2]
        omega
    · refine ⟨?_, ?_⟩
      · intro x hxm
        rcases List.mem_append.1 hxm with h | h
        · exact hx x h
        · rw [List.mem_singleton.1 h]; exact hy
      · simp only [sumOf_append, Item.sumOf]
        omega

/-- A chain under construction. -/
def ChainSt.Sized (c : ChainSt) : Prop := (∀ x ∈ c.items, x.Sized) ∧ c.minSize = Item.sumOf c.items

theorem ChainSt.Sized.append {c : ChainSt} {y : Item} (h : c.Sized) (hy : y.Sized) :
    (c.append y).Sized := by
  obtain ⟨h1, h2⟩ := appendItem_sized h.1 hy
  refine ⟨h1, ?_⟩
  show c.minSize + y.minLen = _
  rw [h.2]
  exact h2.symm

theorem groupOf_sized {xs : List Item} (h : ∀ x ∈ xs, x.Sized) {it : Item}
    (e : groupOf xs = some it) : it.Sized := by
  have key : ∀ (xs : List Item) (mn mx : Int), (groupSizes xs (mn, mx)).1 =
      xs.foldl (fun m y => if m > y.minLen then y.minLen else m) mn := by
    intro xs
    induction xs with
    | nil => intro mn mx; rfl
    | cons x xs ih => intro mn mx; rw [groupSizes, ih]; rfl
  unfold groupOf at e
  cases xs with
  | nil => cases e
  | cons x xs =>
    dsimp only at e
    cases e
    exact .group h (by rw [key]; rfl)

theorem listItem_sized {vals : List Str} {r : R (Option Item)} (h : listItem vals = .inl r)
    {it : Item} (e : r = .ok (some it)) : it.Sized := by
  subst e
  unfold listItem at h
  split at h
  · cases h
  · split at h
    · cases h
    · cases h; exact literalItem_sized _
  · dsimp only at h
    split at h
    · cases h
    split at h
    · cases h
    · cases h; exact .list _

theorem parse_sized (fuel : Nat) :
    (∀ (s : Str) it rest, nextItem fuel s = .ok (.ok (some it, rest)) → it.Sized) ∧
    (∀ (vals : List Str) (items : List Item) it, (∀ x ∈ items, x.Sized) →
      newGroup fuel vals items = .ok (.ok (some it)) → it.Sized) ∧
    (∀ (v : Str) (c c' : ChainSt), c.Sized → chainLoop fuel v c = .ok (.ok c') → c'.Sized) := by
  induction fuel with
  | zero =>
    refine ⟨?_, ?_, ?_⟩
    · intro s it rest h; simp [nextItem] at h
    · intro vals items it _ h; simp [newGroup] at h
    · intro v c c' _ h; simp [chainLoop] at h
  | succ fuel ih =>
    obtain ⟨ih1, ih2, ih3⟩ := ih
    refine ⟨?_, ?_, ?_⟩
    · intro s it rest h
      cases s with
      | nil => simp [nextItem] at h
      | cons b t =>
        rw [nextItem] at h
        dsimp only at h
        split at h
        · obtain ⟨⟨seg, next⟩, hc, h⟩ := R.bind_eq_ok.1 h
          dsimp only at h
          split at h
          · cases h
          · rename_i rs hrs
            simp only [R.ok.injEq, Except.ok.injEq, Prod.mk.injEq] at h
            exact classItem_sized (expand_first hrs) h.1
        split at h
        · obtain ⟨⟨seg, next⟩, hc, h⟩ := R.bind_eq_ok.1 h
          dsimp only at h
          split at h
          · cases h
          · split at h
            · rename_i r hr
              obtain ⟨item, hi, h⟩ := R.bind_eq_ok.1 h
              simp only [R.ok.injEq, Except.ok.injEq, Prod.mk.injEq] at h
              exact listItem_sized hr (by rw [hi, h.1])
            · obtain ⟨r, hr, h⟩ := R.bind_eq_ok.1 h
              split at h
              · cases h
              · simp only [R.ok.injEq, Except.ok.injEq, Prod.mk.injEq] at h
                rename_i vals _ _ _ _ _ _ _
                refine ih2 vals [] it (by intro x hx; cases hx) ?_
                rw [hr, h.1]
        split at h
        · obtain ⟨next, hn, h⟩ := R.bind_eq_ok.1 h
          simp only [R.ok.injEq, Except.ok.injEq, Prod.mk.injEq, Option.some.injEq] at h
          rw [← h.1]
          exact .star 0
        split at h
        · simp only [R.ok.injEq, Except.ok.injEq, Prod.mk.injEq, Option.some.injEq] at h
          rw [← h.1]
          exact .any 1
        split at h
        · cases h
        split at h
        · simp only [R.ok.injEq, Except.ok.injEq, Prod.mk.injEq, Option.some.injEq] at h
          rw [← h.1]
          exact .str _
        · obtain ⟨v, hv, h⟩ := R.bind_eq_ok.1 h
          obtain ⟨next, hn, h⟩ := R.bind_eq_ok.1 h
          simp only [R.ok.injEq, Except.ok.injEq, Prod.mk.injEq, Option.some.injEq] at h
          rw [← h.1]
          exact literalItem_sized _
    · intro vals items it hi h
      cases vals with
      | nil =>
        simp only [newGroup, R.ok.injEq, Except.ok.injEq] at h
        exact groupOf_sized hi h
      | cons v vs =>
        have snoc : ∀ y : Item, y.Sized → ∀ x ∈ items ++ [y], x.Sized := by
          intro y hy x hx
          rcases List.mem_append.1 hx with hx | hx
          · exact hi x hx
          · rw [List.mem_singleton.1 hx]; exact hy
        rw [newGroup] at h
        split at h
        · split at h
          · simp only [R.ok.injEq, Except.ok.injEq, Option.some.injEq] at h
            rw [← h]
            exact .star 0
          split at h
          · exact ih2 _ _ _ (snoc _ (.any 1)) h
          · obtain ⟨r, hr, h⟩ := R.bind_eq_ok.1 h
            split at h
            · cases h
            · rename_i c
              have hc := ih3 v {} c ⟨(fun x hx => by cases hx), rfl⟩ hr
              refine ih2 _ _ _ (snoc _ ?_) h
              split
              · rename_i x hx
                exact hc.1 x (by simp [hx])
              · exact .chain hc.1 hc.2
        · exact ih2 _ _ _ (snoc _ (.str v)) h
    · intro v c c' hc h
      cases v with
      | nil =>
        simp only [chainLoop, R.ok.injEq, Except.ok.injEq] at h
        rw [← h]
        exact hc
      | cons b t =>
        rw [chainLoop] at h
        obtain ⟨r, hr, h⟩ := R.bind_eq_ok.1 h
        split at h
        · cases h
        · exact ih3 _ _ _ hc h
        · exact ih3 _ _ _ (hc.append (ih1 _ _ _ hr)) h

theorem step_sized {st : ParseSt} (h : ∀ x ∈ st.inners, x.Sized) {y : Item} (hy : y.Sized) :
    ∀ x ∈ (st.step y).inners, x.Sized := by
  unfold ParseSt.step
  dsimp only
  split
  · have one : ∀ x ∈ [y], x.Sized := by
      intro x hx; rw [List.mem_singleton.1 hx]; exact hy
    cases y <;> first | exact h | exact one
  · exact (appendItem_sized h hy).1

theorem parseLoop_sized (fuel : Nat) (s : Str) (st st' : ParseSt) (h0 : ∀ x ∈ st.inners, x.Sized)
    (h : parseLoop fuel s st = .ok (.ok st')) : ∀ x ∈ st'.inners, x.Sized := by
  induction fuel generalizing s st with
  | zero => simp [parseLoop] at h
  | succ fuel ih =>
    cases s with
    | nil =>
      simp only [parseLoop, R.ok.injEq, Except.ok.injEq] at h
      rw [← h]
      exact h0
    | cons b t =>
      rw [parseLoop] at h
      obtain ⟨r, hr, h⟩ := R.bind_eq_ok.1 h
      split at h
      · cases h
      · exact ih _ _ h0 h
      · exact ih _ _ (step_sized h0 ((parse_sized fuel).1 _ _ _ hr)) h

theorem finishGlob_keeps (g : Glob) : (finishGlob g).items = g.items := by
  unfold finishGlob
  dsimp only
  by_cases h : g.items.length = 0
  · rw [if_pos h]
    dsimp only
    split
    · split <;> rfl
    · rfl
  · rw [if_neg h]
    dsimp only
    split
    · split <;> rfl
    · rfl

theorem takeSuffix_mem (xs : List Item) (suff : Str) : ∀ x ∈ (takeSuffix xs suff).1, x ∈ xs := by
  unfold takeSuffix
  intro x hx
  split at hx
  · split at hx
    all_goals dsimp only at hx
    all_goals first | exact hx | exact (List.dropLast_subset _) hx
  · exact hx

/-- Every glob the parser accepts has items of this kind. -/
theorem parseGlob_sized {s : Str} {g : Glob} (h : parseGlob s = .ok (.ok g)) :
    ∀ x ∈ g.items, x.Sized := by
  unfold parseGlob at h
  split at h
  · simp only [R.ok.injEq, Except.ok.injEq] at h
    rw [← h]
    intro x hx
    cases hx
  · obtain ⟨pref, hp, h⟩ := R.bind_eq_ok.1 h
    obtain ⟨body, hb, h⟩ := R.bind_eq_ok.1 h
    dsimp only at h
    split at h
    · split at h
      · cases h
      · obtain ⟨⟨body', suff⟩, hc, h⟩ := R.bind_eq_ok.1 h
        dsimp only at h
        split at h
        · simp only [R.ok.injEq, Except.ok.injEq] at h
          rw [← h, finishGlob_keeps]
          intro x hx
          rw [List.mem_singleton.1 hx]
          exact .star 0
        split at h
        · simp only [R.ok.injEq, Except.ok.injEq] at h
          rw [← h, finishGlob_keeps]
          intro x hx
          rw [List.mem_singleton.1 hx]
          exact .any 1
        · obtain ⟨r, hr, h⟩ := R.bind_eq_ok.1 h
          split at h
          · cases h
          · rename_i st
            simp only [R.ok.injEq, Except.ok.injEq] at h
            rw [← h, finishGlob_keeps]
            intro x hx
            exact parseLoop_sized _ _ _ st (by intro x hx; cases hx) hr x (takeSuffix_mem _ _ x hx)
    · cases h

end GoMatcher
