import Verif.Proofs.LitLen
import Verif.Proofs.ParseLoc

/-! # The sizes the parser records are sizes of texts -/

namespace GoMatcher

/-! ## Classes -/

/-- A collected rune has the recorded minimal size, one has the maximal size. -/
def SizeHit (rs : RunesRanges) (P : Nat → Prop) : Prop :=
  (∃ c, RuneOk c ∧ P c ∧ runeLen c = rs.minSize) ∧ ∃ c, RuneOk c ∧ P c ∧ runeLen c = rs.maxSize

/-- Invariant of the class parser: nothing collected, or both sizes belong to collected runes. -/
structure HitInv (rs : RunesRanges) : Prop where
  hit : (rs.minSize = 0 ∧ rs.maxSize = 0 ∧ ∀ c, ¬ RunesRanges.RawMem rs c) ∨
    (1 ≤ rs.minSize ∧ SizeHit rs (RunesRanges.RawMem rs))
  wf : ∀ r ∈ rs.ranges, 127 < r.first ∧ r.first ≤ r.last

theorem setSizes_eq (rs : RunesRanges) (n : Int) : rs.setSizes n =
    { rs with maxSize := if rs.maxSize < n then n else rs.maxSize
              minSize := if rs.minSize > n ∨ rs.minSize = 0 then n else rs.minSize } := by
  unfold RunesRanges.setSizes
  dsimp only
  by_cases h1 : rs.maxSize < n
  · simp only [h1, if_true]; split <;> rfl
  · simp only [h1, if_false]; split <;> rfl

theorem HitInv.grow {rs rs' : RunesRanges} {n : Int} (hn : 1 ≤ n) (h : HitInv rs)
    (e1 : rs'.minSize = if rs.minSize > n ∨ rs.minSize = 0 then n else rs.minSize)
    (e2 : rs'.maxSize = if rs.maxSize < n then n else rs.maxSize)
    (hm : ∀ c, RunesRanges.RawMem rs c → RunesRanges.RawMem rs' c)
    (hc : ∃ c, RuneOk c ∧ RunesRanges.RawMem rs' c ∧ runeLen c = n)
    (hw : ∀ r ∈ rs'.ranges, 127 < r.first ∧ r.first ≤ r.last) : HitInv rs' := by
  refine ⟨Or.inr ?_, hw⟩
  unfold SizeHit
  rw [e1, e2]
  rcases h.hit with ⟨z1, z2, _⟩ | ⟨p, ⟨c1, o1, m1, l1⟩, ⟨c2, o2, m2, l2⟩⟩
  · rw [if_pos (Or.inr z1), if_pos (by omega)]
    exact ⟨hn, hc, hc⟩
  · refine ⟨?_, ?_, ?_⟩
    · split <;> omega
    · split
      · exact hc
      · exact ⟨c1, o1, hm _ m1, l1⟩
    · split
      · exact hc
      · exact ⟨c2, o2, hm _ m2, l2⟩

theorem hitInv_empty : HitInv {} := by
  refine ⟨Or.inl ⟨rfl, rfl, ?_⟩, by simp⟩
  intro c
  unfold RunesRanges.RawMem
  split
  · simp
  · simp [InRanges]

theorem HitInv.asciiRange {rs : RunesRanges} (h : HitInv rs) {a b : Nat} (hab : a ≤ b) (hb : b ≤ 127) :
    HitInv (({ rs with ascii := RunesRanges.addAsciiRange rs.ascii a b }).setSizes 1) := by
  rw [setSizes_eq]
  refine h.grow (n := 1) (by omega) rfl rfl ?_ ⟨a, by unfold RuneOk; omega, ?_, RunesRanges.runeLen_ascii (by omega)⟩ h.wf
  · intro c hc
    unfold RunesRanges.RawMem at hc ⊢
    split
    · rename_i hlt
      rw [if_pos hlt] at hc
      exact (RunesRanges.contains_addAsciiRange _ _ _ hb _ hlt).2 (Or.inl hc)
    · rename_i hlt
      rw [if_neg hlt] at hc
      exact hc
  · unfold RunesRanges.RawMem
    rw [if_pos (by omega)]
    exact (RunesRanges.contains_addAsciiRange _ _ _ hb _ (by omega)).2 (Or.inr ⟨Nat.le_refl _, hab⟩)

theorem HitInv.uniRange {rs rs' : RunesRanges} (h : HitInv rs) {a b : Nat} (ha : 127 < a) (hab : a ≤ b)
    (hoa : RuneOk a) (e0 : rs'.ascii = rs.ascii) (e3 : rs'.ranges = rs.ranges ++ [RuneRange.mk a b])
    (e1 : rs'.minSize = if rs.minSize > runeLen a ∨ rs.minSize = 0 then runeLen a else rs.minSize)
    (e2 : rs'.maxSize = if rs.maxSize < runeLen a then runeLen a else rs.maxSize) : HitInv rs' := by
  refine h.grow (RunesRanges.runeLen_pos hoa) e1 e2 ?_ ⟨a, hoa, ?_, rfl⟩ ?_
  · intro c hc
    unfold RunesRanges.RawMem at hc ⊢
    rw [e0, e3]
    split
    · rename_i hlt
      rw [if_pos hlt] at hc
      exact hc
    · rename_i hlt
      rw [if_neg hlt] at hc
      obtain ⟨r, hr, hh⟩ := hc
      exact ⟨r, by simp [hr], hh⟩
  · unfold RunesRanges.RawMem
    rw [if_neg (by omega), e3]
    exact ⟨⟨a, b⟩, by simp, Nat.le_refl _, hab⟩
  · rw [e3]
    intro r hr
    rcases List.mem_append.1 hr with hr | hr
    · exact h.wf r hr
    · rw [List.mem_singleton.1 hr]; exact ⟨ha, hab⟩

theorem HitInv.addOne {rs : RunesRanges} (h : HitInv rs) {x : Nat} (hx : RuneOk x) :
    HitInv (rs.addOne x) := by
  unfold RunesRanges.addOne
  split
  · rename_i hle
    have : RunesRanges.addAsciiRange rs.ascii x x = (rs.ascii.add (UInt8.ofNat x)).1 := by
      unfold RunesRanges.addAsciiRange
      rw [show x + 1 - x = 1 by omega]
      rfl
    rw [← this]
    exact h.asciiRange (Nat.le_refl _) hle
  · rename_i hle
    rw [setSizes_eq]
    exact h.uniRange (by omega) (Nat.le_refl _) hx rfl rfl rfl rfl

theorem HitInv.loop (cs : List Nat) (hcs : ∀ c ∈ cs, RuneOk c) (rs : RunesRanges) (start : Nat)
    (hst : RuneOk start) (b : Bool) (h0 : HitInv rs) (rs' : RunesRanges)
    (h : RunesRanges.expandLoop rs start b cs = some rs') :
    ∃ r, HitInv r ∧ rs' = { r with ranges := runesRangeMerge r.ranges } := by
  induction cs generalizing rs start b with
  | nil =>
    rw [RunesRanges.expandLoop] at h
    injection h with h
    subst h
    refine ⟨_, ?_, rfl⟩
    split
    · exact h0.addOne hst
    · exact h0
  | cons c cs ih =>
    have ih := ih (fun x hx => hcs x (by simp [hx]))
    have hc := hcs c (by simp)
    rw [RunesRanges.expandLoop] at h
    dsimp only at h
    split at h
    · exact ih _ _ hst _ h0 h
    split at h
    · split at h
      · exact ih _ _ hc _ h0 h
      split at h
      · split at h
        · cases h
        split at h
        · exact ih _ _ runeError_ok _ (h0.asciiRange (by assumption) (by omega)) h
        · cases h
      split at h
      · split at h
        · cases h
        · refine ih _ _ runeError_ok _ ?_ h
          rw [setSizes_eq]
          exact h0.uniRange (by omega) (by assumption) hst rfl rfl rfl rfl
      · cases h
    · split at h
      · exact ih _ _ hc _ (h0.addOne hst) h
      · exact ih _ _ hc _ h0 h

/-- Every accepted class that contains something: the recorded sizes are sizes of members. -/
theorem expand_hit {s : Str} {rs : RunesRanges} (h : RunesRanges.expand s = some rs) :
    classItem rs = none ∨ SizeHit rs (fun c => rs.contains c = true) := by
  have key : ∀ r, HitInv r → rs = { r with ranges := runesRangeMerge r.ranges } →
      classItem rs = none ∨ SizeHit rs (fun c => rs.contains c = true) := by
    rintro r hr rfl
    obtain ⟨m1, m2, m3⟩ := runesRangeMerge_spec r.ranges
      (fun x hx => by have := hr.wf x hx; omega)
    have hcont : ∀ c, RunesRanges.RawMem r c →
        ({ r with ranges := runesRangeMerge r.ranges } : RunesRanges).contains c = true := by
      intro c hc
      unfold RunesRanges.RawMem at hc
      split at hc
      · rename_i hlt
        rw [RunesRanges.contains_of_lt _ (by omega)]
        exact hc
      · rename_i hlt
        rw [RunesRanges.contains_of_ge _ (by omega)]
        exact (RunesRanges.containsUnicode_spec ⟨fun x hx => (m3 x hx).1, m2⟩ c).2 ((m1 c).2 hc)
    rcases hr.hit with ⟨z1, z2, z3⟩ | ⟨_, ⟨c1, o1, h1, l1⟩, ⟨c2, o2, h2, l2⟩⟩
    · left
      have hr0 : r.ranges = [] := by
        cases hl : r.ranges with
        | nil => rfl
        | cons x xs =>
          have hx := hr.wf x (by rw [hl]; simp)
          exfalso
          apply z3 x.first
          unfold RunesRanges.RawMem
          rw [if_neg (by omega)]
          exact ⟨x, by rw [hl]; simp, Nat.le_refl _, hx.2⟩
      have ha0 : r.ascii.count.1 = 0 := by
        rw [ASCIISet.count_eq]
        show (ASCIISet.codes.filter r.ascii.contains).length = 0
        rw [List.length_eq_zero_iff, List.filter_eq_nil_iff]
        intro b hb hc
        have hlt := ascii_of_contains hc
        apply z3 b.toNat
        unfold RunesRanges.RawMem
        rw [if_pos (by omega)]
        simpa using hc
      unfold classItem
      dsimp only
      rw [if_pos ⟨ha0, by rw [hr0]; rfl⟩]
    · right
      exact ⟨⟨c1, o1, hcont _ h1, l1⟩, ⟨c2, o2, hcont _ h2, l2⟩⟩
  unfold RunesRanges.expand at h
  split at h
  · split at h
    · dsimp only at h
      split at h
      · injection h with h
        subst h
        exact Or.inl rfl
      · obtain ⟨r, hr, e⟩ := HitInv.loop _ (by
          intro c hc
          obtain ⟨p, hp, rfl⟩ := List.mem_map.1 hc
          exact rangeStr_ok _ p hp) _ _ runeError_ok _ hitInv_empty _ h
        exact key r hr e
    · cases h
  · cases h

/-! ## Items -/

namespace Item

/-- No star anywhere in the item. -/
inductive NoStar : Item → Prop
  | str (s : Str) : NoStar (.str s)
  | byte (b : UInt8) : NoStar (.byte b)
  | rune (r : Nat) : NoStar (.rune r)
  | any (n : Nat) : NoStar (.any n)
  | ranges (rs : RunesRanges) : NoStar (.ranges rs)
  | list (l : StringList) : NoStar (.list l)
  | group {vals : List Item} {mn mx : Int} (h : ∀ v ∈ vals, NoStar v) : NoStar (.group vals mn mx)
  | chain {items : List Item} {mn mx : Int} (h : ∀ v ∈ items, NoStar v) : NoStar (.chain items mn mx)

/-- The sum of the maximal lengths. -/
def topOf : List Item → Int
  | [] => 0
  | x :: xs => x.maxLen + topOf xs

/-- The sizes of classes, lists and groups are sizes of parts; those of chains are sums.  (The search for the
shortest word of a list starts from the largest `int`.) -/
inductive Hit : Item → Prop
  | str (s : Str) : Hit (.str s)
  | byte {b : UInt8} (h : b.toNat < 128) : Hit (.byte b)
  | rune {r : Nat} (h : RuneOk r) : Hit (.rune r)
  | any (n : Nat) : Hit (.any n)
  | star (n : Nat) : Hit (.star n)
  | ranges {rs : RunesRanges} (h : SizeHit rs fun c => rs.contains c = true) : Hit (.ranges rs)
  | list {l : StringList} (h1 : l.minSize = 0 ∨ (∃ v ∈ l.vals, (v.length : Int) = l.minSize) ∨
        ∀ v ∈ l.vals, 2 ^ 63 - 1 ≤ v.length)
      (h2 : ∃ v ∈ l.vals, (v.length : Int) = l.maxSize) : Hit (.list l)
  | group {vals : List Item} {mn mx : Int} (h : ∀ v ∈ vals, Hit v) (hmn : ∃ v ∈ vals, mn = v.minLen)
      (hmx : (∀ v ∈ vals, NoStar v) → ∃ v ∈ vals, mx = v.maxLen) : Hit (.group vals mn mx)
  | chain {items : List Item} {mn mx : Int} (h : ∀ v ∈ items, Hit v) (hmn : mn = sumOf items)
      (hmx : (∀ v ∈ items, NoStar v) → mx = topOf items) : Hit (.chain items mn mx)

end Item

theorem classItem_hit {s : Str} {rs : RunesRanges} (h : RunesRanges.expand s = some rs) {it : Item}
    (e : classItem rs = some it) : it.Hit := by
  have hz := classItem_sized (expand_first h) e
  rcases expand_hit h with h | h
  · rw [h] at e; cases e
  · unfold classItem at e
    dsimp only at e
    repeat' split at e
    all_goals first | (cases e; done) | skip
    all_goals cases e
    all_goals first
      | exact .ranges h
      | (cases hz; constructor; assumption)

theorem literalItem_hit (v : Str) : (literalItem v).Hit := by
  have := literalItem_sized v
  unfold literalItem at this ⊢
  dsimp only at this ⊢
  by_cases h1 : (decodeRune v).2 = v.length
  · rw [if_pos h1] at this ⊢
    by_cases h2 : (decodeRune v).1 ≤ 127
    · rw [if_pos h2] at this ⊢
      cases this with
      | byte h => exact .byte h
    · rw [if_neg h2] at this ⊢
      cases this with
      | rune h => exact .rune h
  · rw [if_neg h1]
    exact .str _

theorem topOf_append (xs ys : List Item) : Item.topOf (xs ++ ys) = Item.topOf xs + Item.topOf ys := by
  induction xs with
  | nil => simp [Item.topOf]
  | cons x xs ih => rw [List.cons_append, Item.topOf, Item.topOf, ih]; omega

theorem mergeItem_hit {x y m : Item} (hx : x.Hit) (hy : y.Hit) (h : mergeItem x y = some m) :
    m.Hit ∧ m.minLen = x.minLen + y.minLen ∧
      (m.NoStar → x.NoStar ∧ y.NoStar ∧ m.maxLen = x.maxLen + y.maxLen) := by
  cases hy <;> cases hx <;> simp only [mergeItem, Option.some.injEq, reduceCtorEq] at h <;> subst h
  all_goals refine ⟨by constructor, ?_, fun hn => ?_⟩
  all_goals first
    | (cases hn; done)
    | skip
  all_goals try refine ⟨by constructor, by constructor, ?_⟩
  all_goals simp only [Item.minLen, Item.maxLen, List.length_append, Int.natCast_add]
  all_goals first
    | omega
    | skip
  all_goals (repeat rw [encodeRune_length (by assumption)])
  all_goals (repeat rw [stringOfByte_length (by assumption)])
  all_goals omega

theorem appendItem_hit {xs : List Item} {y : Item} (hx : ∀ x ∈ xs, x.Hit) (hy : y.Hit) :
    (∀ x ∈ appendItem xs y, x.Hit) ∧ Item.sumOf (appendItem xs y) = Item.sumOf xs + y.minLen ∧
    ((∀ x ∈ appendItem xs y, x.NoStar) → (∀ x ∈ xs, x.NoStar) ∧ y.NoStar ∧
      Item.topOf (appendItem xs y) = Item.topOf xs + y.maxLen) := by
  unfold appendItem
  split
  · rename_i h
    rw [List.getLast?_eq_none_iff] at h
    subst h
    exact ⟨by simpa using hy, by simp [Item.sumOf], fun h => ⟨by simp, h y (by simp), by simp [Item.topOf]⟩⟩
  · rename_i last hl
    obtain ⟨init, rfl⟩ : ∃ init, xs = init ++ [last] := by
      obtain ⟨init, h⟩ := List.getLast?_eq_some_iff.1 hl
      exact ⟨init, h⟩
    split
    · rename_i m hm
      obtain ⟨h1, h2, h3⟩ := mergeItem_hit (hx last (by simp)) hy hm
      simp only [List.dropLast_concat]
      refine ⟨?_, ?_, fun hn => ?_⟩
      · intro x hxm
        rcases List.mem_append.1 hxm with h | h
        · exact hx x (by simp [h])
        · rw [List.mem_singleton.1 h]; exact h1
      · simp only [sumOf_append, Item.sumOf, h2]
        omega
      · obtain ⟨n1, n2, n3⟩ := h3 (hn m (by simp))
        refine ⟨?_, n2, ?_⟩
        · intro x hxm
          rcases List.mem_append.1 hxm with h | h
          · exact hn x (by simp [h])
          · rw [List.mem_singleton.1 h]; exact n1
        · simp only [topOf_append, Item.topOf, n3]
          omega
    · refine ⟨?_, ?_, fun hn => ⟨fun x hx => hn x (List.mem_append.2 (Or.inl hx)), hn y (by simp), ?_⟩⟩
      · intro x hxm
        rcases List.mem_append.1 hxm with h | h
        · exact hx x h
        · rw [List.mem_singleton.1 h]; exact hy
      · simp only [sumOf_append, Item.sumOf]
        omega
      · simp only [topOf_append, Item.topOf]
        omega

/-- Items without stars have a maximal length. -/
theorem top_nonneg {x : Item} (h : x.Hit) (hn : x.NoStar) : 0 ≤ x.maxLen := by
  induction h with
  | str s => simp only [Item.maxLen]; omega
  | byte _ => simp only [Item.maxLen]; omega
  | rune h => simp only [Item.maxLen]; have := RunesRanges.runeLen_pos h; omega
  | any n => simp only [Item.maxLen]; omega
  | star n => cases hn
  | ranges h =>
    obtain ⟨_, c, hc, _, e⟩ := h
    simp only [Item.maxLen]
    have := RunesRanges.runeLen_pos hc
    omega
  | list _ h =>
    obtain ⟨v, _, e⟩ := h
    simp only [Item.maxLen]
    omega
  | group _ _ hmx ih =>
    cases hn with
    | group hn =>
      obtain ⟨v, hv, e⟩ := hmx hn
      simp only [Item.maxLen]
      rw [e]
      exact ih v hv (hn v hv)
  | @chain items mn mx _ _ hmx ih =>
    cases hn with
    | chain hn =>
      simp only [Item.maxLen]
      rw [hmx hn]
      clear hmx
      rename_i hall hsum
      clear hall hsum
      induction items with
      | nil => simp [Item.topOf]
      | cons x xs ih2 =>
        rw [Item.topOf]
        have := ih x (by simp) (hn x (by simp))
        have := ih2 (fun v hv => ih v (by simp [hv])) (fun v hv => hn v (by simp [hv]))
        omega

theorem listScan_hit (vs : List Str) (st : ListScan) (h : (listScan st vs).hasStar = false) :
    ((listScan st vs).minLen = st.minLen ∨ ∃ v ∈ vs, (v.length : Int) = (listScan st vs).minLen) ∧
    ((listScan st vs).maxLen = st.maxLen ∨ ∃ v ∈ vs, (v.length : Int) = (listScan st vs).maxLen) ∧
    (listScan st vs).minLen ≤ st.minLen ∧ (∀ v ∈ vs, (listScan st vs).minLen ≤ v.length) ∧
    st.maxLen ≤ (listScan st vs).maxLen ∧ (∀ v ∈ vs, (v.length : Int) ≤ (listScan st vs).maxLen) := by
  induction vs generalizing st with
  | nil => simp [listScan]
  | cons v vs ih =>
    have key : ∀ st2 : ListScan, st2.minLen = (if st.minLen > v.length then (v.length : Int) else st.minLen) →
        st2.maxLen = (if st.maxLen < v.length then (v.length : Int) else st.maxLen) →
        listScan st (v :: vs) = listScan st2 vs →
        ((listScan st (v :: vs)).minLen = st.minLen ∨
          ∃ w ∈ v :: vs, (w.length : Int) = (listScan st (v :: vs)).minLen) ∧
        ((listScan st (v :: vs)).maxLen = st.maxLen ∨
          ∃ w ∈ v :: vs, (w.length : Int) = (listScan st (v :: vs)).maxLen) ∧
        (listScan st (v :: vs)).minLen ≤ st.minLen ∧
        (∀ w ∈ v :: vs, (listScan st (v :: vs)).minLen ≤ w.length) ∧
        st.maxLen ≤ (listScan st (v :: vs)).maxLen ∧
        (∀ w ∈ v :: vs, (w.length : Int) ≤ (listScan st (v :: vs)).maxLen) := by
      intro st2 e1 e2 e
      rw [e] at h ⊢
      obtain ⟨a1, a2, a3, a4, a5, a6⟩ := ih st2 h
      rw [e1] at a1 a3
      rw [e2] at a2 a5
      refine ⟨?_, ?_, ?_, ?_, ?_, ?_⟩
      · rcases a1 with a1 | ⟨w, hw, a1⟩
        · split at a1
          · exact Or.inr ⟨v, by simp, a1.symm⟩
          · exact Or.inl a1
        · exact Or.inr ⟨w, by simp [hw], a1⟩
      · rcases a2 with a2 | ⟨w, hw, a2⟩
        · split at a2
          · exact Or.inr ⟨v, by simp, a2.symm⟩
          · exact Or.inl a2
        · exact Or.inr ⟨w, by simp [hw], a2⟩
      · split at a3 <;> omega
      · intro w hw
        rcases List.mem_cons.1 hw with rfl | hw
        · split at a3 <;> omega
        · exact a4 w hw
      · split at a5 <;> omega
      · intro w hw
        rcases List.mem_cons.1 hw with rfl | hw
        · split at a5 <;> omega
        · exact a6 w hw
    have e1 : ∀ (st : ListScan) (l : Int), (if (if st.maxLen < l then { st with maxLen := l } else st).minLen > l
        then { (if st.maxLen < l then { st with maxLen := l } else st) with minLen := l }
        else (if st.maxLen < l then { st with maxLen := l } else st)) =
        { st with maxLen := if st.maxLen < l then l else st.maxLen
                  minLen := if st.minLen > l then l else st.minLen } := by
      intro st l
      by_cases h1 : st.maxLen < l
      · simp only [h1, if_true]
        split <;> rfl
      · simp only [h1, if_false]
        split <;> rfl
    cases v with
    | nil =>
      refine key _ ?_ ?_ (by rw [listScan])
      · rw [e1]
      · rw [e1]
    | cons b v =>
      by_cases hw : hasWildcard (b :: v) = true
      · exfalso
        rw [listScan] at h
        simp only [hw, if_true] at h
        cases h
      · refine key _ ?_ ?_ (by rw [listScan]; simp only [hw]; rfl)
        · dsimp only; rw [e1]
        · dsimp only; rw [e1]

theorem listItem_hit {vals : List Str} {r : R (Option Item)} (h : listItem vals = .inl r)
    {it : Item} (e : r = .ok (some it)) : it.Hit := by
  subst e
  unfold listItem at h
  split at h
  · cases h
  · split at h
    · cases h
    · cases h; exact literalItem_hit _
  · rename_i v0 vs hne
    dsimp only at h
    by_cases hst : (listScan {} (v0 :: vs)).hasStar = true
    · rw [if_pos hst] at h; cases h
    rw [if_neg hst] at h
    split at h
    · cases h
    rename_i hz
    obtain ⟨a1, a2, a3, a4, a5, a6⟩ := listScan_hit (v0 :: vs) {} (by simpa using hst)
    generalize hL : listScan {} (v0 :: vs) = L at *
    have hvs : vs ≠ [] := by
      rintro rfl
      exact hne rfl
    have main : ∀ (b : Bool) (f : ASCIISet), (Item.list
        { vals := if L.minLen = 0 then vs else v0 :: vs, minSize := L.minLen, maxSize := L.maxLen
          asciiStarted := b, firstASCII := f }).Hit := by
      intro b f
      refine .list ?_ ?_
      · dsimp only
        by_cases h0 : L.minLen = 0
        · exact Or.inl h0
        right
        rw [if_neg h0]
        rcases a1 with a1 | a1
        · right
          intro v hv
          have := a4 v hv
          rw [a1] at this
          have e : (({} : ListScan).minLen) = 9223372036854775807 := rfl
          omega
        · exact Or.inl a1
      · dsimp only
        have a0 : (0 : Int) ≤ L.maxLen := a5
        obtain ⟨w, ws, hws⟩ := List.exists_cons_of_ne_nil hvs
        by_cases h0 : L.minLen = 0
        · rw [if_pos h0]
          have hv0 : v0 = [] := by
            apply Classical.byContradiction
            intro hn
            exact hz ⟨h0, hn⟩
          have hw := a6 w (by rw [hws]; simp)
          rcases a2 with a2 | ⟨v, hv, a2⟩
          · have e : (({} : ListScan).maxLen) = 0 := rfl
            exact ⟨w, by rw [hws]; simp, by omega⟩
          · rcases List.mem_cons.1 hv with rfl | hv
            · rw [hv0] at a2
              simp only [List.length_nil] at a2
              exact ⟨w, by rw [hws]; simp, by omega⟩
            · exact ⟨v, hv, a2⟩
        · rw [if_neg h0]
          rcases a2 with a2 | a2
          · have e : (({} : ListScan).maxLen) = 0 := rfl
            have hw := a6 w (by rw [hws]; simp)
            exact ⟨w, by rw [hws]; simp, by omega⟩
          · exact a2
    split at h
    · cases h; exact main _ _
    · cases h; exact main _ _

theorem groupOf_hit {xs : List Item} (h : ∀ x ∈ xs, x.Hit) {it : Item}
    (e : groupOf xs = some it) : it.Hit := by
  have key : ∀ (xs : List Item) (mn mx : Int),
      ((groupSizes xs (mn, mx)).1 = mn ∨ ∃ v ∈ xs, (groupSizes xs (mn, mx)).1 = v.minLen) ∧
      ((groupSizes xs (mn, mx)).2 = mx ∨ ∃ v ∈ xs, (groupSizes xs (mn, mx)).2 = v.maxLen) := by
    intro xs
    induction xs with
    | nil => intro mn mx; exact ⟨Or.inl rfl, Or.inl rfl⟩
    | cons x xs ih =>
      intro mn mx
      rw [groupSizes]
      obtain ⟨h1, h2⟩ := ih (if mn > x.minLen then x.minLen else mn)
        (if mx ≠ -1 ∧ (x.maxLen = -1 ∨ mx < x.maxLen) then x.maxLen else mx)
      constructor
      · rcases h1 with h1 | ⟨v, hv, h1⟩
        · rw [h1]
          split
          · exact Or.inr ⟨x, by simp, rfl⟩
          · exact Or.inl rfl
        · exact Or.inr ⟨v, by simp [hv], h1⟩
      · rcases h2 with h2 | ⟨v, hv, h2⟩
        · rw [h2]
          split
          · exact Or.inr ⟨x, by simp, rfl⟩
          · exact Or.inl rfl
        · exact Or.inr ⟨v, by simp [hv], h2⟩
  unfold groupOf at e
  cases xs with
  | nil => cases e
  | cons x xs =>
    dsimp only at e
    cases e
    obtain ⟨h1, h2⟩ := key xs x.minLen x.maxLen
    refine .group h ?_ fun _ => ?_
    · rcases h1 with h1 | ⟨v, hv, h1⟩
      · exact ⟨x, by simp, h1⟩
      · exact ⟨v, by simp [hv], h1⟩
    · rcases h2 with h2 | ⟨v, hv, h2⟩
      · exact ⟨x, by simp, h2⟩
      · exact ⟨v, by simp [hv], h2⟩

/-- A chain under construction. -/
def ChainSt.Hit (c : ChainSt) : Prop :=
  (∀ x ∈ c.items, x.Hit) ∧ c.minSize = Item.sumOf c.items ∧
  ((∀ x ∈ c.items, x.NoStar) → c.maxSize = Item.topOf c.items)

theorem ChainSt.Hit.append {c : ChainSt} {y : Item} (h : c.Hit) (hy : y.Hit) :
    (c.append y).Hit := by
  obtain ⟨h1, h2, h3⟩ := appendItem_hit h.1 hy
  refine ⟨h1, ?_, fun hn => ?_⟩
  · show c.minSize + y.minLen = _
    rw [h.2.1]
    exact h2.symm
  · obtain ⟨n1, n2, n3⟩ := h3 hn
    show (if y.maxLen = -1 then -1 else c.maxSize + y.maxLen) = _
    have := top_nonneg hy n2
    rw [if_neg (by omega), h.2.2 n1]
    exact n3.symm

theorem parse_hit (fuel : Nat) :
    (∀ (s : Str) it rest, nextItem fuel s = .ok (.ok (some it, rest)) → it.Hit) ∧
    (∀ (vals : List Str) (items : List Item) it, (∀ x ∈ items, x.Hit) →
      newGroup fuel vals items = .ok (.ok (some it)) → it.Hit) ∧
    (∀ (v : Str) (c c' : ChainSt), c.Hit → chainLoop fuel v c = .ok (.ok c') → c'.Hit) := by
  induction fuel with
  | zero =>
    refine ⟨?_, ?_, ?_⟩
    · intro s it rest h; simp [nextItem] at h
    · intro vals items it _ h; simp [newGroup] at h
    · intro v c c' _ h; simp [chainLoop] at h
  | succ fuel ih =>
    obtain ⟨ih1, ih2, ih3⟩ := ih
    refine ⟨?_, ?_, ?_⟩
    · intro s it rest h
      cases s with
      | nil => simp [nextItem] at h
      | cons b t =>
        rw [nextItem] at h
        dsimp only at h
        split at h
        · obtain ⟨⟨seg, next⟩, hc, h⟩ := R.bind_eq_ok.1 h
          dsimp only at h
          split at h
          · cases h
          · rename_i rs hrs
            simp only [R.ok.injEq, Except.ok.injEq, Prod.mk.injEq] at h
            exact classItem_hit hrs h.1
        split at h
        · obtain ⟨⟨seg, next⟩, hc, h⟩ := R.bind_eq_ok.1 h
          dsimp only at h
          split at h
          · cases h
          · split at h
            · rename_i r hr
              obtain ⟨item, hi, h⟩ := R.bind_eq_ok.1 h
              simp only [R.ok.injEq, Except.ok.injEq, Prod.mk.injEq] at h
              exact listItem_hit hr (by rw [hi, h.1])
            · obtain ⟨r, hr, h⟩ := R.bind_eq_ok.1 h
              split at h
              · cases h
              · simp only [R.ok.injEq, Except.ok.injEq, Prod.mk.injEq] at h
                rename_i vals _ _ _ _ _ _ _
                refine ih2 vals [] it (by intro x hx; cases hx) ?_
                rw [hr, h.1]
        split at h
        · obtain ⟨next, hn, h⟩ := R.bind_eq_ok.1 h
          simp only [R.ok.injEq, Except.ok.injEq, Prod.mk.injEq, Option.some.injEq] at h
          rw [← h.1]
          exact .star 0
        split at h
        · simp only [R.ok.injEq, Except.ok.injEq, Prod.mk.injEq, Option.some.injEq] at h
          rw [← h.1]
          exact .any 1
        split at h
        · cases h
        split at h
        · simp only [R.ok.injEq, Except.ok.injEq, Prod.mk.injEq, Option.some.injEq] at h
          rw [← h.1]
          exact .str _
        · obtain ⟨v, hv, h⟩ := R.bind_eq_ok.1 h
          obtain ⟨next, hn, h⟩ := R.bind_eq_ok.1 h
          simp only [R.ok.injEq, Except.ok.injEq, Prod.mk.injEq, Option.some.injEq] at h
          rw [← h.1]
          exact literalItem_hit _
    · intro vals items it hi h
      cases vals with
      | nil =>
        simp only [newGroup, R.ok.injEq, Except.ok.injEq] at h
        exact groupOf_hit hi h
      | cons v vs =>
        have snoc : ∀ y : Item, y.Hit → ∀ x ∈ items ++ [y], x.Hit := by
          intro y hy x hx
          rcases List.mem_append.1 hx with hx | hx
          · exact hi x hx
          · rw [List.mem_singleton.1 hx]; exact hy
        rw [newGroup] at h
        split at h
        · split at h
          · simp only [R.ok.injEq, Except.ok.injEq, Option.some.injEq] at h
            rw [← h]
            exact .star 0
          split at h
          · exact ih2 _ _ _ (snoc _ (.any 1)) h
          · obtain ⟨r, hr, h⟩ := R.bind_eq_ok.1 h
            split at h
            · cases h
            · rename_i c
              have hc := ih3 v {} c ⟨(fun x hx => by cases hx), rfl, fun _ => rfl⟩ hr
              refine ih2 _ _ _ (snoc _ ?_) h
              split
              · rename_i x hx
                exact hc.1 x (by simp [hx])
              · exact .chain hc.1 hc.2.1 hc.2.2
        · exact ih2 _ _ _ (snoc _ (.str v)) h
    · intro v c c' hc h
      cases v with
      | nil =>
        simp only [chainLoop, R.ok.injEq, Except.ok.injEq] at h
        rw [← h]
        exact hc
      | cons b t =>
        rw [chainLoop] at h
        obtain ⟨r, hr, h⟩ := R.bind_eq_ok.1 h
        split at h
        · cases h
        · exact ih3 _ _ _ hc h
        · exact ih3 _ _ _ (hc.append (ih1 _ _ _ hr)) h

/-- The parser loop: prefix and items add up to `MaxLen - n` when there is no star. -/
structure TopInv (n : Nat) (st : ParseSt) : Prop where
  hit : ∀ x ∈ st.inners, x.Hit
  max : (∀ x ∈ st.inners, x.NoStar) → st.maxLen = n + st.pref.length + Item.topOf st.inners

theorem topOf_nonneg {xs : List Item} (h : ∀ x ∈ xs, x.Hit) (hn : ∀ x ∈ xs, x.NoStar) :
    0 ≤ Item.topOf xs := by
  induction xs with
  | nil => simp [Item.topOf]
  | cons x xs ih =>
    have := top_nonneg (h x (by simp)) (hn x (by simp))
    have := ih (fun y hy => h y (by simp [hy])) (fun y hy => hn y (by simp [hy]))
    rw [Item.topOf]
    omega

theorem step_nil (st : ParseSt) (y : Item) (h0 : st.inners = []) : st.step y = match y with
    | .str v => { st with minLen := st.minLen + y.minLen, maxLen := addMaxLen st.maxLen y.maxLen, pref := st.pref ++ v }
    | .rune c => { st with minLen := st.minLen + y.minLen, maxLen := addMaxLen st.maxLen y.maxLen, pref := st.pref ++ encodeRune c }
    | .byte c => { st with minLen := st.minLen + y.minLen, maxLen := addMaxLen st.maxLen y.maxLen, pref := st.pref ++ stringOfByte c }
    | _ => { st with minLen := st.minLen + y.minLen, maxLen := addMaxLen st.maxLen y.maxLen, inners := [y] } := by
  unfold ParseSt.step
  dsimp only
  rw [if_pos (by simp [h0])]
  cases y <;> rfl

theorem TopInv.step {n : Nat} {st : ParseSt} (h : TopInv n st) {y : Item} (hy : y.Hit) :
    TopInv n (st.step y) := by
  by_cases h0 : st.inners = []
  · have h1 : st.maxLen = n + st.pref.length := by
      have := h.max (by rw [h0]; simp)
      rw [this, h0]
      simp [Item.topOf]
    have e := step_nil st y h0
    have other : TopInv n { st with minLen := st.minLen + y.minLen, maxLen := addMaxLen st.maxLen y.maxLen, inners := [y] } := by
      refine ⟨by simpa using hy, fun hn => ?_⟩
      dsimp only at hn ⊢
      have := top_nonneg hy (hn y (by simp))
      rw [addMaxLen_of (by omega) (by omega), Item.topOf, Item.topOf]
      omega
    cases hy with
    | str v =>
      rw [e]
      refine ⟨h.hit, fun _ => ?_⟩
      simp only [Item.maxLen, List.length_append, h0, Item.topOf]
      rw [addMaxLen_of (by omega) (by omega)]; omega
    | rune hr =>
      rw [e]
      have := encodeRune_length hr
      refine ⟨h.hit, fun _ => ?_⟩
      simp only [Item.maxLen, List.length_append, h0, Item.topOf]
      rw [addMaxLen_of (by omega) (by omega)]; omega
    | byte hb =>
      rw [e]
      have := stringOfByte_length hb
      refine ⟨h.hit, fun _ => ?_⟩
      simp only [Item.maxLen, List.length_append, h0, Item.topOf]
      rw [addMaxLen_of (by omega) (by omega)]; omega
    | _ => rw [e]; exact other
  · have e : st.step y = { st with minLen := st.minLen + y.minLen, maxLen := addMaxLen st.maxLen y.maxLen,
                                   inners := appendItem st.inners y } := by
      unfold ParseSt.step
      dsimp only
      rw [if_neg (by simpa using h0)]
    rw [e]
    obtain ⟨a1, _, a3⟩ := appendItem_hit h.hit hy
    refine ⟨a1, fun hn => ?_⟩
    obtain ⟨n1, n2, n3⟩ := a3 hn
    dsimp only
    have h1 := h.max n1
    have h2 := topOf_nonneg h.hit n1
    have h3 := top_nonneg hy n2
    rw [addMaxLen_of (by omega) (by omega), n3]
    omega

theorem TopInv.loop {n : Nat} (fuel : Nat) (s : Str) (st st' : ParseSt) (h0 : TopInv n st)
    (h : parseLoop fuel s st = .ok (.ok st')) : TopInv n st' := by
  induction fuel generalizing s st with
  | zero => simp [parseLoop] at h
  | succ fuel ih =>
    cases s with
    | nil =>
      simp only [parseLoop, R.ok.injEq, Except.ok.injEq] at h
      rw [← h]
      exact h0
    | cons b t =>
      rw [parseLoop] at h
      obtain ⟨r, hr, h⟩ := R.bind_eq_ok.1 h
      split at h
      · cases h
      · exact ih _ _ h0 h
      · exact ih _ _ (h0.step ((parse_hit fuel).1 _ _ _ hr)) h

theorem takeSuffix_top {xs : List Item} (hx : ∀ x ∈ xs, x.Hit) (suff : Str)
    (hn : ∀ x ∈ (takeSuffix xs suff).1, x.NoStar) :
    (∀ x ∈ xs, x.NoStar) ∧
    Item.topOf (takeSuffix xs suff).1 + (takeSuffix xs suff).2.length = Item.topOf xs + suff.length := by
  unfold takeSuffix at hn ⊢
  by_cases h : xs.length > 1
  · rw [if_pos h] at hn ⊢
    have hne : xs ≠ [] := by rintro rfl; simp at h
    obtain ⟨init, last, rfl⟩ : ∃ init last, xs = init ++ [last] :=
      ⟨xs.dropLast, xs.getLast hne, (List.dropLast_concat_getLast hne).symm⟩
    have hl := hx last (by simp)
    simp only [List.getLast?_concat, List.dropLast_concat] at hn ⊢
    have both : (∀ x ∈ init, x.NoStar) → last.NoStar → ∀ x ∈ init ++ [last], x.NoStar := by
      intro h1 h2 x hx
      rcases List.mem_append.1 hx with hx | hx
      · exact h1 x hx
      · rw [List.mem_singleton.1 hx]; exact h2
    rw [topOf_append]
    cases hl with
    | str v => exact ⟨both hn (.str _), by simp only [Item.topOf, Item.maxLen, List.length_append]; omega⟩
    | rune hr =>
      have := encodeRune_length hr
      exact ⟨both hn (.rune _), by simp only [Item.topOf, Item.maxLen, List.length_append]; omega⟩
    | byte hb =>
      have := stringOfByte_length hb
      exact ⟨both hn (.byte _), by simp only [Item.topOf, Item.maxLen, List.length_append]; omega⟩
    | _ => exact ⟨hn, by simp only [topOf_append]⟩
  · rw [if_neg h] at hn ⊢
    exact ⟨hn, rfl⟩

/-- Every accepted byte string: the items carry sizes of texts, and `MaxLen` is the sum over prefix,
items and suffix when there is no star. -/
theorem parseGlob_hit {s : Str} {g : Glob} (h : parseGlob s = .ok (.ok g)) :
    (∀ x ∈ g.items, x.Hit) ∧
    (g.items ≠ [] → (∀ x ∈ g.items, x.NoStar) →
      g.maxLen = g.pref.length + Item.topOf g.items + g.suff.length) := by
  unfold parseGlob at h
  split at h
  · simp only [R.ok.injEq, Except.ok.injEq] at h
    rw [← h]
    exact ⟨(by intro x hx; cases hx), fun h => absurd rfl h⟩
  · obtain ⟨pref, hp, h⟩ := R.bind_eq_ok.1 h
    obtain ⟨body, hb, h⟩ := R.bind_eq_ok.1 h
    dsimp only at h
    split at h
    · split at h
      · cases h
      · obtain ⟨⟨body', suff⟩, hc, h⟩ := R.bind_eq_ok.1 h
        dsimp only at h
        split at h
        · simp only [R.ok.injEq, Except.ok.injEq] at h
          rw [← h, finishGlob_keeps]
          refine ⟨?_, fun hi hn => ?_⟩
          · intro x hx; rw [List.mem_singleton.1 hx]; exact .star 0
          · have := hn (.star 0) (by simp)
            cases this
        split at h
        · simp only [R.ok.injEq, Except.ok.injEq] at h
          rw [← h, finishGlob_keeps]
          refine ⟨?_, fun hi _ => ?_⟩
          · intro x hx; rw [List.mem_singleton.1 hx]; exact .any 1
          obtain ⟨_, h2, _, h4⟩ := finishGlob_lens
            { glob := s, pref := pref, suff := suff, minLen := pref.length + suff.length + 1,
              maxLen := addMaxLen (pref.length + suff.length) 4, items := [Item.any 1] }
          obtain ⟨h5, h6⟩ := h4 hi
          rw [h2, h5, h6]
          dsimp only
          rw [addMaxLen_of (by omega) (by omega)]
          simp only [Item.topOf, Item.maxLen]; omega
        · obtain ⟨r, hr, h⟩ := R.bind_eq_ok.1 h
          split at h
          · cases h
          · rename_i st
            simp only [R.ok.injEq, Except.ok.injEq] at h
            have hI : TopInv suff.length st := TopInv.loop _ _ _ st
              { hit := by intro x hx; cases hx
                max := by intro _; simp only [Item.topOf]; omega } hr
            obtain ⟨_, h2, _, h4⟩ := finishGlob_lens
              { glob := s, pref := st.pref, suff := (takeSuffix st.inners suff).2, minLen := st.minLen,
                maxLen := st.maxLen, items := (takeSuffix st.inners suff).1 }
            rw [← h, finishGlob_keeps]
            refine ⟨fun x hx => hI.hit x (takeSuffix_mem _ _ x hx), fun hi hn => ?_⟩
            obtain ⟨h5, h6⟩ := h4 hi
            obtain ⟨k1, k2⟩ := takeSuffix_top hI.hit suff hn
            have hm := hI.max k1
            rw [h2, h5, h6]
            dsimp only at k2 ⊢
            omega
    · cases h

end GoMatcher
