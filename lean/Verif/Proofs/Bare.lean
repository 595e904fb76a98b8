import Verif.Proofs.Merge
import Verif.Proofs.ParseClass
import Verif.Proofs.ParseTotal
import Verif.Model.GlobTree

/-! # What `Equal` compares of an item, and that nothing else matters to a search -/

namespace GoMatcher

namespace Item

mutual
/-- An item without what `Equal` does not look at: search tables of lists, the merge flag of
classes, the maximal size of groups and chains. -/
def bare : Item → Item
  | .str s => .str s
  | .byte b => .byte b
  | .rune r => .rune r
  | .any n => .any n
  | .star n => .star n
  | .ranges rs => .ranges { rs with needMerge := false }
  | .list l => .list { vals := l.vals, minSize := l.minSize, maxSize := l.maxSize }
  | .group vals mn _ => .group (bareL vals) mn 0
  | .chain items mn _ => .chain (bareL items) mn 0
/-- `bare` for every item. -/
def bareL : List Item → List Item
  | [] => []
  | x :: xs => bare x :: bareL xs
end

theorem bareL_eq (xs : List Item) : bareL xs = xs.map bare := by
  induction xs with
  | nil => rfl
  | cons x xs ih => rw [bareL, ih]; rfl

/-- The least of the minimal lengths. -/
def minOf : List Item → Int
  | [] => 0
  | x :: xs => xs.foldl (fun m y => if m > y.minLen then y.minLen else m) x.minLen

/-- The sum of the minimal lengths. -/
def sumOf : List Item → Int
  | [] => 0
  | x :: xs => x.minLen + sumOf xs

/-- Groups and chains carry the minimal sizes that follow from their parts; bytes are ASCII and
runes can be encoded. -/
inductive Sized : Item → Prop
  | str (s : Str) : Sized (.str s)
  | byte {b : UInt8} (h : b.toNat < 128) : Sized (.byte b)
  | rune {r : Nat} (h : RuneOk r) : Sized (.rune r)
  | any (n : Nat) : Sized (.any n)
  | star (n : Nat) : Sized (.star n)
  | ranges (rs : RunesRanges) : Sized (.ranges rs)
  | list (l : StringList) : Sized (.list l)
  | group {vals : List Item} {mn mx : Int} (h : ∀ v ∈ vals, Sized v) (hm : mn = minOf vals) :
      Sized (.group vals mn mx)
  | chain {items : List Item} {mn mx : Int} (h : ∀ v ∈ items, Sized v) (hm : mn = sumOf items) :
      Sized (.chain items mn mx)

@[simp] theorem bare_minLen (x : Item) : x.bare.minLen = x.minLen := by
  cases x <;> rfl

theorem minOf_congr {xs ys : List Item} (h : xs.map bare = ys.map bare) : minOf xs = minOf ys := by
  have key : ∀ (xs ys : List Item) (m : Int), xs.map bare = ys.map bare →
      xs.foldl (fun m y => if m > y.minLen then y.minLen else m) m =
      ys.foldl (fun m y => if m > y.minLen then y.minLen else m) m := by
    intro xs
    induction xs with
    | nil => intro ys m h; cases ys with
      | nil => rfl
      | cons => cases h
    | cons x xs ih =>
      intro ys m h
      cases ys with
      | nil => cases h
      | cons y ys =>
        simp only [List.map_cons, List.cons.injEq] at h
        have e : x.minLen = y.minLen := by rw [← bare_minLen x, h.1, bare_minLen]
        simp only [List.foldl_cons, e]
        exact ih ys _ h.2
  cases xs with
  | nil => cases ys with
    | nil => rfl
    | cons => cases h
  | cons x xs =>
    cases ys with
    | nil => cases h
    | cons y ys =>
      simp only [List.map_cons, List.cons.injEq] at h
      have e : x.minLen = y.minLen := by rw [← bare_minLen x, h.1, bare_minLen]
      simp only [minOf, e]
      exact key xs ys _ h.2

theorem sumOf_congr {xs ys : List Item} (h : xs.map bare = ys.map bare) : sumOf xs = sumOf ys := by
  induction xs generalizing ys with
  | nil => cases ys with
    | nil => rfl
    | cons => cases h
  | cons x xs ih =>
    cases ys with
    | nil => cases h
    | cons y ys =>
      simp only [List.map_cons, List.cons.injEq] at h
      have e : x.minLen = y.minLen := by rw [← bare_minLen x, h.1, bare_minLen]
      rw [sumOf, sumOf, e, ih h.2]

/-! ## `Equal` -/

mutual
theorem equal_bare : ∀ (a b : Item), Sized a → Sized b → a.equal b = true → a.bare = b.bare
  | .str a, b, _, _, h => by
    cases b <;> simp only [equal, Bool.false_eq_true, beq_iff_eq] at h <;> rw [h]
  | .byte a, b, _, _, h => by
    cases b <;> simp only [equal, Bool.false_eq_true, beq_iff_eq] at h <;> rw [h]
  | .rune a, b, _, _, h => by
    cases b <;> simp only [equal, Bool.false_eq_true, beq_iff_eq] at h <;> rw [h]
  | .any a, b, _, _, h => by
    cases b <;> simp only [equal, Bool.false_eq_true, beq_iff_eq] at h <;> rw [h]
  | .star a, b, _, _, h => by
    cases b <;> simp only [equal, Bool.false_eq_true, beq_iff_eq] at h <;> rw [h]
  | .ranges a, b, _, _, h => by
    cases b <;> simp only [equal, Bool.false_eq_true] at h
    simp only [RunesRanges.equal, Bool.and_eq_true, beq_iff_eq] at h
    obtain ⟨⟨⟨h1, h2⟩, h3⟩, h4⟩ := h
    simp only [bare, h1, h2, h3, h4]
  | .list a, b, _, _, h => by
    cases b <;> simp only [equal, Bool.false_eq_true] at h
    simp only [Bool.and_eq_true, beq_iff_eq] at h
    simp only [bare, h.1.1, h.1.2, h.2]
  | .group xs _ _, b, ha, hb, h => by
    cases b <;> simp only [equal, Bool.false_eq_true] at h
    cases ha with
    | group ha hm =>
      cases hb with
      | group hb hm' =>
        have e := equalItems_bare xs _ ha hb h
        simp only [bare, bareL_eq, e, hm, hm', minOf_congr e]
  | .chain xs _ _, b, ha, hb, h => by
    cases b <;> simp only [equal, Bool.false_eq_true] at h
    cases ha with
    | chain ha hm =>
      cases hb with
      | chain hb hm' =>
        have e := equalItems_bare xs _ ha hb h
        simp only [bare, bareL_eq, e, hm, hm', sumOf_congr e]
theorem equalItems_bare : ∀ (xs ys : List Item), (∀ x ∈ xs, Sized x) → (∀ y ∈ ys, Sized y) →
    equalItems xs ys = true → xs.map bare = ys.map bare
  | [], ys, _, _, h => by
    cases ys with
    | nil => rfl
    | cons => simp only [equalItems, Bool.false_eq_true] at h
  | x :: xs, ys, hx, hy, h => by
    cases ys with
    | nil => simp only [equalItems, Bool.false_eq_true] at h
    | cons y ys =>
      simp only [equalItems, Bool.and_eq_true] at h
      rw [List.map_cons, List.map_cons,
        equal_bare x y (hx x (by simp)) (hy y (by simp)) h.1,
        equalItems_bare xs ys (fun z hz => hx z (by simp [hz])) (fun z hz => hy z (by simp [hz])) h.2]
end

mutual
theorem bare_equal : ∀ (a b : Item), a.bare = b.bare → a.equal b = true
  | .str a, b, h => by cases b <;> simp only [bare, reduceCtorEq, Item.str.injEq] at h <;> simp [equal, h]
  | .byte a, b, h => by cases b <;> simp only [bare, reduceCtorEq, Item.byte.injEq] at h <;> simp [equal, h]
  | .rune a, b, h => by cases b <;> simp only [bare, reduceCtorEq, Item.rune.injEq] at h <;> simp [equal, h]
  | .any a, b, h => by cases b <;> simp only [bare, reduceCtorEq, Item.any.injEq] at h <;> simp [equal, h]
  | .star a, b, h => by cases b <;> simp only [bare, reduceCtorEq, Item.star.injEq] at h <;> simp [equal, h]
  | .ranges a, b, h => by
    cases b <;> simp only [bare, reduceCtorEq, Item.ranges.injEq, RunesRanges.mk.injEq] at h
    simp [equal, RunesRanges.equal, h]
  | .list a, b, h => by
    cases b <;> simp only [bare, reduceCtorEq, Item.list.injEq, StringList.mk.injEq] at h
    simp [equal, h]
  | .group xs _ _, b, h => by
    cases b <;> simp only [bare, reduceCtorEq, Item.group.injEq, bareL_eq] at h
    exact bare_equalItems xs _ h.1
  | .chain xs _ _, b, h => by
    cases b <;> simp only [bare, reduceCtorEq, Item.chain.injEq, bareL_eq] at h
    exact bare_equalItems xs _ h.1
theorem bare_equalItems : ∀ (xs ys : List Item), xs.map bare = ys.map bare →
    equalItems xs ys = true
  | [], ys, h => by
    cases ys with
    | nil => rfl
    | cons => cases h
  | x :: xs, ys, h => by
    cases ys with
    | nil => cases h
    | cons y ys =>
      simp only [List.map_cons, List.cons.injEq] at h
      rw [equalItems, bare_equal x y h.1, bare_equalItems xs ys h.2]
      rfl
end

/-- `Equal` on items of the parser. -/
theorem equal_iff {a b : Item} (ha : Sized a) (hb : Sized b) :
    a.equal b = true ↔ a.bare = b.bare :=
  ⟨equal_bare a b ha hb, bare_equal a b⟩

/-! ## What a search sees -/

/-- Items with the same bare form, case by case. -/
inductive Alike : Item → Item → Prop
  | refl (x : Item) : Alike x x
  | ranges {a b : RunesRanges} (h1 : a.ascii = b.ascii) (h2 : a.ranges = b.ranges)
      (h3 : a.minSize = b.minSize) : Alike (.ranges a) (.ranges b)
  | list {a b : StringList} (h1 : a.vals = b.vals) (h2 : a.minSize = b.minSize) :
      Alike (.list a) (.list b)
  | group {xs ys : List Item} {mn mx mx' : Int} (h : xs.map bare = ys.map bare) :
      Alike (.group xs mn mx) (.group ys mn mx')
  | chain {xs ys : List Item} {mn mx mx' : Int} (h : xs.map bare = ys.map bare) :
      Alike (.chain xs mn mx) (.chain ys mn mx')

theorem alike_of_bare {a b : Item} (h : a.bare = b.bare) : Alike a b := by
  cases a <;> cases b <;>
    simp only [bare, reduceCtorEq, Item.str.injEq, Item.byte.injEq, Item.rune.injEq,
      Item.any.injEq, Item.star.injEq, Item.ranges.injEq, RunesRanges.mk.injEq, Item.list.injEq,
      StringList.mk.injEq, Item.group.injEq, Item.chain.injEq, bareL_eq] at h
  all_goals first
    | (subst h; exact .refl _)
    | exact .ranges h.1 h.2.1 h.2.2.2.1
    | exact .list h.2.2.1 h.2.2.2.1
    | (obtain ⟨h1, rfl, _⟩ := h; first | exact .group h1 | exact .chain h1)

theorem ranges_startsWith {a b : RunesRanges} (h1 : a.ascii = b.ascii) (h2 : a.ranges = b.ranges)
    (s : Str) : a.startsWith s = b.startsWith s := by
  have hc : ∀ c, a.containsUnicode c = b.containsUnicode c := by
    intro c
    simp only [RunesRanges.containsUnicode, h2]
  cases s with
  | nil => rfl
  | cons x t => simp only [RunesRanges.startsWith, h1, hc]

theorem ranges_endsWith {a b : RunesRanges} (h1 : a.ascii = b.ascii) (h2 : a.ranges = b.ranges)
    (s : Str) : a.endsWith s = b.endsWith s := by
  have hc : ∀ c, a.containsUnicode c = b.containsUnicode c := by
    intro c
    simp only [RunesRanges.containsUnicode, h2]
  simp only [RunesRanges.endsWith, h1, hc]

theorem ranges_index {a b : RunesRanges} (h1 : a.ascii = b.ascii) (h2 : a.ranges = b.ranges)
    (s : Str) : a.index s = b.index s := by
  have hc : ∀ c, a.containsUnicode c = b.containsUnicode c := by
    intro c
    simp only [RunesRanges.containsUnicode, h2]
  have hl : ∀ f i s, a.indexLoop f i s = b.indexLoop f i s := by
    intro f
    induction f with
    | zero => intro i s; rfl
    | succ f ih =>
      intro i s
      cases s with
      | nil => rfl
      | cons x t => simp only [RunesRanges.indexLoop, h1, hc, ih]
  have ha : ∀ i s, a.indexAscii i s = b.indexAscii i s := by
    intro i s
    induction s generalizing i with
    | nil => rfl
    | cons x t ih => simp only [RunesRanges.indexAscii, h1, ih]
  simp only [RunesRanges.index, h2, hl, ha]

theorem bare_matchAt {a b : Item} (h : a.bare = b.bare) (s : Str) : a.matchAt s = b.matchAt s := by
  cases alike_of_bare h with
  | refl => rfl
  | ranges h1 h2 h3 => simp only [matchAt, ranges_startsWith h1 h2]
  | list => rfl
  | group => rfl
  | chain => rfl

theorem bare_find : ∀ (a b : Item), a.bare = b.bare → ∀ s, a.find s = b.find s
  | .chain [] mn mx, b, h, s => by
    cases alike_of_bare h with
    | refl => rfl
    | @chain _ ys _ _ _ h' =>
      cases ys with
      | nil => rfl
      | cons => cases h'
  | .chain (x :: xs) mn mx, b, h, s => by
    cases alike_of_bare h with
    | refl => rfl
    | @chain _ ys _ _ _ h' =>
      cases ys with
      | nil => cases h'
      | cons y ys =>
        simp only [List.map_cons, List.cons.injEq] at h'
        simp only [find, bare_find x y h'.1 s]
  | .str _, b, h, s | .byte _, b, h, s | .rune _, b, h, s | .any _, b, h, s | .star _, b, h, s => by
    cases alike_of_bare h; rfl
  | .list _, b, h, s | .group _ _ _, b, h, s => by
    cases alike_of_bare h <;> rfl
  | .ranges _, b, h, s => by
    cases alike_of_bare h with
    | refl => rfl
    | ranges h1 h2 h3 => simp only [find, ranges_index h1 h2]

theorem bare_matchLast {a b : Item} (h : a.bare = b.bare) (s : Str) :
    a.matchLast s = b.matchLast s := by
  cases alike_of_bare h with
  | refl => rfl
  | ranges h1 h2 h3 => simp only [matchLast, ranges_endsWith h1 h2]
  | list => rfl
  | group => rfl
  | chain => rfl

theorem bare_groupItems {a b : Item} (h : a.bare = b.bare) :
    (groupItems a).map bare = (groupItems b).map bare := by
  cases alike_of_bare h with
  | refl => rfl
  | chain h' => exact h'
  | _ => simpa only [groupItems, List.map_cons, List.map_nil, List.cons.injEq, and_true] using h

/-! ## The text of an item -/

mutual
theorem bare_writeString : ∀ x : Item, x.bare.writeString = x.writeString
  | .str _ | .byte _ | .rune _ | .any _ | .star _ | .ranges _ | .list _ => by
    simp [bare, writeString, RunesRanges.writeString]
  | .group vals _ _ => by simp only [bare, writeString, bare_writeAlts]
  | .chain xs _ _ => by simp only [bare, writeString, bare_writeItems]
theorem bare_writeItems : ∀ xs : List Item, writeItems (bareL xs) = writeItems xs
  | [] => rfl
  | x :: xs => by simp only [bareL, writeItems, bare_writeString x, bare_writeItems xs]
theorem bare_writeAlts : ∀ (c : Bool) (xs : List Item), writeAlts c (bareL xs) = writeAlts c xs
  | _, [] => rfl
  | c, x :: xs => by simp only [bareL, writeAlts, bare_writeString x, bare_writeAlts true xs]
end

theorem writeItems_congr {xs ys : List Item} (h : xs.map bare = ys.map bare) :
    writeItems xs = writeItems ys := by
  rw [← bare_writeItems xs, ← bare_writeItems ys, bareL_eq, bareL_eq, h]

end Item

end GoMatcher
