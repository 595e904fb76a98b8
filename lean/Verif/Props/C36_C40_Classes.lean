import Verif.Proofs.ClassSearch
import Verif.Proofs.ClassText

/-!
# C36 - C40: rune ranges, class membership, class search, rune skipping
-/

namespace GoMatcher

/-! ## C36: merging ranges -/
namespace C36

/-- A code point lies in one of the ranges. -/
def Covered (l : List RuneRange) (c : Nat) : Prop := ∃ r ∈ l, r.first ≤ c ∧ c ≤ r.last

/-- Merging keeps exactly the same runes, and the result is sorted, disjoint, not
adjacent and made of non-empty ranges. -/
theorem merge_spec (l : List RuneRange) (hl : ∀ r ∈ l, r.first ≤ r.last ∧ 0 < r.last) :
    (∀ c, Covered (runesRangeMerge l) c ↔ Covered l c) ∧
    (runesRangeMerge l).Pairwise (fun a b => a.last + 1 < b.first) ∧
    (∀ r ∈ runesRangeMerge l, r.first ≤ r.last) := by
  obtain ⟨h1, h2, h3⟩ := runesRangeMerge_spec l hl
  exact ⟨h1, h2, fun r hr => (h3 r hr).1⟩

/-- The result does not depend on the order of the input ranges. -/
theorem merge_perm {l₁ l₂ : List RuneRange} (h : l₁.Perm l₂) :
    runesRangeMerge l₁ = runesRangeMerge l₂ := by
  have : sortBy RuneRange.le l₁ = sortBy RuneRange.le l₂ := by
    apply sortBy_eq_of_perm RuneRange.le RuneRange.le_total RuneRange.le_trans _ h
    intro a b h1 h2
    rw [RuneRange.le_iff] at h1 h2
    cases a; cases b
    simp at h1 h2 ⊢
    omega
  rw [runesRangeMerge_eq, runesRangeMerge_eq, this]

/-- The range made of NUL alone is lost (its end is 0, the in-place deletion mark). -/
theorem merge_drops_nul : Covered [⟨0, 0⟩] 0 ∧ ¬ Covered (runesRangeMerge [⟨0, 0⟩]) 0 := by
  constructor
  · exact ⟨⟨0, 0⟩, by simp, by simp, by simp⟩
  · rintro ⟨r, hr, _⟩
    have : runesRangeMerge [⟨0, 0⟩] = [] := by decide
    rw [this] at hr
    simp at hr

-- A case with overlap, adjacency, containment and a gap.
example : runesRangeMerge [⟨5, 7⟩, ⟨1, 3⟩, ⟨20, 30⟩, ⟨4, 5⟩, ⟨21, 22⟩] = [⟨1, 7⟩, ⟨20, 30⟩] := by
  decide
example : ∀ r ∈ [RuneRange.mk 5 7, ⟨1, 3⟩, ⟨20, 30⟩, ⟨4, 5⟩, ⟨21, 22⟩],
    r.first ≤ r.last ∧ 0 < r.last := by decide

end C36

/-! ## C37: class membership -/
namespace C37

/-- The class text `[...]` of a list of elements. -/
def classText (es : List ClassElt) : Str :=
  b! "[" ++ utf8 (es.flatMap ClassElt.render) ++ b! "]"

/-- A class made of single characters and ranges is accepted, and `Contains` is
true exactly for the runes the class lists.  Full statement: for every class text that is
accepted.  Missing: texts with U+FFFD, where it is false (`replacement_char_wrong`), and
texts with a leading or trailing `-`, where it is false too (`dash_wrong`).  `class_exact` says
what the code does with every text. -/
theorem contains_iff_partial (es : List ClassElt) (h : ∀ e ∈ es, e.Ok) :
    ∃ rs, RunesRanges.expand (classText es) = some rs ∧
      ∀ c, rs.contains c = true ↔ ∃ e ∈ es, e.Mem c := by
  obtain ⟨rs, h1, h2⟩ := RunesRanges.expand_sem es h
  exact ⟨rs, h1, h2.mem⟩

/-- No character of the element is `-` or U+FFFD. -/
def Plain (e : ClassElt) : Prop := ∀ c ∈ e.render, c.toNat ≠ 0xFFFD ∧ (c = '-' → ∃ a b, e = .range a b ∧ a ≠ '-' ∧ b ≠ '-')

/-- A class of plain elements is accepted exactly when no range is reversed or joins characters
of different UTF-8 width. -/
theorem accepted_iff (es : List ClassElt) (hp : ∀ e ∈ es, Plain e) :
    (RunesRanges.expand (classText es)).isSome = true ↔
      ∀ a b, ClassElt.range a b ∈ es →
        a.toNat ≤ b.toNat ∧ (utf8 [a]).length = (utf8 [b]).length := by
  have hw : ∀ a : Char, ((utf8 [a]).length : Int) = runeLen a.toNat := fun a => by
    rw [utf8_cons]; simpa using encodeRune_length (Char.runeOk a)
  have hwid : ∀ a b : Char, (utf8 [a]).length = (utf8 [b]).length ↔
      ClassElt.width a.toNat = ClassElt.width b.toNat := fun a b => by
    have h1 := hw a
    have h2 := hw b
    rw [RunesRanges.runeLen_width (Char.runeOk a)] at h1
    rw [RunesRanges.runeLen_width (Char.runeOk b)] at h2
    omega
  have hok : ∀ e ∈ es, e.Ok ↔ ∀ a b, e = ClassElt.range a b →
      a.toNat ≤ b.toNat ∧ (utf8 [a]).length = (utf8 [b]).length := by
    intro e he
    have hpe := hp e he
    cases e with
    | one c =>
      have := hpe c (by simp [ClassElt.render])
      refine ⟨fun _ _ _ h => (nomatch h), fun _ => ⟨fun hc => ?_, this.1⟩⟩
      obtain ⟨a, b, h, _⟩ := this.2 hc
      cases h
    | range a b =>
      have h1 := hpe a (by simp [ClassElt.render])
      have h2 := hpe b (by simp [ClassElt.render])
      obtain ⟨a', b', h, h3, h4⟩ := (hpe '-' (by simp [ClassElt.render])).2 rfl
      cases h
      constructor
      · rintro ⟨_, _, _, _, h5, h6⟩ _ _ h
        cases h
        exact ⟨h5, (hwid a b).2 h6⟩
      · intro h
        obtain ⟨h5, h6⟩ := h a b rfl
        exact ⟨h3, h4, h1.1, h2.1, h5, (hwid a b).1 h6⟩
  constructor
  · intro hs a b hab
    have hall : ∀ e ∈ es, e.Ok := by
      have key := RunesRanges.expandLoop_refuses es (fun e he => by
        have hpe := hp e he
        cases e with
        | one c =>
          have := hpe c (by simp [ClassElt.render])
          refine ⟨fun hc => ?_, this.1⟩
          obtain ⟨a, b, h, _⟩ := this.2 hc
          cases h
        | range a b =>
          have h1 := hpe a (by simp [ClassElt.render])
          have h2 := hpe b (by simp [ClassElt.render])
          obtain ⟨a', b', h, h3, h4⟩ := (hpe '-' (by simp [ClassElt.render])).2 rfl
          cases h
          exact ⟨h3, h4, h1.1, h2.1⟩)
      refine Classical.byContradiction fun hn => ?_
      have := RunesRanges.expand_refuses es (by rintro rfl; exact hn (by simp)) (fun rs st => key rs st hn)
      rw [show RunesRanges.expand (classText es) = none from this] at hs
      cases hs
    exact (hok _ hab).1 (hall _ hab) a b rfl
  · intro h
    obtain ⟨rs, h1, _⟩ := contains_iff_partial es fun e he => (hok e he).2 fun a b hab => h a b (hab ▸ he)
    rw [h1]
    rfl

/-- The code violates the full claim: `[�]` is accepted and does not contain U+FFFD, which
marks "no character" in the parser. -/
theorem replacement_char_wrong :
    (∃ rs, RunesRanges.expand (classText [.one '\uFFFD']) = some rs ∧ rs.contains 0xFFFD = false) ∧
    ∃ rs, RunesRanges.expand (classText [.one 'a', .one '\uFFFD', .one 'b']) = some rs ∧
      rs.contains 0xFFFD = false ∧ rs.contains 0x61 = true ∧ rs.contains 0x62 = true := by
  refine ⟨⟨_, rfl, ?_⟩, ⟨_, rfl, ?_⟩⟩ <;> decide +kernel

example : (RunesRanges.expand (classText [.one 'x', .range 'a' 'я'])).isSome = false := by decide +kernel
example : (RunesRanges.expand (classText [.one 'x', .range 'а' 'я'])).isSome = true := by decide +kernel

/-- The recorded byte sizes bound the width of every character of the class. -/
theorem sizes_bound (es : List ClassElt) (h : ∀ e ∈ es, e.Ok) (rs : RunesRanges)
    (hrs : RunesRanges.expand (classText es) = some rs) (c : Char)
    (hc : ∃ e ∈ es, e.Mem c.toNat) :
    rs.minSize ≤ ((utf8 [c]).length : Int) ∧ ((utf8 [c]).length : Int) ≤ rs.maxSize := by
  obtain ⟨rs', h1, h2⟩ := RunesRanges.expand_sem es h
  have : rs = rs' := by
    have : some rs = some rs' := hrs.symm.trans h1
    simpa using this
  subst this
  have := h2.sizes c.toNat (Char.runeOk c) hc
  have e : ((utf8 [c]).length : Int) = runeLen c.toNat := by
    rw [utf8_cons]; simpa using encodeRune_length (Char.runeOk c)
  omega

/-- Search in any sorted, separated range list (as merging produces it) is exact. -/
theorem containsUnicode_iff (rs : RunesRanges)
    (hwf : ∀ r ∈ rs.ranges, r.first ≤ r.last)
    (hs : rs.ranges.Pairwise (fun a b => a.last + 1 < b.first)) (c : Nat) :
    rs.containsUnicode c = true ↔ ∃ r ∈ rs.ranges, r.first ≤ c ∧ c ≤ r.last :=
  RunesRanges.containsUnicode_spec ⟨hwf, hs⟩ c

/-- A set grown with `Add` and closed with `Merge` contains exactly the added runes. -/
theorem add_merge_contains (xs : List Nat) (c : Nat) :
    ((xs.foldl RunesRanges.add {}).merge).contains c = true ↔ c ∈ xs := by
  have key : ∀ (xs : List Nat) (rs : RunesRanges),
      (∀ r ∈ rs.ranges, 127 < r.first ∧ r.first = r.last) → (rs.ranges ≠ [] → rs.needMerge = true) →
      (∀ r ∈ (xs.foldl RunesRanges.add rs).ranges, 127 < r.first ∧ r.first = r.last) ∧
      ((xs.foldl RunesRanges.add rs).ranges ≠ [] → (xs.foldl RunesRanges.add rs).needMerge = true) ∧
      ∀ c, RunesRanges.RawMem (xs.foldl RunesRanges.add rs) c ↔ RunesRanges.RawMem rs c ∨ c ∈ xs := by
    have hset : ∀ (rs : RunesRanges) (n : Int), (rs.setSizes n).ascii = rs.ascii ∧
        (rs.setSizes n).ranges = rs.ranges ∧ (rs.setSizes n).needMerge = rs.needMerge := by
      intro rs n
      unfold RunesRanges.setSizes
      by_cases h1 : rs.maxSize < n
      · simp only [h1, if_true]
        by_cases h2 : rs.minSize > n ∨ rs.minSize = 0 <;> simp [h2]
      · simp only [h1, if_false]
        by_cases h2 : rs.minSize > n ∨ rs.minSize = 0 <;> simp [h2]
    intro xs
    induction xs with
    | nil => intro rs h1 h2; exact ⟨h1, h2, by simp⟩
    | cons x xs ih =>
      intro rs h1 h2
      have step : (∀ r ∈ (rs.add x).ranges, 127 < r.first ∧ r.first = r.last) ∧
          ((rs.add x).ranges ≠ [] → (rs.add x).needMerge = true) ∧
          ∀ c, RunesRanges.RawMem (rs.add x) c ↔ RunesRanges.RawMem rs c ∨ c = x := by
        unfold RunesRanges.add
        split
        · rename_i hx
          obtain ⟨e1, e2, e3⟩ := hset { rs with ascii := (rs.ascii.add (UInt8.ofNat x)).1 } 1
          refine ⟨by rw [e2]; exact h1, by rw [e2, e3]; exact h2, ?_⟩
          intro c
          unfold RunesRanges.RawMem
          rw [e1, e2]
          split
          · rename_i hc
            rw [ASCIISet.contains_add]
            have hx' : (UInt8.ofNat x).toNat < 128 := by rw [ofNat_toNat_lt (by omega)]; omega
            simp only [Bool.or_eq_true, Bool.and_eq_true, decide_eq_true_eq, hx', and_true]
            constructor
            · rintro (h | h)
              · exact Or.inl h
              · exact Or.inr (RunesRanges.ofNat_inj_ascii hc hx h)
            · rintro (h | h)
              · exact Or.inl h
              · exact Or.inr (by rw [h])
          · rename_i hc
            constructor
            · exact Or.inl
            · rintro (h | h)
              · exact h
              · omega
        · rename_i hx
          obtain ⟨e1, e2, e3⟩ := hset rs (runeLen x)
          simp only [e1, e2]
          refine ⟨?_, by simp, ?_⟩
          · intro r hr
            rcases List.mem_append.mp hr with hr | hr
            · exact h1 r hr
            · simp at hr; subst hr; simp; omega
          · intro c
            unfold RunesRanges.RawMem
            simp only
            split
            · rename_i hc
              constructor
              · exact Or.inl
              · rintro (h | h)
                · exact h
                · omega
            · unfold InRanges
              constructor
              · rintro ⟨r, hr, hh⟩
                rcases List.mem_append.mp hr with hr | hr
                · exact Or.inl ⟨r, hr, hh⟩
                · simp at hr; subst hr; right; simp at hh; omega
              · rintro (⟨r, hr, hh⟩ | hh)
                · exact ⟨r, by simp [hr], hh⟩
                · exact ⟨⟨x, x⟩, by simp, by simp; omega⟩
      obtain ⟨s1, s2, s3⟩ := step
      obtain ⟨t1, t2, t3⟩ := ih (rs.add x) s1 s2
      refine ⟨t1, t2, fun c => ?_⟩
      rw [List.foldl_cons, t3, s3, List.mem_cons, or_assoc]
  obtain ⟨h1, h2, h3⟩ := key xs {} (by simp) (by simp)
  generalize xs.foldl RunesRanges.add {} = rs at *
  have hraw := h3 c
  have hempty : ¬ RunesRanges.RawMem {} c := by
    unfold RunesRanges.RawMem
    split <;> simp [InRanges]
  rw [show (c ∈ xs) ↔ RunesRanges.RawMem rs c by rw [hraw]; simp [hempty]]
  unfold RunesRanges.merge
  obtain ⟨m1, m2, m3⟩ := runesRangeMerge_spec rs.ranges
    (fun r hr => by have := h1 r hr; omega)
  have hs : SortedRanges (runesRangeMerge rs.ranges) := ⟨fun r hr => (m3 r hr).1, m2⟩
  unfold RunesRanges.RawMem RunesRanges.contains
  by_cases hm : rs.needMerge = true
  · simp only [hm, if_true]
    split
    · rfl
    · rw [RunesRanges.containsUnicode_spec (by simpa using hs)]
      exact m1 c
  · simp only [hm]
    have hr : rs.ranges = [] := Classical.byContradiction (fun h => hm (h2 h))
    split
    · rfl
    · simp [RunesRanges.containsUnicode, hr, InRanges]

/-- A set grown with `Adds` and closed with `Merge` contains exactly the characters of the texts. -/
theorem adds_merge_contains (texts : List (List Char)) (c : Nat) :
    ((texts.foldl (fun rs t => RunesRanges.adds rs (utf8 t)) {}).merge).contains c = true ↔
      ∃ t ∈ texts, ∃ ch ∈ t, ch.toNat = c := by
  have key : ∀ (texts : List (List Char)) (rs : RunesRanges),
      texts.foldl (fun rs t => RunesRanges.adds rs (utf8 t)) rs =
        ((texts.map fun t => t.map fun c => c.toNat).flatten).foldl RunesRanges.add rs := by
    intro texts
    induction texts with
    | nil => intro rs; rfl
    | cons t texts ih =>
      intro rs
      rw [List.foldl_cons, ih, List.map_cons, List.flatten_cons, List.foldl_append]
      unfold RunesRanges.adds
      rw [rangeStr_utf8]
  rw [key, add_merge_contains]
  simp only [List.mem_flatten, List.mem_map]
  constructor
  · rintro ⟨_, ⟨t, ht, rfl⟩, hc⟩
    obtain ⟨ch, h1, h2⟩ := List.mem_map.1 hc
    exact ⟨t, ht, ch, h1, h2⟩
  · rintro ⟨t, ht, ch, h1, h2⟩
    exact ⟨_, ⟨t, ht, rfl⟩, List.mem_map.2 ⟨ch, h1, h2⟩⟩

example : (((["aя".toList, "€-".toList].foldl (fun rs t => RunesRanges.adds rs (utf8 t)) {}).merge).contains 0x20AC = true) := by
  decide +kernel

/-- Every class text, any bytes: `RunesRangeExpand` accepts it exactly when no range it lists is
reversed or joins characters of different UTF-8 width, and then `Contains` is true exactly for
the runes in these ranges.  `Reads` says which ranges a text lists; `cs` are the characters Go's
`range` yields, with U+FFFD for a stray byte. -/
theorem class_exact (body : Str) : ∃ cs : List Char, ∃ es : List (Char × Char),
    (rangeStr body).map Prod.snd = cs.map (fun c => c.toNat) ∧ Reads cs es ∧
    ((RunesRanges.expand (b! "[" ++ body ++ b! "]")).isSome = true ↔
      ∀ a b, (a, b) ∈ es → a.toNat ≤ b.toNat ∧ (utf8 [a]).length = (utf8 [b]).length) ∧
    ∀ rs, RunesRanges.expand (b! "[" ++ body ++ b! "]") = some rs →
      ∀ c, rs.contains c = true ↔ ∃ a b, (a, b) ∈ es ∧ a.toNat ≤ c ∧ c ≤ b.toNat := by
  obtain ⟨cs, hcs⟩ := RunesRanges.rangeStr_go_chars body.length 0 body
  obtain ⟨es, hes⟩ := RunesRanges.reads_total cs
  refine ⟨cs, es, hcs, hes, ?_⟩
  have hwid : ∀ a b : Char, (utf8 [a]).length = (utf8 [b]).length ↔
      ClassElt.width a.toNat = ClassElt.width b.toNat := fun a b => by
    have hw : ∀ a : Char, ((utf8 [a]).length : Int) = runeLen a.toNat := fun a => by
      rw [utf8_cons]; simpa using encodeRune_length (Char.runeOk a)
    have h1 := hw a
    have h2 := hw b
    rw [RunesRanges.runeLen_width (Char.runeOk a)] at h1
    rw [RunesRanges.runeLen_width (Char.runeOk b)] at h2
    omega
  have hgood : (∀ e ∈ es, RunesRanges.GoodRange e) ↔
      ∀ a b, (a, b) ∈ es → a.toNat ≤ b.toNat ∧ (utf8 [a]).length = (utf8 [b]).length :=
    ⟨fun h a b hab => ⟨(h _ hab).1, (hwid a b).2 (h _ hab).2⟩,
      fun h e he => ⟨(h e.1 e.2 he).1, (hwid _ _).1 (h e.1 e.2 he).2⟩⟩
  rw [← hgood]
  have hx : b! "[" ++ body ++ b! "]" = 0x5B :: body ++ [0x5D] := rfl
  rw [hx]
  rcases RunesRanges.expand_reads hcs hes with ⟨h1, rs, h2, h3⟩ | ⟨h1, h2⟩
  · rw [h2]
    refine ⟨⟨fun _ => h1, fun _ => rfl⟩, fun rs' hr c => ?_⟩
    cases hr
    rw [h3.mem c]
    exact ⟨fun ⟨e, he, hc⟩ => ⟨e.1, e.2, he, hc⟩, fun ⟨a, b, hab, hc⟩ => ⟨(a, b), hab, hc⟩⟩
  · rw [h2]
    exact ⟨⟨fun h => (nomatch h), fun h => absurd h h1⟩, fun rs hr => (nomatch hr)⟩

/-- A text lists its ranges in one way only. -/
theorem reads_unique {cs : List Char} {es es' : List (Char × Char)} (h : Reads cs es)
    (h' : Reads cs es') : es' = es :=
  RunesRanges.reads_unique h es' h'

/-- A written `-` is a member only by lying inside a range: `[a-]` and `[-a]` do not contain it. -/
theorem dash_wrong :
    (∃ rs, RunesRanges.expand (b! "[a-]") = some rs ∧ rs.contains 0x61 = true ∧
      rs.contains 0x2D = false) ∧
    ∃ rs, RunesRanges.expand (b! "[-a]") = some rs ∧ rs.contains 0x61 = true ∧
      rs.contains 0x2D = false := by
  constructor <;> refine ⟨_, rfl, ?_, ?_⟩ <;> decide +kernel

-- `-a--c�я-`: the ranges a-c and я.
example : Reads "-a--c�я-".toList [('a', 'c'), ('я', 'я')] :=
  .skip (.inl rfl) (.range 1 (by decide) (by decide) (by decide)
    (.skip (.inr rfl) (.trailing 0 (by decide) (by decide))))
example : (RunesRanges.expand (b! "[-a--c�я-]")).map
    (fun rs => [0x2D, 0x61, 0x62, 0x64, 0xFFFD, 0x44F].map rs.contains) =
    some [false, true, true, false, false, true] := by decide +kernel
-- U+FFFD, here from a stray byte, can end a range.
example : (RunesRanges.expand ([0x5B] ++ utf8 ['一'] ++ [0x2D, 0xFF, 0x5D])).map
    (fun rs => [0xFFFD, 0xFFFE].map rs.contains) = some [true, false] := by decide +kernel

-- A class mixing ASCII and multi-byte members, with an overlap.
example : ∀ e ∈ [ClassElt.one 'z', .range 'a' 'c', .range 'а' 'я', .one 'б', .one '你'], e.Ok := by
  decide
example : (RunesRanges.expand (b! "[za-cа-яб你]")).map
    (fun rs => [0x7A, 0x62, 0x64, 0x431, 0x4f60, 0x4f61].map rs.contains) =
    some [true, true, false, true, true, false] := by decide +kernel
-- Reversed ranges and ranges across widths are refused.
example : RunesRanges.expand (b! "[z-a]") = none ∧ RunesRanges.expand (b! "[a-я]") = none := by
  decide +kernel

end C37

/-! ## C38: searching for a class member -/
namespace C38

/-- `Index` returns position, rune and width of the first character of the class, or
-1 when there is none.  Partial: the text must not contain U+FFFD (see
`index_stops_at_FFFD`). -/
theorem index_first_partial (es : List ClassElt) (h : ∀ e ∈ es, e.Ok) (rs : RunesRanges)
    (hrs : RunesRanges.expand (C37.classText es) = some rs) (cs : List Char)
    (hno : ∀ c ∈ cs, c.toNat ≠ 0xFFFD) :
    (rs.index (utf8 cs) = none ∧ ∀ c ∈ cs, ¬ ∃ e ∈ es, e.Mem c.toNat) ∨
    ∃ pre c post, cs = pre ++ c :: post ∧ (∀ d ∈ pre, ¬ ∃ e ∈ es, e.Mem d.toNat) ∧
      (∃ e ∈ es, e.Mem c.toNat) ∧
      rs.index (utf8 cs) = some ((utf8 pre).length, c.toNat, (utf8 [c]).length) := by
  obtain ⟨rs', h1, h2⟩ := RunesRanges.expand_sem es h
  have : rs = rs' := by
    have : some rs = some rs' := hrs.symm.trans h1
    simpa using this
  subst this
  have hmem : ∀ c, rs.contains c = false ↔ ¬ ∃ e ∈ es, e.Mem c := by
    intro c
    have := h2.mem c
    unfold ClassMem at this
    rw [← this]; simp
  rw [RunesRanges.index_utf8 rs cs (fun _ => hno)]
  rcases RunesRanges.idxSpec_cases rs cs 0 with ⟨a, b⟩ | ⟨pre, c, post, a, b, d, e⟩
  · exact Or.inl ⟨a, fun c hc => (hmem _).mp (b c hc)⟩
  · refine Or.inr ⟨pre, c, post, a, fun x hx => (hmem _).mp (b x hx), (h2.mem _).mp d, ?_⟩
    rw [e, utf8_cons]; simp

/-- The scan of a class with non-ASCII members gives up at the (valid) character
U+FFFD and misses a member behind it. -/
theorem index_stops_at_FFFD :
    ∃ rs, RunesRanges.expand (b! "[я]") = some rs ∧ rs.contains 0x44F = true ∧
      rs.index (b! "�я") = none := by
  refine ⟨_, rfl, ?_, ?_⟩ <;> decide +kernel

/-- `IndexByte` never returns on a class with a non-ASCII member when the bytes start
with an ASCII byte that is not in the class: every step budget is exhausted. -/
theorem indexByte_loops :
    ∃ rs, RunesRanges.expand (b! "[я]") = some rs ∧
      ∀ fuel, rs.indexByte fuel (b! "aя") = R.timeout := by
  refine ⟨_, rfl, ?_⟩
  intro fuel
  generalize hrs : (RunesRanges.mk _ _ _ _ _) = rs
  have h1 : rs.ranges = [⟨0x44F, 0x44F⟩] := by rw [← hrs]; decide +kernel
  have h2 : rs.ascii.contains 97 = false := by rw [← hrs]; decide +kernel
  unfold RunesRanges.indexByte
  rw [h1]
  simp only [List.cons_ne_nil, if_false]
  induction fuel with
  | zero => rfl
  | succ fuel ih =>
    rw [RunesRanges.indexByteLoop, if_pos (by decide), h2]
    simpa using ih

/-- Where no ASCII byte outside the class occurs, `IndexByte` agrees with `Index`
(for any class value and any bytes). -/
theorem indexByte_eq_index_partial (rs : RunesRanges) (s : Str)
    (h : rs.ranges = [] ∨ ∀ b ∈ s, b.toNat < 128 → rs.ascii.contains b = true) :
    rs.indexByte (s.length + 1) s = R.ok (rs.index s) := by
  unfold RunesRanges.indexByte RunesRanges.index
  split
  · rfl
  · rename_i hr
    have h := h.resolve_left hr
    have key : ∀ (n i : Nat) (t : Str), t.length ≤ n →
        (∀ b ∈ t, b.toNat < 128 → rs.ascii.contains b = true) →
        rs.indexByteLoop (n + 1) i t = R.ok (rs.indexLoop n i t) := by
      intro n
      induction n with
      | zero =>
        intro i t ht _
        have : t = [] := List.length_eq_zero_iff.mp (by omega)
        subst this; rfl
      | succ n ih =>
        intro i t ht hb
        cases t with
        | nil => rfl
        | cons b t =>
          rw [RunesRanges.indexByteLoop, RunesRanges.indexLoop]
          have hb0 := hb b (by simp)
          split
          · rename_i hlt
            rw [hb0 hlt]; simp
          · simp only
            have hw := decodeRune_width_pos (s := b :: t) (by simp)
            split
            · rfl
            · split
              · rfl
              · exact ih _ _ (by simp at ht ⊢; omega)
                  (fun x hx => hb x (List.mem_of_mem_drop hx))
    exact key s.length 0 s (Nat.le_refl _) h

example : (RunesRanges.expand (b! "[яb]")).map (fun rs => rs.index (b! "ax你яb")) =
    some (some (5, 0x44F, 2)) := by decide +kernel
example : (RunesRanges.expand (b! "[яb]")).map (fun rs => rs.indexByte 10 (b! "你bяb")) =
    some (R.ok (some (3, 0x62, 1))) := by decide +kernel

end C38

/-! ## C39: class prefix and suffix checks -/
namespace C39

/-- `StartsWith` on any byte string and any class value: the first rune and the offset
behind it when it decodes to a member, else -1. -/
theorem startsWith_spec (rs : RunesRanges) (s : Str) :
    rs.startsWith s =
      if s ≠ [] ∧ (decodeRune s).1 ≠ runeError ∧ rs.contains (decodeRune s).1 = true
      then some (decodeRune s) else none :=
  RunesRanges.startsWith_eq rs s

/-- The same for valid text, in terms of its first character.  Full statement: for every first
character.  Missing: U+FFFD, where it is false (`replacement_char_wrong`). -/
theorem startsWith_char_partial (rs : RunesRanges) (c : Char) (cs : List Char)
    (hc : c.toNat ≠ 0xFFFD) :
    rs.startsWith (utf8 (c :: cs)) =
      if rs.contains c.toNat then some (c.toNat, (utf8 [c]).length) else none := by
  rw [startsWith_spec, decodeRune_utf8_cons]
  have h1 : utf8 (c :: cs) ≠ [] := utf8_cons_ne_nil c cs
  have h2 : c.toNat ≠ runeError := hc
  have h3 : (utf8 [c]).length = (encodeRune c.toNat).length := by rw [utf8_cons]; simp
  simp [h1, h2, h3]

/-- `EndsWith` on valid text ending in a non-ASCII character returns the offset where
that character starts.  Partial: for an ASCII character it returns 1 instead, see
`endsWith_ascii_wrong`. -/
theorem endsWith_char_partial (rs : RunesRanges) (c : Char) (cs : List Char)
    (hc : c.toNat ≠ 0xFFFD) (ha : 128 ≤ c.toNat) :
    rs.endsWith (utf8 (cs ++ [c])) =
      if rs.contains c.toNat then some (c.toNat, (utf8 cs).length) else none := by
  have hu : utf8 (cs ++ [c]) = utf8 cs ++ encodeRune c.toNat := by
    rw [utf8_append, utf8_cons]; simp
  have hne : utf8 cs ++ encodeRune c.toNat ≠ [] := by simp [encodeRune_ne_nil]
  have h2 : c.toNat ≠ runeError := hc
  unfold RunesRanges.endsWith
  rw [hu, if_neg hne, decodeLastRune_append]
  simp only
  rw [if_neg h2, if_neg (by omega), RunesRanges.contains_of_ge rs (by omega)]
  simp

/-- For an ASCII last character the result is `1`, not the offset of the character. -/
theorem endsWith_ascii_wrong :
    ∃ rs, RunesRanges.expand (b! "[bc]") = some rs ∧ rs.endsWith (b! "aaab") = some (0x62, 1) := by
  refine ⟨_, rfl, ?_⟩
  decide +kernel

/-- A class can contain U+FFFD (through a range), and neither function finds it. -/
theorem replacement_char_wrong :
    ∃ rs, RunesRanges.expand (utf8 ['[', '\uFFFC', '-', '\uFFFE', ']']) = some rs ∧
      rs.contains 0xFFFD = true ∧ rs.startsWith (utf8 ['\uFFFD']) = none ∧
      rs.endsWith (utf8 ['\uFFFD']) = none := by
  refine ⟨_, rfl, ?_⟩
  decide +kernel

/-- Whether the last character belongs to the class is answered correctly.  Missing: U+FFFD
(`replacement_char_wrong`). -/
theorem endsWith_isSome_partial (rs : RunesRanges) (c : Char) (cs : List Char) (hc : c.toNat ≠ 0xFFFD) :
    (rs.endsWith (utf8 (cs ++ [c]))).isSome = rs.contains c.toNat := by
  have hu : utf8 (cs ++ [c]) = utf8 cs ++ encodeRune c.toNat := by
    rw [utf8_append, utf8_cons]; simp
  have hne : utf8 cs ++ encodeRune c.toNat ≠ [] := by simp [encodeRune_ne_nil]
  have h2 : c.toNat ≠ runeError := hc
  unfold RunesRanges.endsWith
  rw [hu, if_neg hne, decodeLastRune_append]
  simp only
  rw [if_neg h2]
  by_cases ha : c.toNat < 128
  · rw [if_pos ha, RunesRanges.contains_of_lt rs ha]
    split <;> simp_all
  · rw [if_neg ha, RunesRanges.contains_of_ge rs (by omega)]
    split <;> simp_all

example : (RunesRanges.expand (b! "[а-яz]")).map (fun rs =>
    (rs.startsWith (b! "яbc"), rs.startsWith (b! "abc"), rs.endsWith (b! "abя"))) =
    some (some (0x44F, 2), none, some (0x44F, 2)) := by decide +kernel

end C39

/-! ## C40: rune skipping -/
namespace C40

/-- `StringSkipRunes(s, n)`: offset behind the first `n` characters, -1 if there are
fewer. -/
theorem skipRunes_spec (cs : List Char) (n : Nat) :
    skipRunes (utf8 cs) n = if n ≤ cs.length then some (utf8 (cs.take n)).length else none :=
  skipRunes_utf8 cs n

/-- `StringSkipRunesLast(s, n)`: offset in front of the last `n` characters, -1 if there
are fewer. -/
theorem skipRunesLast_spec (cs : List Char) (n : Nat) :
    skipRunesLast (utf8 cs) n =
      if n ≤ cs.length then some (utf8 (cs.take (cs.length - n))).length else none :=
  skipRunesLast_utf8 cs n

/-- On any bytes the returned offset is inside the string. -/
theorem skipRunes_in_bounds (s : Str) (n k : Nat) (h : skipRunes s n = some k) : k ≤ s.length :=
  skipRunes_le h

example : skipRunes (b! "aя你b") 3 = some 6 ∧ skipRunes (b! "aя你b") 5 = none ∧
    skipRunesLast (b! "aя你b") 2 = some 3 := by decide +kernel

end C40

end GoMatcher
