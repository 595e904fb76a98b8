import Verif.Proofs.Merge
import Verif.Proofs.AsciiSet
import Verif.Proofs.Lists
import Verif.Proofs.Utf8
import Verif.Spec.Class

/-! # Facts about rune classes -/

namespace GoMatcher

/-- `c` lies in one of the ranges. -/
def InRanges (l : List RuneRange) (c : Nat) : Prop := ∃ r ∈ l, r.first ≤ c ∧ c ≤ r.last

theorem RuneRange.le_iff (a b : RuneRange) :
    RuneRange.le a b = true ↔ a.first < b.first ∨ (a.first = b.first ∧ a.last ≤ b.last) := by
  unfold RuneRange.le
  split
  · simp; omega
  · simp; omega

theorem RuneRange.le_total (a b : RuneRange) :
    RuneRange.le a b = true ∨ RuneRange.le b a = true := by
  rw [le_iff, le_iff]; omega

theorem RuneRange.le_trans (a b c : RuneRange) (h1 : RuneRange.le a b = true)
    (h2 : RuneRange.le b c = true) : RuneRange.le a c = true := by
  rw [le_iff] at *; omega

theorem emitRange_of_pos {r : RuneRange} (h : 0 < r.last) : emitRange r = [r] := by
  unfold emitRange; rw [if_pos (by omega)]

theorem mergeGo_spec (l : List RuneRange) (cur : RuneRange)
    (hc : cur.first ≤ cur.last ∧ 0 < cur.last)
    (hl : ∀ r ∈ l, r.first ≤ r.last ∧ 0 < r.last ∧ cur.first ≤ r.first)
    (hs : l.Pairwise (fun a b => a.first ≤ b.first)) :
    (∀ c, InRanges (mergeGo cur l) c ↔ InRanges (cur :: l) c) ∧
    (mergeGo cur l).Pairwise (fun a b => a.last + 1 < b.first) ∧
    (∀ r ∈ mergeGo cur l, r.first ≤ r.last ∧ 0 < r.last ∧ cur.first ≤ r.first) := by
  induction l generalizing cur with
  | nil =>
    unfold mergeGo
    rw [emitRange_of_pos hc.2]
    refine ⟨fun c => Iff.rfl, by simp, ?_⟩
    intro r hr
    simp at hr
    subst hr
    omega
  | cons nx rest ih =>
    have hnx := hl nx (by simp)
    rw [List.pairwise_cons] at hs
    unfold mergeGo
    split
    · rename_i hcond
      have hcond' : nx.first ≤ cur.last + 1 := by omega
      generalize hm : (if cur.last < nx.last then { cur with last := nx.last } else cur) = m
      have hm1 : m.first = cur.first := by subst hm; split <;> rfl
      have hm2 : m.last = max cur.last nx.last := by
        subst hm; split
        · show nx.last = _
          omega
        · omega
      obtain ⟨h1, h2, h3⟩ := ih m (by omega)
        (fun r hr => by have := hl r (by simp [hr]); omega) hs.2
      refine ⟨fun c => ?_, h2, fun r hr => by have := h3 r hr; omega⟩
      rw [h1]
      unfold InRanges
      constructor
      · rintro ⟨r, hr, hr1, hr2⟩
        rcases List.mem_cons.mp hr with rfl | hr
        · by_cases h : c ≤ cur.last
          · exact ⟨cur, by simp, by omega, h⟩
          · exact ⟨nx, by simp, by omega, by omega⟩
        · exact ⟨r, by simp [hr], hr1, hr2⟩
      · rintro ⟨r, hr, hr1, hr2⟩
        rcases List.mem_cons.mp hr with rfl | hr
        · exact ⟨m, by simp, by omega, by omega⟩
        · rcases List.mem_cons.mp hr with rfl | hr
          · exact ⟨m, by simp, by omega, by omega⟩
          · exact ⟨r, by simp [hr], hr1, hr2⟩
    · rename_i hcond
      have hcond' : cur.last + 1 < nx.first := by omega
      obtain ⟨h1, h2, h3⟩ := ih nx ⟨hnx.1, hnx.2.1⟩
        (fun r hr => by
          have := hl r (by simp [hr])
          have := hs.1 r hr
          omega) hs.2
      rw [emitRange_of_pos hc.2]
      refine ⟨fun c => ?_, ?_, ?_⟩
      · have e := h1 c
        unfold InRanges at e ⊢
        rw [List.singleton_append]
        constructor
        · rintro ⟨r, hr, hr1⟩
          rcases List.mem_cons.mp hr with rfl | hr
          · exact ⟨r, by simp, hr1⟩
          · obtain ⟨r', hr', h'⟩ := e.mp ⟨r, hr, hr1⟩
            exact ⟨r', by simp at hr' ⊢; exact Or.inr hr', h'⟩
        · rintro ⟨r, hr, hr1⟩
          rcases List.mem_cons.mp hr with rfl | hr
          · exact ⟨r, by simp, hr1⟩
          · obtain ⟨r', hr', h'⟩ := e.mpr ⟨r, hr, hr1⟩
            exact ⟨r', by simp [hr'], h'⟩
      · rw [List.singleton_append, List.pairwise_cons]
        refine ⟨?_, h2⟩
        intro r hr
        have := h3 r hr
        omega
      · intro r hr
        simp only [List.singleton_append, List.mem_cons] at hr
        rcases hr with rfl | hr
        · omega
        · have := h3 r hr
          omega

theorem runesRangeMerge_spec (l : List RuneRange)
    (hl : ∀ r ∈ l, r.first ≤ r.last ∧ 0 < r.last) :
    (∀ c, InRanges (runesRangeMerge l) c ↔ InRanges l c) ∧
    (runesRangeMerge l).Pairwise (fun a b => a.last + 1 < b.first) ∧
    (∀ r ∈ runesRangeMerge l, r.first ≤ r.last ∧ 0 < r.last) := by
  have hp := sortBy_perm RuneRange.le l
  have hs := sortBy_pairwise RuneRange.le RuneRange.le_total RuneRange.le_trans l
  have e : ∀ c, InRanges (sortBy RuneRange.le l) c ↔ InRanges l c := by
    intro c
    unfold InRanges
    constructor
    · rintro ⟨r, hr, h⟩; exact ⟨r, hp.mem_iff.mp hr, h⟩
    · rintro ⟨r, hr, h⟩; exact ⟨r, hp.mem_iff.mpr hr, h⟩
  rw [runesRangeMerge_eq]
  unfold mergeTail
  cases hsl : sortBy RuneRange.le l with
  | nil =>
    rw [hsl] at e
    exact ⟨e, by simp, by simp⟩
  | cons r rs =>
    rw [hsl] at e hp hs
    rw [List.pairwise_cons] at hs
    have hr := hl r (hp.mem_iff.mp (by simp))
    obtain ⟨h1, h2, h3⟩ := mergeGo_spec rs r hr
      (fun x hx => by
        have := hl x (hp.mem_iff.mp (by simp [hx]))
        have hh := (RuneRange.le_iff _ _).mp (hs.1 x hx)
        omega)
      (hs.2.imp (fun {a b} hab => by
        have hh := (RuneRange.le_iff _ _).mp hab
        omega))
    refine ⟨fun c => ?_, h2, fun x hx => by have := h3 x hx; omega⟩
    rw [h1, e]

/-! ## Binary search -/

/-- Ranges as produced by merging. -/
structure SortedRanges (l : List RuneRange) : Prop where
  wf : ∀ r ∈ l, r.first ≤ r.last
  sep : l.Pairwise (fun a b => a.last + 1 < b.first)

theorem SortedRanges.lt {l : List RuneRange} (h : SortedRanges l) {i j : Nat} (hij : i < j)
    (hj : j < l.length) :
    (l.getD i ⟨0, 0⟩).last + 1 < (l.getD j ⟨0, 0⟩).first := by
  rw [getD_eq_getElem _ _ (by omega), getD_eq_getElem _ _ hj]
  exact List.pairwise_iff_getElem.mp h.sep i j (by omega) hj hij

theorem SortedRanges.wf_get {l : List RuneRange} (h : SortedRanges l) {i : Nat}
    (hi : i < l.length) : (l.getD i ⟨0, 0⟩).first ≤ (l.getD i ⟨0, 0⟩).last := by
  rw [getD_eq_getElem _ _ hi]
  exact h.wf _ (List.getElem_mem hi)

namespace RunesRanges

theorem bsearch_spec {l : List RuneRange} (h : SortedRanges l) (c : Nat) (fuel lo hi : Nat)
    (hlo : 1 ≤ lo) (hhi : hi < l.length) (hf : hi + 1 ≤ lo + fuel) :
    bsearch l c fuel lo hi = true ↔
      ∃ i, lo ≤ i ∧ i ≤ hi ∧ (l.getD i ⟨0, 0⟩).first ≤ c ∧ c ≤ (l.getD i ⟨0, 0⟩).last := by
  induction fuel generalizing lo hi with
  | zero =>
    simp only [bsearch, Bool.false_eq_true, false_iff]
    rintro ⟨i, h1, h2, _⟩
    omega
  | succ fuel ih =>
    unfold bsearch
    by_cases hle : lo ≤ hi
    · rw [if_pos hle]
      have hmid1 : lo ≤ (lo + hi) / 2 := by omega
      have hmid2 : (lo + hi) / 2 ≤ hi := by omega
      generalize (lo + hi) / 2 = mid at *
      simp only
      by_cases hc : c ≥ (l.getD mid ⟨0, 0⟩).first
      · rw [if_pos hc]
        by_cases hc2 : c ≤ (l.getD mid ⟨0, 0⟩).last
        · rw [if_pos hc2]
          simp only [true_iff]
          exact ⟨mid, hmid1, hmid2, hc, hc2⟩
        · rw [if_neg hc2, ih _ _ (by omega) hhi (by omega)]
          constructor
          · rintro ⟨i, h1, h2, h3⟩
            exact ⟨i, by omega, h2, h3⟩
          · rintro ⟨i, h1, h2, h3⟩
            refine ⟨i, ?_, h2, h3⟩
            rcases Nat.lt_or_ge mid i with hlt | hge
            · omega
            · rcases Nat.eq_or_lt_of_le hge with heq | hlt
              · subst heq; omega
              · have := h.lt hlt (by omega)
                have := h.wf_get (show mid < l.length by omega)
                omega
      · rw [if_neg hc, ih _ _ (by omega) (by omega) (by omega)]
        constructor
        · rintro ⟨i, h1, h2, h3⟩
          exact ⟨i, h1, by omega, h3⟩
        · rintro ⟨i, h1, h2, h3⟩
          refine ⟨i, h1, ?_, h3⟩
          rcases Nat.lt_or_ge i mid with hlt | hge
          · omega
          · rcases Nat.eq_or_lt_of_le hge with heq | hlt
            · subst heq; omega
            · have := h.lt hlt (by omega)
              have := h.wf_get (show mid < l.length by omega)
              omega
    · rw [if_neg hle]
      simp only [Bool.false_eq_true, false_iff]
      rintro ⟨i, h1, h2, _⟩
      omega

theorem inRanges_iff_index (l : List RuneRange) (c : Nat) :
    InRanges l c ↔
      ∃ i, i < l.length ∧ (l.getD i ⟨0, 0⟩).first ≤ c ∧ c ≤ (l.getD i ⟨0, 0⟩).last := by
  constructor
  · rintro ⟨r, hr, h⟩
    obtain ⟨i, hi, e⟩ := List.getElem_of_mem hr
    refine ⟨i, hi, ?_⟩
    rw [getD_eq_getElem _ _ hi, e]
    exact h
  · rintro ⟨i, hi, h⟩
    rw [getD_eq_getElem _ _ hi] at h
    exact ⟨_, List.getElem_mem hi, h⟩

theorem containsUnicode_spec {rs : RunesRanges} (h : SortedRanges rs.ranges) (c : Nat) :
    rs.containsUnicode c = true ↔ InRanges rs.ranges c := by
  unfold containsUnicode
  split
  · rename_i e
    rw [e]
    simp [InRanges]
  · rename_i r e
    rw [e]
    simp [InRanges]
  · rename_i r0 r1 rest e
    rw [e] at h ⊢
    generalize hl : r0 :: r1 :: rest = l at *
    have hlen : 2 ≤ l.length := by rw [← hl]; simp
    have h0 : l.getD 0 ⟨0, 0⟩ = r0 := by rw [← hl]; rfl
    simp only
    rw [inRanges_iff_index]
    have w0 := h.wf_get (show 0 < l.length by omega)
    have wh := h.wf_get (show l.length - 1 < l.length by omega)
    have key : ∀ i, i < l.length → (l.getD i ⟨0, 0⟩).first ≤ c →
        c ≤ (l.getD i ⟨0, 0⟩).last →
        (l.getD 0 ⟨0, 0⟩).first ≤ c ∧ c ≤ (l.getD (l.length - 1) ⟨0, 0⟩).last := by
      intro i hi h1 h2
      constructor
      · rcases Nat.eq_or_lt_of_le (Nat.zero_le i) with e | hlt
        · subst e; exact h1
        · have := h.lt hlt hi; omega
      · rcases Nat.eq_or_lt_of_le (show i ≤ l.length - 1 by omega) with e | hlt
        · rw [← e]; exact h2
        · have := h.lt hlt (by omega); omega
    rw [h0] at key w0
    by_cases hout : c < r0.first ∨ c > (l.getD (l.length - 1) ⟨0, 0⟩).last
    · have : (decide (c < r0.first) || decide (c > (l.getD (l.length - 1) ⟨0, 0⟩).last)) = true := by
        simpa using hout
      rw [if_pos this]
      simp only [Bool.false_eq_true, false_iff]
      rintro ⟨i, hi, h1, h2⟩
      have := key i hi h1 h2
      omega
    · have : ¬ (decide (c < r0.first) || decide (c > (l.getD (l.length - 1) ⟨0, 0⟩).last)) = true := by
        simpa using hout
      rw [if_neg this]
      by_cases hf : c ≤ r0.last
      · rw [if_pos hf]
        simp only [true_iff]
        exact ⟨0, by omega, by rw [h0]; omega, by rw [h0]; omega⟩
      · rw [if_neg hf]
        by_cases hh : c ≥ (l.getD (l.length - 1) ⟨0, 0⟩).first
        · rw [if_pos hh]
          simp only [true_iff]
          exact ⟨l.length - 1, by omega, hh, by omega⟩
        · rw [if_neg hh, bsearch_spec h c _ _ _ (by omega) (by omega) (by omega)]
          constructor
          · rintro ⟨i, h1, h2, h3⟩
            exact ⟨i, by omega, h3⟩
          · rintro ⟨i, hi, h3⟩
            refine ⟨i, ?_, ?_, h3⟩
            · rcases Nat.eq_or_lt_of_le (Nat.zero_le i) with e | hlt
              · subst e; rw [h0] at h3; omega
              · omega
            · rcases Nat.eq_or_lt_of_le (show i ≤ l.length - 1 by omega) with e | hlt
              · subst e; omega
              · omega


/-! ## Parsing a class -/

theorem runeLen_width {c : Nat} (h : RuneOk c) : runeLen c = (ClassElt.width c : Int) := by
  unfold RuneOk at h
  unfold runeLen ClassElt.width
  split
  · rfl
  · split
    · rfl
    · rw [if_neg (by omega)]
      split
      · rfl
      · rw [if_pos (by omega)]; rfl

theorem width_between {a b c : Nat} (h1 : a ≤ c) (h2 : c ≤ b)
    (h : ClassElt.width a = ClassElt.width b) : ClassElt.width c = ClassElt.width a := by
  unfold ClassElt.width at *
  split at h <;> split at h <;> (try split at h) <;> (try split at h) <;> (try split at h) <;>
    (try split at h) <;> first | omega | (split <;> first | omega | (split <;> first | omega | (split <;> omega)))

theorem setSizes_spec (rs : RunesRanges) (n : Int) (hn : 1 ≤ n) (h0 : 0 ≤ rs.minSize) :
    (rs.setSizes n).ascii = rs.ascii ∧ (rs.setSizes n).ranges = rs.ranges ∧
    1 ≤ (rs.setSizes n).minSize ∧ (rs.setSizes n).minSize ≤ n ∧ n ≤ (rs.setSizes n).maxSize ∧
    rs.maxSize ≤ (rs.setSizes n).maxSize ∧
    (1 ≤ rs.minSize → (rs.setSizes n).minSize ≤ rs.minSize) := by
  unfold setSizes
  by_cases h1 : rs.maxSize < n
  · simp only [h1, if_true]
    by_cases h2 : rs.minSize > n ∨ rs.minSize = 0
    · simp only [h2, if_true]
      refine ⟨trivial, trivial, ?_, ?_, ?_, ?_, ?_⟩ <;> omega
    · simp only [h2, if_false]
      refine ⟨trivial, trivial, ?_, ?_, ?_, ?_, ?_⟩ <;> omega
  · simp only [h1, if_false]
    by_cases h2 : rs.minSize > n ∨ rs.minSize = 0
    · simp only [h2, if_true]
      refine ⟨trivial, trivial, ?_, ?_, ?_, ?_, ?_⟩ <;> omega
    · simp only [h2, if_false]
      refine ⟨trivial, trivial, ?_, ?_, ?_, ?_, ?_⟩ <;> omega

/-- The runes collected so far, before merging. -/
def RawMem (rs : RunesRanges) (c : Nat) : Prop :=
  if c ≤ 127 then rs.ascii.contains (UInt8.ofNat c) = true else InRanges rs.ranges c

/-- Invariant of the class parser: `rs` collects exactly the runes `M`. -/
structure ClassInv (rs : RunesRanges) (M : Nat → Prop) : Prop where
  mem : ∀ c, RawMem rs c ↔ M c
  wf : ∀ r ∈ rs.ranges, 127 < r.first ∧ r.first ≤ r.last
  sizes : ∀ c, RuneOk c → M c → 1 ≤ rs.minSize ∧ rs.minSize ≤ runeLen c ∧ runeLen c ≤ rs.maxSize
  min0 : 0 ≤ rs.minSize

theorem ClassInv.congr {rs : RunesRanges} {M N : Nat → Prop} (h : ClassInv rs M)
    (e : ∀ c, M c ↔ N c) : ClassInv rs N where
  mem c := (h.mem c).trans (e c)
  wf := h.wf
  sizes c hc hn := h.sizes c hc ((e c).mpr hn)
  min0 := h.min0

theorem classInv_empty : ClassInv {} (fun _ => False) where
  mem c := by
    unfold RawMem
    split
    · simp
    · simp [InRanges]
  wf := by simp
  sizes := by simp
  min0 := Int.le_refl _

theorem ofNat_inj_ascii {a b : Nat} (ha : a ≤ 127) (hb : b ≤ 127)
    (h : UInt8.ofNat a = UInt8.ofNat b) : a = b := by
  have := congrArg UInt8.toNat h
  rwa [ofNat_toNat_lt (by omega), ofNat_toNat_lt (by omega)] at this

theorem contains_addAsciiRange (s : ASCIISet) (a b : Nat) (hb : b ≤ 127) (d : Nat)
    (hd : d ≤ 127) :
    (addAsciiRange s a b).contains (UInt8.ofNat d) = true ↔
      s.contains (UInt8.ofNat d) = true ∨ (a ≤ d ∧ d ≤ b) := by
  unfold addAsciiRange
  have : (List.range' a (b + 1 - a)).foldl (fun s i => (s.add (UInt8.ofNat i)).1) s
      = ((List.range' a (b + 1 - a)).map UInt8.ofNat).foldl (fun s c => (s.add c).1) s := by
    rw [List.foldl_map]
  rw [this, ASCIISet.contains_foldl_add]
  constructor
  · rintro (h | ⟨h, _⟩)
    · exact Or.inl h
    · right
      simp only [List.mem_map, List.mem_range'_1] at h
      obtain ⟨x, hx, e⟩ := h
      have := ofNat_inj_ascii (by omega) hd e
      omega
  · rintro (h | h)
    · exact Or.inl h
    · right
      refine ⟨?_, by rw [ofNat_toNat_lt (by omega)]; omega⟩
      simp only [List.mem_map, List.mem_range'_1]
      exact ⟨d, by omega, rfl⟩

theorem runeLen_ascii {c : Nat} (h : c ≤ 127) : runeLen c = 1 := by
  unfold runeLen; rw [if_pos (by omega)]

theorem runeLen_pos {c : Nat} (h : RuneOk c) : 1 ≤ runeLen c := by
  rw [runeLen_width h]
  unfold ClassElt.width
  split
  · omega
  · split
    · omega
    · split <;> omega

theorem ClassInv.asciiRange {rs : RunesRanges} {M : Nat → Prop} (h : ClassInv rs M) {a b : Nat}
    (hb : b ≤ 127) :
    ClassInv (({ rs with ascii := addAsciiRange rs.ascii a b }).setSizes 1)
      (fun c => M c ∨ (a ≤ c ∧ c ≤ b)) := by
  obtain ⟨h1, h2, h3, h4, h5, h6, h7⟩ :=
    setSizes_spec { rs with ascii := addAsciiRange rs.ascii a b } 1 (by omega) h.min0
  refine ⟨fun c => ?_, ?_, ?_, by omega⟩
  · unfold RawMem
    rw [h1, h2]
    have hm := h.mem c
    unfold RawMem at hm
    split
    · rename_i hc
      rw [if_pos hc] at hm
      rw [contains_addAsciiRange _ _ _ hb _ hc, hm]
    · rename_i hc
      rw [if_neg hc] at hm
      show InRanges rs.ranges c ↔ _
      rw [hm]
      constructor
      · exact Or.inl
      · rintro (h | h)
        · exact h
        · omega
  · rw [h2]; exact h.wf
  · rintro c hc (hm | hm)
    · have := h.sizes c hc hm
      simp only at h6 h7
      have := h7 (by omega)
      omega
    · have := runeLen_ascii (show c ≤ 127 by omega)
      omega

theorem ClassInv.uniRange {rs : RunesRanges} {M : Nat → Prop} (h : ClassInv rs M) {a b : Nat}
    (ha : 127 < a) (hab : a ≤ b) (hoa : RuneOk a) (hw : ClassElt.width a = ClassElt.width b)
    (rs' : RunesRanges)
    (e1 : rs'.ascii = rs.ascii) (e2 : rs'.ranges = rs.ranges ++ [RuneRange.mk a b])
    (e3 : rs'.minSize = (rs.setSizes (runeLen a)).minSize)
    (e4 : rs'.maxSize = (rs.setSizes (runeLen a)).maxSize) :
    ClassInv rs' (fun c => M c ∨ (a ≤ c ∧ c ≤ b)) := by
  obtain ⟨h1, h2, h3, h4, h5, h6, h7⟩ := setSizes_spec rs (runeLen a) (runeLen_pos hoa) h.min0
  refine ⟨fun c => ?_, ?_, ?_, by omega⟩
  · unfold RawMem
    rw [e1, e2]
    have hm := h.mem c
    unfold RawMem at hm
    split
    · rename_i hc
      rw [if_pos hc] at hm
      rw [hm]
      constructor
      · exact Or.inl
      · rintro (h | h)
        · exact h
        · omega
    · rename_i hc
      rw [if_neg hc] at hm
      rw [← hm]
      unfold InRanges
      constructor
      · rintro ⟨r, hr, hh⟩
        rcases List.mem_append.mp hr with hr | hr
        · exact Or.inl ⟨r, hr, hh⟩
        · simp at hr; subst hr; exact Or.inr hh
      · rintro (⟨r, hr, hh⟩ | hh)
        · exact ⟨r, by simp [hr], hh⟩
        · exact ⟨⟨a, b⟩, by simp, hh⟩
  · rw [e2]
    intro r hr
    rcases List.mem_append.mp hr with hr | hr
    · exact h.wf r hr
    · simp at hr; subst hr; exact ⟨ha, hab⟩
  · rintro c hc (hm | hm)
    · have := h.sizes c hc hm
      have := h7 (by omega)
      omega
    · have := width_between hm.1 hm.2 hw
      have := runeLen_width hc
      have := runeLen_width hoa
      omega

theorem setSizes_ranges_comm (rs : RunesRanges) (l : List RuneRange) (n : Int) :
    (({ rs with ranges := l }).setSizes n).minSize = (rs.setSizes n).minSize ∧
    (({ rs with ranges := l }).setSizes n).maxSize = (rs.setSizes n).maxSize ∧
    (({ rs with ranges := l }).setSizes n).ascii = rs.ascii ∧
    (({ rs with ranges := l }).setSizes n).ranges = l := by
  unfold setSizes
  by_cases h1 : rs.maxSize < n
  · simp only [h1, if_true]
    by_cases h2 : rs.minSize > n ∨ rs.minSize = 0
    · simp [h2]
    · simp [h2]
  · simp only [h1, if_false]
    by_cases h2 : rs.minSize > n ∨ rs.minSize = 0
    · simp [h2]
    · simp [h2]

theorem ClassInv.addOne {rs : RunesRanges} {M : Nat → Prop} (h : ClassInv rs M) {x : Nat}
    (hx : RuneOk x) : ClassInv (rs.addOne x) (fun c => M c ∨ c = x) := by
  unfold RunesRanges.addOne
  split
  · rename_i hle
    have : addAsciiRange rs.ascii x x = (rs.ascii.add (UInt8.ofNat x)).1 := by
      unfold addAsciiRange
      rw [show x + 1 - x = 1 by omega]
      rfl
    rw [← this]
    exact (h.asciiRange (a := x) (b := x) hle).congr (fun c => by
      constructor
      · rintro (h | h)
        · exact Or.inl h
        · right; omega
      · rintro (h | h)
        · exact Or.inl h
        · right; omega)
  · rename_i hle
    obtain ⟨e3, e4, e1, e2⟩ := setSizes_ranges_comm rs (rs.ranges ++ [RuneRange.mk x x]) (runeLen x)
    exact (h.uniRange (a := x) (b := x) (by omega) (Nat.le_refl _) hx rfl _ e1 e2 e3 e4).congr
      (fun c => by
      constructor
      · rintro (h | h)
        · exact Or.inl h
        · right; omega
      · rintro (h | h)
        · exact Or.inl h
        · right; omega)

/-- Result of a successful class parse: membership, sorted ranges, sizes. -/
structure ClassSem (rs : RunesRanges) (M : Nat → Prop) : Prop where
  mem : ∀ c, rs.contains c = true ↔ M c
  sorted : SortedRanges rs.ranges
  wf : ∀ r ∈ rs.ranges, 127 < r.first
  sizes : ∀ c, RuneOk c → M c → 1 ≤ rs.minSize ∧ rs.minSize ≤ runeLen c ∧ runeLen c ≤ rs.maxSize

theorem InRanges.first_gt {l : List RuneRange} {c : Nat} (h : ∀ r ∈ l, 127 < r.first)
    (hc : InRanges l c) : 127 < c := by
  obtain ⟨r, hr, h1, _⟩ := hc
  have := h r hr
  omega

theorem ClassInv.finish {rs : RunesRanges} {M : Nat → Prop} (h : ClassInv rs M) :
    ClassSem { rs with ranges := runesRangeMerge rs.ranges } M := by
  obtain ⟨h1, h2, h3⟩ := runesRangeMerge_spec rs.ranges
    (fun r hr => by have := h.wf r hr; omega)
  have hs : SortedRanges (runesRangeMerge rs.ranges) := ⟨fun r hr => (h3 r hr).1, h2⟩
  have hgt : ∀ c, InRanges (runesRangeMerge rs.ranges) c → 127 < c := by
    intro c hc
    exact InRanges.first_gt (fun r hr => (h.wf r hr).1) ((h1 c).mp hc)
  refine ⟨fun c => ?_, hs, ?_, h.sizes⟩
  · have hm := h.mem c
    unfold RawMem at hm
    unfold RunesRanges.contains
    split
    · rename_i hc
      rw [if_pos hc] at hm
      exact hm
    · rename_i hc
      rw [if_neg hc] at hm
      rw [containsUnicode_spec hs, ← hm]
      exact h1 c
  · intro r hr
    exact hgt r.first ⟨r, hr, Nat.le_refl _, (h3 r hr).1⟩

/-- The pending single character of the loop, as a set. -/
def PendMem (p : Option Char) (c : Nat) : Prop := ∃ d, p = some d ∧ c = d.toNat

def pendVal (p : Option Char) : Nat := match p with
  | some c => c.toNat
  | none => runeError

theorem ClassInv.flush {rs : RunesRanges} {M : Nat → Prop} (h : ClassInv rs M) (p : Option Char)
    (hp : ∀ c, p = some c → c.toNat ≠ runeError) :
    ClassInv (if pendVal p ≠ runeError then rs.addOne (pendVal p) else rs)
      (fun c => M c ∨ PendMem p c) := by
  cases p with
  | none =>
    simp only [pendVal, ne_eq, not_true_eq_false, if_false]
    exact h.congr (fun c => by simp [PendMem])
  | some d =>
    have := hp d rfl
    simp only [pendVal, ne_eq, this, not_false_eq_true, if_true]
    exact (h.addOne (Char.runeOk d)).congr (fun c => by simp [PendMem])

theorem expandLoop_sem (es : List ClassElt) (hes : ∀ e ∈ es, e.Ok) (rs : RunesRanges)
    (M : Nat → Prop) (h : ClassInv rs M) (p : Option Char)
    (hp : ∀ c, p = some c → c.toNat ≠ runeError) :
    ∃ rs', expandLoop rs (pendVal p) false
        ((es.flatMap ClassElt.render).map (fun c => c.toNat)) = some rs' ∧
      ClassSem rs' (fun c => M c ∨ PendMem p c ∨ ClassMem es c) := by
  induction es generalizing rs M p with
  | nil =>
    refine ⟨_, rfl, ?_⟩
    have := (h.flush p hp).finish
    refine ⟨fun c => ?_, this.sorted, this.wf, fun c hc hm => this.sizes c hc ?_⟩
    · rw [this.mem]; simp [ClassMem]
    · rcases hm with hm | hm | hm
      · exact Or.inl hm
      · exact Or.inr hm
      · simp [ClassMem] at hm
  | cons e es ih =>
    have he := hes e (by simp)
    have hes' : ∀ e ∈ es, e.Ok := fun x hx => hes x (by simp [hx])
    have hfl := h.flush p hp
    have dash : ∀ d : Char, d ≠ '-' → ¬ d.toNat = 0x2D := by
      intro d hd e
      exact hd (Char.toNat_val_inj (by simpa using e))
    cases e with
    | one d =>
      simp only [ClassElt.Ok] at he
      have hd := dash d he.1
      simp only [List.flatMap_cons, ClassElt.render, List.singleton_append, List.map_cons]
      rw [expandLoop, if_neg hd]
      simp only [Bool.false_eq_true, if_false]
      obtain ⟨rs', h1, h2⟩ := ih hes' _ _ hfl (some d)
        (fun c hc => by simp at hc; subst hc; exact he.2)
      refine ⟨rs', h1, ?_⟩
      have eqv : ∀ c, ((M c ∨ PendMem p c) ∨ PendMem (some d) c ∨ ClassMem es c) ↔
          (M c ∨ PendMem p c ∨ ClassMem (ClassElt.one d :: es) c) := by
        intro c
        simp [PendMem, ClassMem, ClassElt.Mem, or_assoc]
      exact ⟨fun c => (h2.mem c).trans (eqv c), h2.sorted, h2.wf,
        fun c hc hm => h2.sizes c hc ((eqv c).mpr hm)⟩
    | range a b =>
      simp only [ClassElt.Ok] at he
      obtain ⟨ha, hb, ha', hb', hab, hw⟩ := he
      have hda := dash a ha
      have hdb := dash b hb
      have haE : a.toNat ≠ runeError := ha'
      simp only [List.flatMap_cons, ClassElt.render, List.cons_append, List.nil_append,
        List.map_cons]
      rw [expandLoop, if_neg hda]
      simp only [Bool.false_eq_true, if_false]
      rw [expandLoop, if_pos (by decide), expandLoop, if_neg hdb]
      simp only [if_true]
      rw [if_neg haE]
      have eqv : ∀ c, ((M c ∨ PendMem p c) ∨ (a.toNat ≤ c ∧ c ≤ b.toNat)) ∨
            PendMem none c ∨ ClassMem es c ↔
          (M c ∨ PendMem p c ∨ ClassMem (ClassElt.range a b :: es) c) := by
        intro c
        simp [PendMem, ClassMem, ClassElt.Mem, or_assoc]
      have hlen : runeLen a.toNat = runeLen b.toNat := by
        rw [runeLen_width (Char.runeOk a), runeLen_width (Char.runeOk b), hw]
      by_cases hlow : a.toNat ≤ 127
      · have hbl : b.toNat ≤ 127 := by
          unfold ClassElt.width at hw
          rw [if_pos (by omega)] at hw
          split at hw
          · omega
          · split at hw
            · omega
            · split at hw <;> omega
        rw [if_pos hlow, if_neg (by omega), if_pos hab]
        obtain ⟨rs', h1, h2⟩ := ih hes' _ _ (hfl.asciiRange (a := a.toNat) hbl) none
          (fun c hc => by simp at hc)
        exact ⟨rs', h1, fun c => (h2.mem c).trans (eqv c), h2.sorted, h2.wf,
          fun c hc hm => h2.sizes c hc ((eqv c).mpr hm)⟩
      · rw [if_neg hlow, if_pos hab, if_neg (fun hne => hne hlen)]
        generalize hrs1 : (if pendVal p ≠ runeError then rs.addOne (pendVal p) else rs) = rs1 at *
        obtain ⟨s1, s2, _⟩ := setSizes_spec rs1 (runeLen a.toNat)
          (runeLen_pos (Char.runeOk a)) hfl.min0
        obtain ⟨rs', h1, h2⟩ := ih hes' _ _
          (hfl.uniRange (a := a.toNat) (b := b.toNat) (by omega) hab (Char.runeOk a) hw
            { rs1.setSizes (runeLen a.toNat) with
              ranges := (rs1.setSizes (runeLen a.toNat)).ranges ++
                [RuneRange.mk a.toNat b.toNat] }
            s1 (by simp [s2]) rfl rfl) none
          (fun c hc => by simp at hc)
        exact ⟨rs', h1, fun c => (h2.mem c).trans (eqv c), h2.sorted, h2.wf,
          fun c hc hm => h2.sizes c hc ((eqv c).mpr hm)⟩

end RunesRanges

/-- Ranging over valid UTF-8 text yields its characters. -/
theorem rangeStr_go_utf8 (cs : List Char) (f i : Nat) (hf : (utf8 cs).length ≤ f) :
    (rangeStr.go f i (utf8 cs)).map Prod.snd = cs.map (fun c => c.toNat) := by
  induction cs generalizing f i with
  | nil => cases f <;> simp [rangeStr.go]
  | cons c cs ih =>
    have hpos := encodeRune_pos c.toNat
    have hl : (utf8 (c :: cs)).length = (encodeRune c.toNat).length + (utf8 cs).length := by
      rw [utf8_cons]; simp
    cases f with
    | zero => omega
    | succ f =>
      have hd := decodeRune_utf8_cons c cs
      have hdrop := drop_utf8_cons c cs
      cases hs : utf8 (c :: cs) with
      | nil => exact absurd hs (utf8_cons_ne_nil _ _)
      | cons b t =>
        rw [hs] at hd hdrop
        simp only [rangeStr.go, hd, List.map_cons]
        rw [hdrop, ih _ _ (by omega)]

theorem rangeStr_utf8 (cs : List Char) :
    (rangeStr (utf8 cs)).map Prod.snd = cs.map (fun c => c.toNat) :=
  rangeStr_go_utf8 cs _ _ (Nat.le_refl _)

namespace RunesRanges

theorem expand_sem (es : List ClassElt) (hes : ∀ e ∈ es, e.Ok) :
    ∃ rs, expand (0x5B :: utf8 (es.flatMap ClassElt.render) ++ [0x5D]) = some rs ∧
      ClassSem rs (ClassMem es) := by
  by_cases hnil : es = []
  · subst hnil
    refine ⟨{}, by decide, ?_⟩
    refine ⟨fun c => ?_, ⟨by simp, by simp⟩, by simp, ?_⟩
    · unfold RunesRanges.contains
      split
      · simp [ClassMem]
      · simp [ClassMem, containsUnicode]
    · simp [ClassMem]
  · have hne : utf8 (es.flatMap ClassElt.render) ≠ [] := by
      intro h
      rw [utf8_eq_nil] at h
      cases es with
      | nil => exact hnil rfl
      | cons e es => cases e <;> simp [ClassElt.render] at h
    obtain ⟨rs, h1, h2⟩ := expandLoop_sem es hes {} _ classInv_empty none (by simp)
    refine ⟨rs, ?_, ?_⟩
    · unfold expand
      simp only [List.cons_append, List.getLast?_append, List.getLast?_singleton,
        Option.some_or, if_true]
      rw [List.dropLast_concat, if_neg hne, rangeStr_utf8]
      exact h1
    · have eqv : ∀ c, (False ∨ PendMem none c ∨ ClassMem es c) ↔ ClassMem es c := by
        intro c; simp [PendMem]
      exact ⟨fun c => (h2.mem c).trans (eqv c), h2.sorted, h2.wf,
        fun c hc hm => h2.sizes c hc ((eqv c).mpr hm)⟩

/-- A class text with a bad range is refused. -/
theorem expandLoop_refuses (es : List ClassElt)
    (hp : ∀ e ∈ es, match e with
      | .one c => c ≠ '-' ∧ c.toNat ≠ 0xFFFD
      | .range a b => a ≠ '-' ∧ b ≠ '-' ∧ a.toNat ≠ 0xFFFD ∧ b.toNat ≠ 0xFFFD)
    (rs : RunesRanges) (st : Nat) (h : ¬ ∀ e ∈ es, e.Ok) :
    expandLoop rs st false ((es.flatMap ClassElt.render).map (fun c => c.toNat)) = none := by
  induction es generalizing rs st with
  | nil => exact absurd (by simp) h
  | cons e es ih =>
    have he := hp e (by simp)
    have hp' := fun x hx => hp x (List.mem_cons_of_mem e hx)
    have dash : ∀ d : Char, d ≠ '-' → ¬ d.toNat = 0x2D := by
      intro d hd e
      exact hd (Char.toNat_val_inj (by simpa using e))
    cases e with
    | one d =>
      simp only [List.flatMap_cons, ClassElt.render, List.singleton_append, List.map_cons]
      rw [expandLoop, if_neg (dash d he.1)]
      simp only [Bool.false_eq_true, if_false]
      refine ih hp' _ _ fun hall => h ?_
      intro x hx
      rcases List.mem_cons.1 hx with rfl | hx
      · exact he
      · exact hall x hx
    | range a b =>
      obtain ⟨ha, hb, ha', hb'⟩ := he
      have haE : a.toNat ≠ runeError := ha'
      simp only [List.flatMap_cons, ClassElt.render, List.cons_append, List.nil_append,
        List.map_cons]
      rw [expandLoop, if_neg (dash a ha)]
      simp only [Bool.false_eq_true, if_false]
      rw [expandLoop, if_pos (by decide), expandLoop, if_neg (dash b hb)]
      simp only [if_true]
      rw [if_neg haE]
      have rest : ∀ rs', a.toNat ≤ b.toNat → ClassElt.width a.toNat = ClassElt.width b.toNat →
          expandLoop rs' runeError false ((es.flatMap ClassElt.render).map (fun c => c.toNat)) = none := by
        intro rs' h1 h2
        refine ih hp' _ _ fun hall => h ?_
        intro x hx
        rcases List.mem_cons.1 hx with rfl | hx
        · exact ⟨ha, hb, ha', hb', h1, h2⟩
        · exact hall x hx
      by_cases hlow : a.toNat ≤ 127
      · rw [if_pos hlow]
        by_cases hbl : b.toNat > 127
        · rw [if_pos hbl]
        · rw [if_neg hbl]
          by_cases hab : a.toNat ≤ b.toNat
          · rw [if_pos hab]
            refine rest _ hab ?_
            unfold ClassElt.width
            rw [if_pos (by omega), if_pos (by omega)]
          · rw [if_neg hab]
      · rw [if_neg hlow]
        by_cases hab : a.toNat ≤ b.toNat
        · rw [if_pos hab]
          by_cases hl : runeLen a.toNat = runeLen b.toNat
          · rw [if_neg (by simpa using hl)]
            refine rest _ hab ?_
            rw [runeLen_width (Char.runeOk a), runeLen_width (Char.runeOk b)] at hl
            omega
          · rw [if_pos hl]
        · rw [if_neg hab]

theorem expand_refuses (es : List ClassElt) (hnil : es ≠ [])
    (h : ∀ rs st, expandLoop rs st false ((es.flatMap ClassElt.render).map (fun c => c.toNat)) = none) :
    expand (0x5B :: utf8 (es.flatMap ClassElt.render) ++ [0x5D]) = none := by
  have hne : utf8 (es.flatMap ClassElt.render) ≠ [] := by
    intro h
    rw [utf8_eq_nil] at h
    cases es with
    | nil => exact hnil rfl
    | cons e es => cases e <;> simp [ClassElt.render] at h
  unfold expand
  simp only [List.cons_append, List.getLast?_append, List.getLast?_singleton,
    Option.some_or, if_true]
  rw [List.dropLast_concat, if_neg hne, rangeStr_utf8]
  exact h _ _

end RunesRanges
end GoMatcher
