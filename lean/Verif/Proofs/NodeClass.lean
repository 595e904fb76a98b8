import Verif.Proofs.ParseRaw
import Verif.Spec.Tidy

/-! # The written form of character classes -/

namespace GoMatcher

/-- Bytes of an interval of code points. -/
def ivBytes (p : Nat × Nat) : Str :=
  encodeRune p.1 ++ (if p.1 ≠ p.2 then 0x2D :: encodeRune p.2 else [])

/-! ## ASCII runs -/

/-- Membership as a predicate on numbers. -/
def asciiMem (s : ASCIISet) (n : Nat) : Prop := s.contains (UInt8.ofNat n) = true

theorem u8_ofNat_toNat {n : Nat} (h : n < 128) : (UInt8.ofNat n).toNat = n :=
  ofNat_toNat_lt (by omega)

theorem u8_ofNat_zero {n : Nat} (h : n < 128) : UInt8.ofNat n = 0 ↔ n = 0 := by
  constructor
  · intro e
    have := congrArg UInt8.toNat e
    rw [u8_ofNat_toNat h] at this
    exact this
  · rintro rfl; rfl

/-- What the loop of `WriteString` writes: the runs of the set from `k` on, and the run that
started at `st`. -/
theorem writeLoop_spec (s : ASCIISet) (n k st : Nat) (hk : k + n = 128) (hst : st < k)
    (hrun : st ≠ 0 → ¬ asciiMem s (st - 1) ∧ ∀ c, st ≤ c → c < k → asciiMem s c)
    (hprev : st = 0 → 0 < k ∧ ¬ asciiMem s (k - 1))
    (hdel : ¬ (asciiMem s 126 ∧ asciiMem s 127)) :
    ∃ I : List (Nat × Nat),
      ASCIISet.writeLoop s ((List.range' k n).map UInt8.ofNat) (UInt8.ofNat st) = I.flatMap ivBytes ∧
      (∀ p ∈ I, 0 < p.1 ∧ p.1 ≤ p.2 ∧ p.2 < 128 ∧ asciiMem s p.1 ∧ ¬ asciiMem s (p.1 - 1) ∧
        (p.1 ≠ p.2 → asciiMem s p.2 ∧ p.2 < 127 ∧ ¬ asciiMem s (p.2 + 1))) ∧
      (∀ c, (∃ p ∈ I, p.1 ≤ c ∧ c ≤ p.2) ↔
        (st ≠ 0 ∧ st ≤ c ∧ c < k) ∨ (k ≤ c ∧ c < 128 ∧ asciiMem s c)) := by
  induction n generalizing k st with
  | zero =>
    have hk' : k = 128 := by omega
    subst hk'
    simp only [List.range'_zero, List.map_nil]
    rw [ASCIISet.writeLoop]
    by_cases h0 : st = 0
    · subst h0
      refine ⟨[], by simp, by simp, ?_⟩
      intro c
      simp
      omega
    · have hne : UInt8.ofNat st ≠ 0 := by
        intro e; exact h0 ((u8_ofNat_zero hst).1 e)
      rw [if_pos hne]
      -- the run has a single member
      have h127 : st = 127 := by
        apply Classical.byContradiction
        intro hn
        exact hdel ⟨(hrun h0).2 126 (by omega) (by omega), (hrun h0).2 127 (by omega) (by omega)⟩
      subst h127
      refine ⟨[(127, 127)], by decide, ?_, ?_⟩
      · intro p hp
        simp only [List.mem_singleton] at hp
        subst hp
        exact ⟨by decide, by decide, by decide, (hrun h0).2 127 (by omega) (by omega), (hrun h0).1,
          fun h => absurd rfl h⟩
      · intro c
        simp
        omega
  | succ n ih =>
    have hklt : k < 128 := by omega
    rw [List.range'_succ, List.map_cons, ASCIISet.writeLoop]
    by_cases hm : s.contains (UInt8.ofNat k) = true
    · rw [if_pos hm]
      by_cases h0 : st = 0
      · subst h0
        rw [if_pos (show UInt8.ofNat 0 = 0 from rfl)]
        obtain ⟨hk0, hp⟩ := hprev rfl
        obtain ⟨I, e, h1, h2⟩ := ih (k + 1) k (by omega) (by omega)
          (fun _ => ⟨hp, fun c h1 h2 => by rw [show c = k by omega]; exact hm⟩)
          (fun h => absurd h (by omega))
        refine ⟨I, e, h1, fun c => ?_⟩
        rw [h2]
        constructor
        · rintro (⟨_, a, b⟩ | ⟨a, b, d⟩)
          · right; rw [show c = k by omega]; exact ⟨by omega, hklt, hm⟩
          · right; exact ⟨by omega, b, d⟩
        · rintro (⟨a, _⟩ | ⟨a, b, d⟩)
          · exact absurd rfl a
          · by_cases hc : c = k
            · left; omega
            · right; exact ⟨by omega, b, d⟩
      · have hne : UInt8.ofNat st ≠ 0 := by
          intro e; exact h0 ((u8_ofNat_zero (by omega)).1 e)
        rw [if_neg hne]
        obtain ⟨I, e, h1, h2⟩ := ih (k + 1) st (by omega) (by omega)
          (fun _ => ⟨(hrun h0).1, fun c h1 h2 => by
            by_cases hc : c = k
            · rw [hc]; exact hm
            · exact (hrun h0).2 c h1 (by omega)⟩)
          (fun h => absurd h h0)
        refine ⟨I, e, h1, fun c => ?_⟩
        rw [h2]
        constructor
        · rintro (⟨_, a, b⟩ | ⟨a, b, d⟩)
          · by_cases hc : c = k
            · right; rw [hc]; exact ⟨by omega, hklt, hm⟩
            · left; omega
          · right; exact ⟨by omega, b, d⟩
        · rintro (⟨_, a, b⟩ | ⟨a, b, d⟩)
          · left; omega
          · by_cases hc : c = k
            · left; omega
            · right; exact ⟨by omega, b, d⟩
    · rw [if_neg hm]
      obtain ⟨I, e, h1, h2⟩ := ih (k + 1) 0 (by omega) (by omega)
        (fun h => absurd rfl h) (fun _ => ⟨by omega, hm⟩)
      by_cases h0 : st = 0
      · subst h0
        rw [if_neg (by decide)]
        refine ⟨I, e, h1, fun c => ?_⟩
        rw [h2]
        constructor
        · rintro (⟨a, _⟩ | ⟨a, b, d⟩)
          · exact absurd rfl a
          · right; exact ⟨by omega, b, d⟩
        · rintro (⟨a, _⟩ | ⟨a, b, d⟩)
          · exact absurd rfl a
          · by_cases hc : c = k
            · rw [hc] at d; exact absurd d hm
            · right; exact ⟨by omega, b, d⟩
      · have hne : UInt8.ofNat st ≠ 0 := by
          intro e; exact h0 ((u8_ofNat_zero (by omega)).1 e)
        rw [if_pos hne]
        refine ⟨(st, k - 1) :: I, ?_, ?_, ?_⟩
        · rw [List.flatMap_cons, ← e]
          congr 1
          unfold ivBytes
          dsimp only
          rw [encodeRune_ascii (by omega)]
          have hgt : (UInt8.ofNat k > UInt8.ofNat st + 1) ↔ st ≠ k - 1 := by
            show (UInt8.ofNat st + 1).toNat < (UInt8.ofNat k).toNat ↔ _
            rw [UInt8.toNat_add, u8_ofNat_toNat hklt, u8_ofNat_toNat (by omega)]
            have : (1 : UInt8).toNat = 1 := rfl
            rw [this, Nat.mod_eq_of_lt (by omega)]
            omega
          by_cases hs : st = k - 1
          · rw [if_neg (by rw [hgt]; simpa using hs), if_neg (by simpa using hs)]
            rfl
          · rw [if_pos (hgt.2 hs), if_pos hs, encodeRune_ascii (by omega)]
            have : UInt8.ofNat k - 1 = UInt8.ofNat (k - 1) := by
              apply UInt8.toNat_inj.1
              rw [u8_ofNat_toNat (by omega), UInt8.toNat_sub_of_le, u8_ofNat_toNat hklt]
              · rfl
              · show (1 : UInt8).toNat ≤ (UInt8.ofNat k).toNat
                rw [u8_ofNat_toNat hklt]
                show 1 ≤ k
                omega
            rw [this]
            rfl
        · intro p hp
          rcases List.mem_cons.1 hp with rfl | hp
          · refine ⟨by simp; omega, by simp; omega, by simp; omega, (hrun h0).2 st (by omega) (by omega), (hrun h0).1, ?_⟩
            intro _
            refine ⟨(hrun h0).2 _ (by simp; omega) (by simp; omega), by simp; omega, ?_⟩
            simp only
            rw [show k - 1 + 1 = k by omega]
            exact hm
          · exact h1 p hp
        · intro c
          have : (∃ p ∈ (st, k - 1) :: I, p.1 ≤ c ∧ c ≤ p.2) ↔
              (st ≤ c ∧ c ≤ k - 1) ∨ ∃ p ∈ I, p.1 ≤ c ∧ c ≤ p.2 := by simp
          rw [this, h2]
          constructor
          · rintro (⟨a, b⟩ | ⟨a, _⟩ | ⟨a, b, d⟩)
            · left; omega
            · exact absurd rfl a
            · right; exact ⟨by omega, b, d⟩
          · rintro (⟨_, a, b⟩ | ⟨a, b, d⟩)
            · left; omega
            · by_cases hc : c = k
              · rw [hc] at d; exact absurd d hm
              · right; right; exact ⟨by omega, b, d⟩

/-- What `ASCIISet.WriteString` writes. -/
theorem ascii_write (s : ASCIISet) (h0 : ¬ asciiMem s 0)
    (hdel : ¬ (asciiMem s 126 ∧ asciiMem s 127)) :
    ∃ I : List (Nat × Nat), s.writeString = I.flatMap ivBytes ∧
      (∀ p ∈ I, 0 < p.1 ∧ p.1 ≤ p.2 ∧ p.2 < 128 ∧ asciiMem s p.1 ∧ ¬ asciiMem s (p.1 - 1) ∧
        (p.1 ≠ p.2 → asciiMem s p.2 ∧ p.2 < 127 ∧ ¬ asciiMem s (p.2 + 1))) ∧
      (∀ c, (∃ p ∈ I, p.1 ≤ c ∧ c ≤ p.2) ↔ c < 128 ∧ asciiMem s c) := by
  unfold ASCIISet.writeString
  split
  · rename_i he
    refine ⟨[], rfl, by simp, fun c => ?_⟩
    have := ASCIISet.isEmpty_contains he (UInt8.ofNat c)
    simp [asciiMem, this]
  · obtain ⟨I, e, h1, h2⟩ := writeLoop_spec s 127 1 0 (by omega) (by omega) (fun h => absurd rfl h)
      (fun _ => ⟨by omega, h0⟩) hdel
    refine ⟨I, e, h1, fun c => ?_⟩
    rw [h2]
    constructor
    · rintro (⟨a, _⟩ | ⟨_, b, d⟩)
      · exact absurd rfl a
      · exact ⟨b, d⟩
    · rintro ⟨b, d⟩
      right
      refine ⟨?_, b, d⟩
      apply Classical.byContradiction
      intro hn
      rw [show c = 0 by omega] at d
      exact h0 d

/-! ## The ends of runs are ends of class elements -/

theorem width_mono {a b : Nat} (h : a ≤ b) : ClassElt.width a ≤ ClassElt.width b := by
  unfold ClassElt.width
  repeat' split
  all_goals omega

theorem first_end {es : List ClassElt} (hok : ∀ e ∈ es, e.Ok) {n : Nat} (hn : ClassMem es n)
    (hp : ¬ ClassMem es (n - 1) ∨ ClassElt.width (n - 1) ≠ ClassElt.width n) (h0 : 0 < n) :
    ∃ c ∈ es.flatMap ClassElt.render, c.toNat = n ∧ c ≠ '-' ∧ c.toNat ≠ 0xFFFD := by
  obtain ⟨e, he, hm⟩ := hn
  have hoke := hok e he
  cases e with
  | one c =>
    simp only [ClassElt.Mem] at hm
    exact ⟨c, List.mem_flatMap.2 ⟨_, he, by simp [ClassElt.render]⟩, hm.symm, hoke.1, hoke.2⟩
  | range a b =>
    simp only [ClassElt.Mem] at hm
    simp only [ClassElt.Ok] at hoke
    obtain ⟨o1, o2, o3, o4, o5, o6⟩ := hoke
    refine ⟨a, List.mem_flatMap.2 ⟨_, he, by simp [ClassElt.render]⟩, ?_, o1, o3⟩
    apply Classical.byContradiction
    intro hne
    have hlt : a.toNat ≤ n - 1 := by omega
    rcases hp with hp | hp
    · exact hp ⟨_, he, ⟨hlt, by omega⟩⟩
    · have w1 := width_mono hlt
      have w2 := width_mono (Nat.sub_le n 1)
      have w3 := width_mono hm.2
      omega

theorem last_end {es : List ClassElt} (hok : ∀ e ∈ es, e.Ok) {n : Nat} (hn : ClassMem es n)
    (hp : ¬ ClassMem es (n + 1)) :
    ∃ c ∈ es.flatMap ClassElt.render, c.toNat = n ∧ c ≠ '-' ∧ c.toNat ≠ 0xFFFD := by
  obtain ⟨e, he, hm⟩ := hn
  have hoke := hok e he
  cases e with
  | one c =>
    simp only [ClassElt.Mem] at hm
    exact ⟨c, List.mem_flatMap.2 ⟨_, he, by simp [ClassElt.render]⟩, hm.symm, hoke.1, hoke.2⟩
  | range a b =>
    simp only [ClassElt.Mem] at hm
    simp only [ClassElt.Ok] at hoke
    obtain ⟨o1, o2, o3, o4, o5, o6⟩ := hoke
    refine ⟨b, List.mem_flatMap.2 ⟨_, he, by simp [ClassElt.render]⟩, ?_, o2, o4⟩
    apply Classical.byContradiction
    intro hne
    exact hp ⟨_, he, ⟨by omega, by omega⟩⟩

/-! ## The written class -/

theorem elts_of_intervals {es : List ClassElt} (I : List (Nat × Nat))
    (h : ∀ p ∈ I, p.1 ≤ p.2 ∧ ClassElt.width p.1 = ClassElt.width p.2 ∧
      (∃ c ∈ es.flatMap ClassElt.render, c.toNat = p.1 ∧ c ≠ '-' ∧ c.toNat ≠ 0xFFFD) ∧
      (p.1 ≠ p.2 → ∃ c ∈ es.flatMap ClassElt.render, c.toNat = p.2 ∧ c ≠ '-' ∧ c.toNat ≠ 0xFFFD)) :
    ∃ es' : List ClassElt, (∀ e ∈ es', e.Ok) ∧ utf8 (es'.flatMap ClassElt.render) = I.flatMap ivBytes ∧
      (∀ c, ClassMem es' c ↔ ∃ p ∈ I, p.1 ≤ c ∧ c ≤ p.2) ∧
      ∀ c ∈ es'.flatMap ClassElt.render, c = '-' ∨ c ∈ es.flatMap ClassElt.render := by
  induction I with
  | nil => exact ⟨[], by simp, by simp, by simp [ClassMem], by simp⟩
  | cons p I ih =>
    obtain ⟨es', i1, i2, i3, i4⟩ := ih (fun q hq => h q (by simp [hq]))
    obtain ⟨hle, hw, ⟨a, ha, ea, na, fa⟩, hl⟩ := h p (by simp)
    have add : ∀ e : ClassElt, e.Ok → utf8 e.render = ivBytes p →
        (∀ c, e.Mem c ↔ p.1 ≤ c ∧ c ≤ p.2) →
        (∀ c ∈ e.render, c = '-' ∨ c ∈ es.flatMap ClassElt.render) →
        ∃ es' : List ClassElt, (∀ e ∈ es', e.Ok) ∧
          utf8 (es'.flatMap ClassElt.render) = (p :: I).flatMap ivBytes ∧
          (∀ c, ClassMem es' c ↔ ∃ q ∈ p :: I, q.1 ≤ c ∧ c ≤ q.2) ∧
          ∀ c ∈ es'.flatMap ClassElt.render, c = '-' ∨ c ∈ es.flatMap ClassElt.render := by
      intro e e1 e2 e3 e4
      refine ⟨e :: es', ?_, ?_, ?_, ?_⟩
      · intro x hx
        rcases List.mem_cons.1 hx with rfl | hx
        · exact e1
        · exact i1 x hx
      · rw [List.flatMap_cons, List.flatMap_cons, utf8_append, e2, i2]
      · intro c
        have h1 : ClassMem (e :: es') c ↔ e.Mem c ∨ ClassMem es' c := by simp [ClassMem]
        rw [h1, e3, i3]
        simp
      · intro c hc
        rw [List.flatMap_cons, List.mem_append] at hc
        rcases hc with hc | hc
        · exact e4 c hc
        · exact i4 c hc
    by_cases hpp : p.1 = p.2
    · refine add (.one a) ⟨na, fa⟩ ?_ ?_ ?_
      · unfold ivBytes
        rw [if_neg (by simpa using hpp), ← ea]
        simp [ClassElt.render, utf8]
      · intro c
        simp only [ClassElt.Mem]
        omega
      · intro c hc
        simp only [ClassElt.render, List.mem_singleton] at hc
        rw [hc]; exact Or.inr ha
    · obtain ⟨b, hb, eb, nb, fb⟩ := hl hpp
      refine add (.range a b) ⟨na, nb, fa, fb, by omega, by rw [ea, eb]; exact hw⟩ ?_ ?_ ?_
      · unfold ivBytes
        rw [if_pos hpp, ← ea, ← eb]
        simp only [ClassElt.render]
        rw [utf8_cons, utf8_ascii_cons (by decide), utf8_cons]
        simp [utf8]
      · intro c
        simp only [ClassElt.Mem]
        omega
      · intro c hc
        simp only [ClassElt.render, List.mem_cons, List.not_mem_nil, or_false] at hc
        rcases hc with rfl | rfl | rfl
        · exact Or.inr ha
        · exact Or.inl rfl
        · exact Or.inr hb

/-- The written form of a parsed class is a class with the same members. -/
theorem class_write {es : List ClassElt} (hok : ∀ e ∈ es, e.Ok) (h0 : ¬ ClassMem es 0)
    (ht : TidyClass es) {rs : RunesRanges} (hs : RunesRanges.ClassSem rs (ClassMem es)) :
    ∃ es' : List ClassElt, (∀ e ∈ es', e.Ok) ∧
      rs.writeString = utf8 (Sub.render (.cls es')) ∧
      (∀ c, ClassMem es' c ↔ ClassMem es c) ∧
      ∀ c ∈ es'.flatMap ClassElt.render, c = '-' ∨ c ∈ es.flatMap ClassElt.render := by
  obtain ⟨_, tdel, t2, t3⟩ := ht
  have low : ∀ d, d < 128 → (asciiMem rs.ascii d ↔ ClassMem es d) := by
    intro d hd
    rw [← hs.mem, RunesRanges.contains_of_lt rs (by omega)]
    rfl
  have high : ∀ d, 128 ≤ d → (ClassMem es d ↔ InRanges rs.ranges d) := by
    intro d hd
    rw [← hs.mem, RunesRanges.contains_of_ge rs (by omega)]
    exact RunesRanges.containsUnicode_spec hs.sorted d
  obtain ⟨I, e1, p1, m1⟩ := ascii_write rs.ascii (by rw [low 0 (by omega)]; exact h0)
    (by rw [low 126 (by omega), low 127 (by omega)]; exact tdel)
  have hsep : ∀ r ∈ rs.ranges, ∀ r' ∈ rs.ranges, r = r' ∨ r.last + 1 < r'.first ∨ r'.last + 1 < r.first := by
    have := hs.sorted.sep
    intro r hr r' hr'
    obtain ⟨i, hi, rfl⟩ := List.getElem_of_mem hr
    obtain ⟨j, hj, rfl⟩ := List.getElem_of_mem hr'
    rcases Nat.lt_trichotomy i j with h | h | h
    · exact Or.inr (Or.inl (List.pairwise_iff_getElem.1 this i j hi hj h))
    · subst h; exact Or.inl rfl
    · exact Or.inr (Or.inr (List.pairwise_iff_getElem.1 this j i hj hi h))
  obtain ⟨es', q1, q2, q3, q4⟩ := elts_of_intervals (es := es)
    (I ++ rs.ranges.map fun r => (r.first, r.last)) (by
      intro p hp
      rcases List.mem_append.1 hp with hp | hp
      · obtain ⟨a1, a2, a3, a4, a5, a6⟩ := p1 p hp
        rw [low _ (by omega)] at a4 a5
        refine ⟨a2, ?_, first_end hok a4 (Or.inl a5) a1, ?_⟩
        · unfold ClassElt.width
          rw [if_pos (by omega), if_pos (by omega)]
        · intro hne
          obtain ⟨b1, b2, b3⟩ := a6 hne
          rw [low _ (by omega)] at b1 b3
          exact last_end hok b1 b3
      · obtain ⟨r, hr, rfl⟩ := List.mem_map.1 hp
        have hwf := hs.sorted.wf r hr
        have hgt := hs.wf r hr
        have hin : ∀ c, r.first ≤ c → c ≤ r.last → ClassMem es c := fun c h1 h2 =>
          (high c (by omega)).2 ⟨r, hr, h1, h2⟩
        refine ⟨hwf, ?_, ?_, ?_⟩
        · unfold ClassElt.width
          dsimp only
          rw [if_neg (by omega : ¬ r.first < 0x80), if_neg (by omega : ¬ r.last < 0x80)]
          by_cases h1 : r.first < 0x800
          · rw [if_pos h1]
            by_cases h2 : r.last < 0x800
            · rw [if_pos h2]
            · exact absurd ⟨hin 0x7FF (by omega) (by omega), hin 0x800 (by omega) (by omega)⟩ t2
          · rw [if_neg h1, if_neg (by omega : ¬ r.last < 0x800)]
            by_cases h3 : r.first < 0x10000
            · rw [if_pos h3]
              by_cases h4 : r.last < 0x10000
              · rw [if_pos h4]
              · exact absurd ⟨hin 0xFFFF (by omega) (by omega), hin 0x10000 (by omega) (by omega)⟩ t3
            · rw [if_neg h3, if_neg (by omega)]
        · refine first_end hok (hin _ (by omega) hwf) ?_ (by simp; omega)
          by_cases h128 : r.first = 128
          · right; rw [h128]; show ClassElt.width 127 ≠ ClassElt.width 128; decide
          · left
            intro hm
            obtain ⟨r', hr', b1, b2⟩ := (high (r.first - 1) (by omega)).1 hm
            rcases hsep r hr r' hr' with h | h | h
            · subst h; omega
            · have := hs.sorted.wf r' hr'; omega
            · omega
        · intro _
          refine last_end hok (hin _ hwf (by simp)) ?_
          intro hm
          obtain ⟨r', hr', b1, b2⟩ := (high _ (by simp; omega)).1 hm
          simp only at b1 b2
          rcases hsep r hr r' hr' with h | h | h
          · subst h; omega
          · omega
          · have := hs.sorted.wf r' hr'; omega)
  refine ⟨es', q1, ?_, ?_, q4⟩
  · show _ = utf8 (('[' :: es'.flatMap ClassElt.render) ++ [']'])
    rw [utf8_append, utf8_ascii_cons (by decide), q2]
    unfold RunesRanges.writeString
    rw [e1, List.flatMap_append, List.flatMap_map]
    simp only [List.append_assoc, List.cons_append]
    rfl
  · intro c
    rw [q3]
    constructor
    · rintro ⟨p, hp, b1, b2⟩
      rcases List.mem_append.1 hp with hp | hp
      · have h := (m1 c).1 ⟨p, hp, b1, b2⟩
        exact (low c h.1).1 h.2
      · obtain ⟨r, hr, rfl⟩ := List.mem_map.1 hp
        have := hs.wf r hr
        exact (high c (by simp at b1; omega)).2 ⟨r, hr, b1, b2⟩
    · intro hc
      by_cases hlt : c < 128
      · obtain ⟨p, hp, b⟩ := (m1 c).2 ⟨hlt, (low c hlt).2 hc⟩
        exact ⟨p, List.mem_append.2 (Or.inl hp), b⟩
      · obtain ⟨r, hr, b1, b2⟩ := (high c (by omega)).1 hc
        exact ⟨(r.first, r.last), List.mem_append.2 (Or.inr (List.mem_map.2 ⟨r, hr, rfl⟩)), b1, b2⟩

end GoMatcher
