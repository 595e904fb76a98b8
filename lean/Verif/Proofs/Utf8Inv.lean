import Verif.Proofs.Utf8

/-! # Inversion of the decoder: what is decoded was encoded -/

namespace GoMatcher

theorem ofNat_toNat' (c : UInt8) {n : Nat} (h : n = c.toNat) : UInt8.ofNat n = c := by
  subst h; simp

/-- Either the next byte is not the start of a valid sequence (one byte, U+FFFD), or the
string starts with the encoding of the decoded rune. -/
theorem decodeRune_inv {s : Str} (h : s ≠ []) :
    decodeRune s = (runeError, 1) ∨
    ∃ r t, RuneOk r ∧ s = encodeRune r ++ t ∧ decodeRune s = (r, (encodeRune r).length) := by
  suffices H : decodeRune s = (runeError, 1) ∨ ∃ r t, RuneOk r ∧ s = encodeRune r ++ t by
    rcases H with H | ⟨r, t, ho, rfl⟩
    · exact Or.inl H
    · exact Or.inr ⟨r, t, ho, rfl, decodeRune_encode ho t⟩
  cases s with
  | nil => exact absurd rfl h
  | cons c0 t =>
    rw [decodeRune]
    by_cases h0 : c0.toNat < 0x80
    · right
      refine ⟨c0.toNat, t, Or.inl (by omega), ?_⟩
      simp [encodeRune, h0]
    · simp only [h0, if_false]
      cases hl : leadInfo c0.toNat with
      | none => left; rfl
      | some p =>
        obtain ⟨sz, lo, hi⟩ := p
        simp only
        cases t with
        | nil => left; rfl
        | cons c1 t1 =>
          simp only
          by_cases h1 : (decide (c1.toNat < lo) || decide (hi < c1.toNat)) = true
          · left; simp only [h1, if_true]
          · simp only [h1]
            simp only [Bool.or_eq_true, decide_eq_true_eq, not_or, Nat.not_lt] at h1
            obtain ⟨h1a, h1b⟩ := h1
            have hc0 := c0.toNat_lt
            have hc1 := c1.toNat_lt
            by_cases hs2 : sz = 2
            · right
              have : 0xC2 ≤ c0.toNat ∧ c0.toNat ≤ 0xDF ∧ lo = 0x80 ∧ hi = 0xBF := by
                unfold leadInfo at hl
                repeat' split at hl
                all_goals simp at hl
                all_goals omega
              obtain ⟨a, b, rfl, rfl⟩ := this
              refine ⟨(c0.toNat - 0xC0) * 64 + (c1.toNat - 0x80), t1, Or.inl (by omega), ?_⟩
              rcases runeOk_cases (r := (c0.toNat - 0xC0) * 64 + (c1.toNat - 0x80)) (Or.inl (by omega)) with
                ⟨x, e⟩ | ⟨x, y, e⟩ | ⟨x, y, z, e⟩ | ⟨x, y, e⟩
              · omega
              · rw [e, ofNat_toNat' c0 (by omega), ofNat_toNat' c1 (by omega)]; rfl
              · omega
              · omega
            · simp only [hs2, if_false]
              cases t1 with
              | nil => left; rfl
              | cons c2 t2 =>
                simp only
                by_cases h2 : isCont c2.toNat = true
                · simp only [h2, Bool.not_true]
                  simp only [isCont, Bool.and_eq_true, decide_eq_true_eq] at h2
                  by_cases hs3 : sz = 3
                  · right
                    have hb : 0xE0 ≤ c0.toNat ∧ c0.toNat ≤ 0xEF ∧ 0x80 ≤ lo ∧ hi ≤ 0xBF ∧
                        (c0.toNat = 0xE0 → 0xA0 ≤ lo) ∧ (c0.toNat = 0xED → hi ≤ 0x9F) := by
                      unfold leadInfo at hl
                      repeat' split at hl
                      all_goals simp at hl
                      all_goals omega
                    obtain ⟨a, b, d, e, f, g⟩ := hb
                    have ho : RuneOk ((c0.toNat - 0xE0) * 4096 + (c1.toNat - 0x80) * 64 + (c2.toNat - 0x80)) := by
                      unfold RuneOk; omega
                    refine ⟨_, t2, ho, ?_⟩
                    rcases runeOk_cases ho with
                      ⟨x, e⟩ | ⟨x, y, e⟩ | ⟨x, y, z, e⟩ | ⟨x, y, e⟩
                    · omega
                    · omega
                    · rw [e, ofNat_toNat' c0 (by omega), ofNat_toNat' c1 (by omega),
                        ofNat_toNat' c2 (by omega)]; rfl
                    · omega
                  · simp only [hs3, if_false]
                    cases t2 with
                    | nil => left; rfl
                    | cons c3 t3 =>
                      simp only
                      by_cases h3 : isCont c3.toNat = true
                      · right
                        simp only [isCont, Bool.and_eq_true, decide_eq_true_eq] at h3
                        have hb : 0xF0 ≤ c0.toNat ∧ c0.toNat ≤ 0xF4 ∧ 0x80 ≤ lo ∧ hi ≤ 0xBF ∧
                            (c0.toNat = 0xF0 → 0x90 ≤ lo) ∧ (c0.toNat = 0xF4 → hi ≤ 0x8F) := by
                          unfold leadInfo at hl
                          repeat' split at hl
                          all_goals simp at hl
                          all_goals omega
                        obtain ⟨a, b, d, e, f, g⟩ := hb
                        have ho : RuneOk ((c0.toNat - 0xF0) * 262144 + (c1.toNat - 0x80) * 4096 +
                            (c2.toNat - 0x80) * 64 + (c3.toNat - 0x80)) := by
                          unfold RuneOk; omega
                        refine ⟨_, t3, ho, ?_⟩
                        rcases runeOk_cases ho with
                          ⟨x, e⟩ | ⟨x, y, e⟩ | ⟨x, y, z, e⟩ | ⟨x, y, e⟩
                        · omega
                        · omega
                        · omega
                        · rw [e, ofNat_toNat' c0 (by omega), ofNat_toNat' c1 (by omega),
                            ofNat_toNat' c2 (by omega), ofNat_toNat' c3 (by omega)]; rfl
                      · left; simp [h3]
                · left; simp [h2]

end GoMatcher
