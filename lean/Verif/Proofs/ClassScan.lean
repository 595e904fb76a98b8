import Verif.Proofs.ClassSearch
import Verif.Proofs.ClassText
import Verif.Proofs.Utf8Inv

/-! # `Index` and `IndexByte` of classes on all byte strings -/

namespace GoMatcher
namespace RunesRanges

theorem char_of_runeOk {r : Nat} (h : RuneOk r) : ∃ c : Char, c.toNat = r := by
  have hv : r.isValidChar := by
    unfold RuneOk at h
    unfold Nat.isValidChar
    omega
  refine ⟨Char.ofNat r, ?_⟩
  rw [Char.ofNat, dif_pos hv]
  rfl

/-- The bytes begin with no character, or with U+FFFD. -/
def Stuck (s : Str) : Prop := s ≠ [] ∧ ∀ (c : Char) t, s = utf8 [c] ++ t → c.toNat = 0xFFFD

/-- Every byte string begins with a character other than U+FFFD, is stuck, or is empty. -/
theorem first_cases (s : Str) : s = [] ∨ (Stuck s ∧ (decodeRune s).1 = runeError ∧
      ∃ b t, s = b :: t ∧ 128 ≤ b.toNat) ∨
    ∃ (c : Char) (t : Str), s = utf8 [c] ++ t ∧ c.toNat ≠ 0xFFFD ∧
      decodeRune s = (c.toNat, (utf8 [c]).length) := by
  by_cases hs : s = []
  · exact .inl hs
  right
  have hdec : ∀ (c : Char) t, s = utf8 [c] ++ t → decodeRune s = (c.toNat, (utf8 [c]).length) := by
    intro c t e
    have : utf8 [c] = encodeRune c.toNat := by rw [utf8_cons]; simp
    rw [e, this, decodeRune_encode (Char.runeOk c)]
  have hbig : (decodeRune s).1 = runeError → ∃ b t, s = b :: t ∧ 128 ≤ b.toNat := by
    intro h
    cases s with
    | nil => exact absurd rfl hs
    | cons b t =>
      refine ⟨b, t, rfl, ?_⟩
      apply Classical.byContradiction
      intro hb
      have hb' : b.toNat < 128 := by omega
      have h2 := hdec (Char.ofNat b.toNat) t (by
        have hn : (Char.ofNat b.toNat).toNat = b.toNat := by
          obtain ⟨c, hc⟩ := char_of_runeOk (r := b.toNat) (by unfold RuneOk; omega)
          rw [← hc]
          simp
        rw [utf8_cons, hn, encodeRune_ascii hb']
        simp)
      rw [h2] at h
      have hn : (Char.ofNat b.toNat).toNat = b.toNat := by
        obtain ⟨c, hc⟩ := char_of_runeOk (r := b.toNat) (by unfold RuneOk; omega)
        rw [← hc]
        simp
      dsimp only at h
      rw [hn, runeError] at h
      omega
  rcases decodeRune_inv hs with h | ⟨r, t, hr, e, h⟩
  · left
    refine ⟨⟨hs, fun c t e => ?_⟩, by rw [h], hbig (by rw [h])⟩
    have := hdec c t e
    rw [h] at this
    exact (congrArg Prod.fst this).symm
  · obtain ⟨c, rfl⟩ := char_of_runeOk hr
    have hu : utf8 [c] = encodeRune c.toNat := by rw [utf8_cons]; simp
    by_cases hc : c.toNat = 0xFFFD
    · left
      refine ⟨⟨hs, fun c' t' e' => ?_⟩, by rw [h]; exact hc, hbig (by rw [h]; exact hc)⟩
      have := hdec c' t' e'
      rw [h] at this
      have := congrArg Prod.fst this
      dsimp only at this
      omega
    · right
      exact ⟨c, t, by rw [hu, e], hc, by rw [h, hu]⟩

/-- The scan of `Index` for a class with ranges, any bytes. -/
theorem indexLoop_bytes (rs : RunesRanges) (n : Nat) (i : Nat) (s : Str) (hn : s.length ≤ n) :
    ∃ (cs : List Char) (rest : Str), s = utf8 cs ++ rest ∧
      (∀ c ∈ cs, c.toNat ≠ 0xFFFD ∧ rs.contains c.toNat = false) ∧
      (rest = [] ∧ rs.indexLoop n i s = none ∨ Stuck rest ∧ rs.indexLoop n i s = none ∨
        ∃ (c : Char) (t : Str), rest = utf8 [c] ++ t ∧ c.toNat ≠ 0xFFFD ∧ rs.contains c.toNat = true ∧
          rs.indexLoop n i s = some (i + (utf8 cs).length, c.toNat, (utf8 [c]).length)) := by
  induction n generalizing i s with
  | zero =>
    have : s = [] := List.length_eq_zero_iff.1 (by omega)
    subst this
    exact ⟨[], [], rfl, by simp, .inl ⟨rfl, rfl⟩⟩
  | succ n ih =>
    rcases first_cases s with rfl | ⟨h1, h2, b, t, rfl, hb⟩ | ⟨c, t, e, hc, hd⟩
    · exact ⟨[], [], rfl, by simp, .inl ⟨rfl, rfl⟩⟩
    · refine ⟨[], b :: t, rfl, by simp, .inr (.inl ⟨h1, ?_⟩)⟩
      rw [indexLoop, if_neg (by omega)]
      simp only
      rw [if_pos h2]
    · have hu : utf8 [c] = encodeRune c.toNat := by rw [utf8_cons]; simp
      have hpos := encodeRune_pos c.toNat
      have hlen : s.length = (utf8 [c]).length + t.length := by rw [e]; simp
      -- one step
      have step : rs.indexLoop (n + 1) i s = if rs.contains c.toNat = true
          then some (i, c.toNat, (utf8 [c]).length) else rs.indexLoop n (i + (utf8 [c]).length) t := by
        by_cases hlt : c.toNat < 128
        · have e' : s = UInt8.ofNat c.toNat :: t := by
            rw [e, hu, encodeRune_ascii hlt]; rfl
          rw [e', indexLoop, if_pos (by rw [ofNat_toNat_lt (by omega)]; omega),
            contains_of_lt rs hlt, hu, encodeRune_ascii hlt, ofNat_toNat_lt (by omega)]
          rfl
        · cases s with
          | nil => rw [hu] at hlen; simp at hlen; omega
          | cons b u =>
            have hb : ¬ b.toNat < 128 := by
              have : b ∈ encodeRune c.toNat := by
                rw [hu] at e
                cases he : encodeRune c.toNat with
                | nil => rw [he] at hpos; simp at hpos
                | cons x y =>
                  rw [he, List.cons_append, List.cons.injEq] at e
                  simp [e.1]
              have := encodeRune_nonascii (Char.runeOk c) (by omega) b this
              omega
            have hcE : c.toNat ≠ runeError := hc
            rw [indexLoop, if_neg hb, hd]
            simp only
            rw [if_neg hcE, ← contains_of_ge rs (show 128 ≤ c.toNat by omega), e, List.drop_left]
      rw [step]
      by_cases hm : rs.contains c.toNat = true
      · rw [if_pos hm]
        exact ⟨[], s, rfl, by simp, .inr (.inr ⟨c, t, e, hc, hm, by simp⟩)⟩
      · rw [if_neg hm]
        obtain ⟨cs, rest, h1, h2, h3⟩ := ih (i + (utf8 [c]).length) t (by rw [hu] at hlen; omega)
        refine ⟨c :: cs, rest, ?_, ?_, ?_⟩
        · rw [e, h1, utf8_cons c cs, hu, List.append_assoc]
        · intro x hx
          rcases List.mem_cons.1 hx with rfl | hx
          · exact ⟨hc, by simpa using hm⟩
          · exact h2 x hx
        · rcases h3 with h | h | ⟨d, u, g1, g2, g3, g4⟩
          · exact .inl h
          · exact .inr (.inl h)
          · refine .inr (.inr ⟨d, u, g1, g2, g3, ?_⟩)
            rw [g4, utf8_cons c cs, List.length_append, hu]
            simp only [Nat.add_assoc]

/-- The scan of `IndexByte` for a class with ranges, any bytes. -/
theorem indexByteLoop_bytes (rs : RunesRanges) (n : Nat) (i : Nat) (s : Str) (hn : s.length ≤ n) :
    ∃ (cs : List Char) (rest : Str), s = utf8 cs ++ rest ∧
      (∀ c ∈ cs, c.toNat ≠ 0xFFFD ∧ rs.contains c.toNat = false ∧ 128 ≤ c.toNat) ∧
      (rest = [] ∧ rs.indexByteLoop (n + 1) i s = .ok none ∨
        Stuck rest ∧ rs.indexByteLoop (n + 1) i s = .ok none ∨
        (∃ (c : Char) (t : Str), rest = utf8 [c] ++ t ∧ c.toNat ≠ 0xFFFD ∧ rs.contains c.toNat = true ∧
          rs.indexByteLoop (n + 1) i s = .ok (some (i + (utf8 cs).length, c.toNat, (utf8 [c]).length))) ∨
        ∃ (c : Char) (t : Str), rest = utf8 [c] ++ t ∧ c.toNat < 128 ∧ rs.contains c.toNat = false ∧
          ∀ fuel, rs.indexByteLoop fuel i s = .timeout) := by
  induction n generalizing i s with
  | zero =>
    have : s = [] := List.length_eq_zero_iff.1 (by omega)
    subst this
    exact ⟨[], [], rfl, by simp, .inl ⟨rfl, rfl⟩⟩
  | succ n ih =>
    rcases first_cases s with rfl | ⟨h1, h2, b, t, rfl, hb⟩ | ⟨c, t, e, hc, hd⟩
    · exact ⟨[], [], rfl, by simp, .inl ⟨rfl, rfl⟩⟩
    · refine ⟨[], b :: t, rfl, by simp, .inr (.inl ⟨h1, ?_⟩)⟩
      rw [indexByteLoop, if_neg (by omega)]
      simp only
      rw [if_pos h2]
    · have hu : utf8 [c] = encodeRune c.toNat := by rw [utf8_cons]; simp
      have hpos := encodeRune_pos c.toNat
      have hlen : s.length = (utf8 [c]).length + t.length := by rw [e]; simp
      by_cases hlt : c.toNat < 128
      · have e' : s = UInt8.ofNat c.toNat :: t := by
          rw [e, hu, encodeRune_ascii hlt]; rfl
        refine ⟨[], s, rfl, by simp, ?_⟩
        by_cases hm : rs.contains c.toNat = true
        · refine .inr (.inr (.inl ⟨c, t, e, hc, hm, ?_⟩))
          rw [contains_of_lt rs hlt] at hm
          rw [e', indexByteLoop, if_pos (by rw [ofNat_toNat_lt (by omega)]; omega), hm, hu,
            encodeRune_ascii hlt, ofNat_toNat_lt (by omega)]
          rfl
        · refine .inr (.inr (.inr ⟨c, t, e, hlt, by simpa using hm, ?_⟩))
          rw [contains_of_lt rs hlt] at hm
          intro fuel
          induction fuel with
          | zero => rfl
          | succ fuel ih2 =>
            rw [e', indexByteLoop, if_pos (by rw [ofNat_toNat_lt (by omega)]; omega), if_neg hm, ← e']
            exact ih2
      · have step : ∀ f, rs.indexByteLoop (f + 1) i s = if rs.contains c.toNat = true
            then .ok (some (i, c.toNat, (utf8 [c]).length))
            else rs.indexByteLoop f (i + (utf8 [c]).length) t := by
          intro f
          cases s with
          | nil => rw [hu] at hlen; simp at hlen; omega
          | cons b u =>
            have hb : ¬ b.toNat < 128 := by
              have : b ∈ encodeRune c.toNat := by
                rw [hu] at e
                cases he : encodeRune c.toNat with
                | nil => rw [he] at hpos; simp at hpos
                | cons x y =>
                  rw [he, List.cons_append, List.cons.injEq] at e
                  simp [e.1]
              have := encodeRune_nonascii (Char.runeOk c) (by omega) b this
              omega
            have hcE : c.toNat ≠ runeError := hc
            rw [indexByteLoop, if_neg hb, hd]
            simp only
            rw [if_neg hcE, ← contains_of_ge rs (show 128 ≤ c.toNat by omega), e, List.drop_left]
        by_cases hm : rs.contains c.toNat = true
        · refine ⟨[], s, rfl, by simp, .inr (.inr (.inl ⟨c, t, e, hc, hm, ?_⟩))⟩
          rw [step, if_pos hm]
          rfl
        · obtain ⟨cs, rest, h1, h2, h3⟩ := ih (i + (utf8 [c]).length) t (by rw [hu] at hlen; omega)
          refine ⟨c :: cs, rest, ?_, ?_, ?_⟩
          · rw [e, h1, utf8_cons c cs, hu, List.append_assoc]
          · intro x hx
            rcases List.mem_cons.1 hx with rfl | hx
            · exact ⟨hc, by simpa using hm, by omega⟩
            · exact h2 x hx
          · rw [step, if_neg hm]
            rcases h3 with h | h | ⟨d, u, g1, g2, g3, g4⟩ | ⟨d, u, g1, g2, g3, g4⟩
            · exact .inl h
            · exact .inr (.inl h)
            · refine .inr (.inr (.inl ⟨d, u, g1, g2, g3, ?_⟩))
              rw [g4, utf8_cons c cs, List.length_append, hu]
              simp only [Nat.add_assoc]
            · refine .inr (.inr (.inr ⟨d, u, g1, g2, g3, ?_⟩))
              intro fuel
              cases fuel with
              | zero => rfl
              | succ fuel => rw [step, if_neg hm]; exact g4 fuel

/-- The scan for a class of ASCII members, any bytes. -/
theorem indexAscii_bytes (rs : RunesRanges) (i : Nat) (s : Str) :
    (rs.indexAscii i s = none ∧ ∀ b ∈ s, rs.ascii.contains b = false) ∨
    ∃ pre b post, s = pre ++ b :: post ∧ (∀ x ∈ pre, rs.ascii.contains x = false) ∧
      rs.ascii.contains b = true ∧ rs.indexAscii i s = some (i + pre.length, b.toNat, 1) := by
  induction s generalizing i with
  | nil => exact .inl ⟨rfl, by simp⟩
  | cons b t ih =>
    rw [indexAscii]
    by_cases hb : rs.ascii.contains b = true
    · rw [if_pos hb]
      exact .inr ⟨[], b, t, rfl, by simp, hb, by simp⟩
    · rw [if_neg hb]
      rcases ih (i + 1) with ⟨h1, h2⟩ | ⟨pre, x, post, h1, h2, h3, h4⟩
      · refine .inl ⟨h1, ?_⟩
        intro x hx
        rcases List.mem_cons.1 hx with rfl | hx
        · simpa using hb
        · exact h2 x hx
      · refine .inr ⟨b :: pre, x, post, by rw [h1]; rfl, ?_, h3, ?_⟩
        · intro y hy
          rcases List.mem_cons.1 hy with rfl | hy
          · simpa using hb
          · exact h2 y hy
        · rw [h4]
          simp only [List.length_cons, Option.some.injEq, Prod.mk.injEq, and_true]
          omega

end RunesRanges
end GoMatcher
