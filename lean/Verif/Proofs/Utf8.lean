import Verif.Utf8

/-! # Facts about the UTF-8 model -/

namespace GoMatcher

/-- A code point that Go encodes as itself. -/
def RuneOk (r : Nat) : Prop := r < 0xD800 ∨ (0xE000 ≤ r ∧ r ≤ 0x10FFFF)

theorem Char.runeOk (c : Char) : RuneOk c.toNat := by
  have h := c.valid
  rcases h with h | ⟨h1, h2⟩
  · left; exact h
  · right
    constructor
    · have : 0xDFFF < c.toNat := h1
      omega
    · have : c.toNat < 0x110000 := h2
      omega

theorem ofNat_toNat_lt {n : Nat} (h : n < 256) : (UInt8.ofNat n).toNat = n := by
  simp [UInt8.toNat_ofNat', Nat.mod_eq_of_lt h]

theorem runeOk_cases {r : Nat} (h : RuneOk r) :
    (r < 0x80 ∧ encodeRune r = [UInt8.ofNat r]) ∨
    (0x80 ≤ r ∧ r < 0x800 ∧
      encodeRune r = [UInt8.ofNat (0xC0 + r / 64), UInt8.ofNat (0x80 + r % 64)]) ∨
    (0x800 ≤ r ∧ r < 0x10000 ∧ (r < 0xD800 ∨ 0xE000 ≤ r) ∧
      encodeRune r = [UInt8.ofNat (0xE0 + r / 4096), UInt8.ofNat (0x80 + r / 64 % 64),
      UInt8.ofNat (0x80 + r % 64)]) ∨
    (0x10000 ≤ r ∧ r ≤ 0x10FFFF ∧
      encodeRune r = [UInt8.ofNat (0xF0 + r / 262144), UInt8.ofNat (0x80 + r / 4096 % 64),
      UInt8.ofNat (0x80 + r / 64 % 64), UInt8.ofNat (0x80 + r % 64)]) := by
  unfold RuneOk at h
  by_cases h1 : r < 0x80
  · left; exact ⟨h1, by simp [encodeRune, h1]⟩
  by_cases h2 : r < 0x800
  · right; left; exact ⟨by omega, h2, by simp [encodeRune, h1, h2]⟩
  have h3 : ¬ (0xD800 ≤ r ∧ r < 0xE000 ∨ 0x10FFFF < r) := by omega
  by_cases h4 : r < 0x10000
  · right; right; left
    exact ⟨by omega, h4, by omega, by simp [encodeRune, h1, h2, h3, h4]⟩
  · right; right; right
    exact ⟨by omega, by omega, by simp [encodeRune, h1, h2, h3, h4]⟩

theorem decodeRune_encode {r : Nat} (h : RuneOk r) (t : Str) :
    decodeRune (encodeRune r ++ t) = (r, (encodeRune r).length) := by
  rcases runeOk_cases h with ⟨h1, e⟩ | ⟨h1, h2, e⟩ | ⟨h1, h2, h3, e⟩ | ⟨h1, h2, e⟩
  · rw [e]
    simp only [List.cons_append, List.nil_append, decodeRune]
    rw [ofNat_toNat_lt (by omega)]
    simp [h1]
  · rw [e]
    simp only [List.cons_append, List.nil_append, decodeRune]
    rw [ofNat_toNat_lt (show 0xC0 + r / 64 < 256 by omega),
      ofNat_toNat_lt (show 0x80 + r % 64 < 256 by omega)]
    have l : leadInfo (0xC0 + r / 64) = some (2, 0x80, 0xBF) := by
      unfold leadInfo
      rw [if_neg (by omega), if_pos (by omega)]
    rw [if_neg (by omega), l]
    have c2 : ¬ (0xBF < 0x80 + r % 64) := by omega
    simp [c2, show ¬ (0x80 + r % 64 < 0x80) by omega]
    omega
  · rw [e]
    simp only [List.cons_append, List.nil_append, decodeRune]
    rw [ofNat_toNat_lt (show 0xE0 + r / 4096 < 256 by omega),
      ofNat_toNat_lt (show 0x80 + r / 64 % 64 < 256 by omega),
      ofNat_toNat_lt (show 0x80 + r % 64 < 256 by omega)]
    obtain ⟨lo, hi, l, hl, hh⟩ : ∃ lo hi, leadInfo (0xE0 + r / 4096) = some (3, lo, hi) ∧
        lo ≤ 0x80 + r / 64 % 64 ∧ 0x80 + r / 64 % 64 ≤ hi := by
      unfold leadInfo
      rw [if_neg (by omega), if_neg (by omega)]
      split
      · exact ⟨_, _, rfl, by omega, by omega⟩
      · split
        · exact ⟨_, _, rfl, by omega, by omega⟩
        · rw [if_pos (by omega)]
          exact ⟨_, _, rfl, by omega, by omega⟩
    rw [if_neg (by omega), l]
    have c1 : ¬ (0x80 + r / 64 % 64 < lo) := by omega
    have c2 : ¬ (hi < 0x80 + r / 64 % 64) := by omega
    have c3 : isCont (0x80 + r % 64) = true := by
      simp [isCont]; omega
    simp [c1, c2, c3]
    omega
  · rw [e]
    simp only [List.cons_append, List.nil_append, decodeRune]
    rw [ofNat_toNat_lt (show 0xF0 + r / 262144 < 256 by omega),
      ofNat_toNat_lt (show 0x80 + r / 4096 % 64 < 256 by omega),
      ofNat_toNat_lt (show 0x80 + r / 64 % 64 < 256 by omega),
      ofNat_toNat_lt (show 0x80 + r % 64 < 256 by omega)]
    obtain ⟨lo, hi, l, hl, hh⟩ : ∃ lo hi, leadInfo (0xF0 + r / 262144) = some (4, lo, hi) ∧
        lo ≤ 0x80 + r / 4096 % 64 ∧ 0x80 + r / 4096 % 64 ≤ hi := by
      unfold leadInfo
      rw [if_neg (by omega), if_neg (by omega), if_neg (by omega), if_neg (by omega),
        if_neg (by omega)]
      split
      · exact ⟨_, _, rfl, by omega, by omega⟩
      · split
        · exact ⟨_, _, rfl, by omega, by omega⟩
        · rw [if_pos (by omega)]
          exact ⟨_, _, rfl, by omega, by omega⟩
    rw [if_neg (by omega), l]
    have c1 : ¬ (0x80 + r / 4096 % 64 < lo) := by omega
    have c2 : ¬ (hi < 0x80 + r / 4096 % 64) := by omega
    have c3 : isCont (0x80 + r / 64 % 64) = true := by
      simp [isCont]; omega
    have c4 : isCont (0x80 + r % 64) = true := by
      simp [isCont]; omega
    simp [c1, c2, c3, c4]
    omega

/-- An encoded rune is one lead byte followed by continuation bytes. -/
theorem encodeRune_shape {r : Nat} (h : RuneOk r) :
    ∃ b rest, encodeRune r = b :: rest ∧ isCont b.toNat = false ∧
      (∀ x ∈ rest, isCont x.toNat = true) ∧ rest.length ≤ 3 ∧ (rest = [] ↔ r < 0x80) ∧
      (b.toNat < 0x80 ↔ r < 0x80) := by
  rcases runeOk_cases h with ⟨h1, e⟩ | ⟨h1, h2, e⟩ | ⟨h1, h2, h3, e⟩ | ⟨h1, h2, e⟩
  · refine ⟨_, _, e, ?_, by simp, by simp, by simp [h1], ?_⟩
    · rw [ofNat_toNat_lt (by omega)]; simp [isCont]; omega
    · rw [ofNat_toNat_lt (by omega)]
  · refine ⟨_, _, e, ?_, ?_, by simp, by simp; omega, ?_⟩
    · rw [ofNat_toNat_lt (by omega)]; simp [isCont]; omega
    · intro x hx
      simp only [List.mem_cons, List.not_mem_nil, or_false] at hx
      subst hx
      rw [ofNat_toNat_lt (by omega)]; simp [isCont]; omega
    · rw [ofNat_toNat_lt (by omega)]; omega
  · refine ⟨_, _, e, ?_, ?_, by simp, by simp; omega, ?_⟩
    · rw [ofNat_toNat_lt (by omega)]; simp [isCont]; omega
    · intro x hx
      simp only [List.mem_cons, List.not_mem_nil, or_false] at hx
      rcases hx with hx | hx <;> subst hx <;>
      · rw [ofNat_toNat_lt (by omega)]; simp [isCont]; omega
    · rw [ofNat_toNat_lt (by omega)]; omega
  · refine ⟨_, _, e, ?_, ?_, by simp, by simp; omega, ?_⟩
    · rw [ofNat_toNat_lt (by omega)]; simp [isCont]; omega
    · intro x hx
      simp only [List.mem_cons, List.not_mem_nil, or_false] at hx
      rcases hx with hx | hx | hx <;> subst hx <;>
      · rw [ofNat_toNat_lt (by omega)]; simp [isCont]; omega
    · rw [ofNat_toNat_lt (by omega)]; omega

theorem encodeRune_length {r : Nat} (h : RuneOk r) :
    ((encodeRune r).length : Int) = runeLen r := by
  unfold runeLen
  rcases runeOk_cases h with ⟨h1, e⟩ | ⟨h1, h2, e⟩ | ⟨h1, h2, h3, e⟩ | ⟨h1, h2, e⟩
  · rw [e, if_pos h1]; rfl
  · rw [e, if_neg (by omega), if_pos h2]; rfl
  · rw [e, if_neg (by omega), if_neg (by omega), if_neg (by omega), if_pos h2]; rfl
  · rw [e, if_neg (by omega), if_neg (by omega), if_neg (by omega), if_neg (by omega),
      if_pos h2]; rfl

theorem encodeRune_ne_nil (r : Nat) : encodeRune r ≠ [] := by
  unfold encodeRune
  split
  · simp
  · split
    · simp
    · split
      · simp
      · split <;> simp

theorem encodeRune_pos (r : Nat) : 0 < (encodeRune r).length :=
  List.length_pos_iff.mpr (encodeRune_ne_nil r)

theorem encodeRune_length_le (r : Nat) : (encodeRune r).length ≤ 4 := by
  unfold encodeRune
  split
  · simp
  · split
    · simp
    · split
      · simp
      · split <;> simp

/-! ## `utf8` of a character list -/

@[simp] theorem utf8_nil : utf8 [] = [] := rfl

theorem utf8_cons (c : Char) (cs : List Char) :
    utf8 (c :: cs) = encodeRune c.toNat ++ utf8 cs := rfl

@[simp] theorem utf8_append (a b : List Char) : utf8 (a ++ b) = utf8 a ++ utf8 b := by
  simp [utf8]

theorem utf8_cons_ne_nil (c : Char) (cs : List Char) : utf8 (c :: cs) ≠ [] := by
  rw [utf8_cons]
  simp [encodeRune_ne_nil]

@[simp] theorem utf8_eq_nil (cs : List Char) : utf8 cs = [] ↔ cs = [] := by
  cases cs with
  | nil => simp
  | cons c cs => simp [utf8_cons_ne_nil]

theorem decodeRune_utf8_cons (c : Char) (cs : List Char) :
    decodeRune (utf8 (c :: cs)) = (c.toNat, (encodeRune c.toNat).length) := by
  rw [utf8_cons, decodeRune_encode (Char.runeOk c)]

theorem drop_utf8_cons (c : Char) (cs : List Char) :
    (utf8 (c :: cs)).drop (encodeRune c.toNat).length = utf8 cs := by
  rw [utf8_cons]; simp

theorem Char.toNat_val_inj {c d : Char} (h : c.toNat = d.toNat) : c = d := by
  apply Char.ext
  exact UInt32.toNat_inj.mp h

/-- Encodings of characters form a prefix code. -/
theorem encode_append_inj {c d : Char} {s t : Str}
    (h : encodeRune c.toNat ++ s = encodeRune d.toNat ++ t) : c = d ∧ s = t := by
  have h1 := decodeRune_encode (Char.runeOk c) s
  have h2 := decodeRune_encode (Char.runeOk d) t
  rw [h, h2] at h1
  have e : d = c := Char.toNat_val_inj (by simpa using congrArg Prod.fst h1)
  subst e
  exact ⟨rfl, List.append_cancel_left h⟩

theorem utf8_inj {a b : List Char} (h : utf8 a = utf8 b) : a = b := by
  induction a generalizing b with
  | nil => simpa using h.symm
  | cons c cs ih =>
    cases b with
    | nil => exact absurd h (utf8_cons_ne_nil _ _)
    | cons d ds =>
      rw [utf8_cons, utf8_cons] at h
      obtain ⟨e, h'⟩ := encode_append_inj h
      rw [e, ih h']

theorem utf8_prefix_split {a : List Char} {cs : List Char} {t : Str}
    (h : utf8 cs = utf8 a ++ t) : ∃ ts, cs = a ++ ts ∧ t = utf8 ts := by
  induction a generalizing cs with
  | nil => exact ⟨cs, rfl, by simpa using h.symm⟩
  | cons c a ih =>
    cases cs with
    | nil =>
      rw [utf8_nil] at h
      have := congrArg List.length h
      rw [utf8_cons] at this
      have p := encodeRune_pos c.toNat
      simp only [List.length_append, List.length_nil] at this
      omega
    | cons d ds =>
      rw [utf8_cons, utf8_cons, List.append_assoc] at h
      obtain ⟨e, h'⟩ := encode_append_inj h
      obtain ⟨ts, h1, h2⟩ := ih h'
      exact ⟨ts, by rw [e, h1]; rfl, h2⟩

theorem utf8_isPrefixOf (a cs : List Char) :
    (utf8 a).isPrefixOf (utf8 cs) = true ↔ a <+: cs := by
  rw [List.isPrefixOf_iff_prefix]
  constructor
  · rintro ⟨t, h⟩
    obtain ⟨ts, h1, _⟩ := utf8_prefix_split h.symm
    exact ⟨ts, h1.symm⟩
  · rintro ⟨t, h⟩
    exact ⟨utf8 t, by rw [← h]; simp⟩

theorem utf8_head_not_cont {cs : List Char} {b : UInt8} {t : Str} (h : utf8 cs = b :: t) :
    isCont b.toNat = false := by
  cases cs with
  | nil => simp at h
  | cons c cs =>
    obtain ⟨x, rest, e, hx, _⟩ := encodeRune_shape (Char.runeOk c)
    rw [utf8_cons, e] at h
    simp at h
    rw [← h.1]; exact hx

/-- A cut of valid text in front of a non-continuation byte (or at the end) is a
cut between characters. -/
theorem utf8_split_boundary {cs : List Char} {p q : Str} (h : utf8 cs = p ++ q)
    (hq : ∀ b t, q = b :: t → isCont b.toNat = false) :
    ∃ ps qs, cs = ps ++ qs ∧ p = utf8 ps ∧ q = utf8 qs := by
  induction cs generalizing p with
  | nil =>
    have : p = [] ∧ q = [] := by simpa using h
    exact ⟨[], [], rfl, by simp [this.1], by simp [this.2]⟩
  | cons c cs ih =>
    obtain ⟨x, rest, e, hx, hr, _⟩ := encodeRune_shape (Char.runeOk c)
    cases p with
    | nil => exact ⟨[], c :: cs, rfl, rfl, by simpa using h.symm⟩
    | cons y p =>
      rw [utf8_cons, e] at h
      simp only [List.cons_append, List.cons.injEq] at h
      obtain ⟨hy, h⟩ := h
      -- `rest` must be a prefix of `p`
      obtain ⟨p', hp'⟩ : ∃ p', p = rest ++ p' := by
        rw [List.append_eq_append_iff] at h
        rcases h with ⟨a', h1, h2⟩ | ⟨c', h1, h2⟩
        · exact ⟨a', h1⟩
        · cases c' with
          | nil => exact ⟨[], by simpa using h1.symm⟩
          | cons z c' =>
            have hz := hq z _ h2
            have := hr z (by rw [h1]; simp)
            rw [this] at hz; cases hz
      subst hp'
      rw [List.append_assoc] at h
      have h := List.append_cancel_left h
      obtain ⟨ps, qs, h1, h2, h3⟩ := ih h
      refine ⟨c :: ps, qs, by rw [h1]; rfl, ?_, h3⟩
      rw [utf8_cons, e, h2, hy]; simp

/-- Occurrences of non-empty valid text in valid text are at character boundaries. -/
theorem utf8_occurrence {cs ws : List Char} {p q : Str} (hw : ws ≠ [])
    (h : utf8 cs = p ++ utf8 ws ++ q) :
    ∃ ps qs, cs = ps ++ ws ++ qs ∧ p = utf8 ps ∧ q = utf8 qs := by
  rw [List.append_assoc] at h
  obtain ⟨ps, rs, h1, h2, h3⟩ := utf8_split_boundary h (by
    intro b t hb
    cases ws with
    | nil => exact absurd rfl hw
    | cons w ws =>
      obtain ⟨x, rest, e, hx, _⟩ := encodeRune_shape (Char.runeOk w)
      rw [utf8_cons, e] at hb
      simp at hb
      rw [← hb.1]; exact hx)
  obtain ⟨qs, h4, h5⟩ := utf8_prefix_split h3.symm
  exact ⟨ps, qs, by rw [h1, h4]; simp, h2, h5⟩

/-! ## Decoder widths on arbitrary bytes -/

theorem decodeRune_width_le (s : Str) : (decodeRune s).2 ≤ s.length := by
  unfold decodeRune
  repeat' split
  all_goals simp
  all_goals (repeat' split)
  all_goals simp

theorem decodeRune_width_pos {s : Str} (h : s ≠ []) : 1 ≤ (decodeRune s).2 := by
  unfold decodeRune
  repeat' split
  all_goals simp at h ⊢
  all_goals (repeat' split)
  all_goals simp

theorem decodeRune_width_zero {s : Str} : (decodeRune s).2 = 0 ↔ s = [] := by
  constructor
  · intro h
    by_cases hs : s = []
    · exact hs
    · have := decodeRune_width_pos hs
      omega
  · rintro rfl; rfl

end GoMatcher
