import Verif.Proofs.RunesRanges

/-! # Facts about searching for class members, and skipping runes -/

namespace GoMatcher

theorem encodeRune_ascii {r : Nat} (h : r < 0x80) : encodeRune r = [UInt8.ofNat r] := by
  simp [encodeRune, h]

/-- Bytes of a non-ASCII character are all at least 0x80. -/
theorem encodeRune_nonascii {r : Nat} (ho : RuneOk r) (h : 0x80 ≤ r) :
    ∀ x ∈ encodeRune r, 0x80 ≤ x.toNat := by
  obtain ⟨b, rest, e, hb, hr, _, hrest, hlt⟩ := encodeRune_shape ho
  rw [e]
  intro x hx
  rcases List.mem_cons.mp hx with rfl | hx
  · omega
  · have := hr x hx
    simp [isCont] at this
    omega

namespace RunesRanges

/-- Reference search over characters. -/
def idxSpec (rs : RunesRanges) : Nat → List Char → Option (Nat × Nat × Nat)
  | _, [] => none
  | i, c :: cs =>
    if rs.contains c.toNat then some (i, c.toNat, (encodeRune c.toNat).length)
    else idxSpec rs (i + (encodeRune c.toNat).length) cs

theorem indexAscii_append (rs : RunesRanges) (p t : Str) (i : Nat)
    (h : ∀ b ∈ p, rs.ascii.contains b = false) :
    rs.indexAscii i (p ++ t) = rs.indexAscii (i + p.length) t := by
  induction p generalizing i with
  | nil => simp
  | cons b p ih =>
    rw [List.cons_append, indexAscii, h b (by simp)]
    simp only [Bool.false_eq_true, if_false]
    rw [ih _ (fun x hx => h x (by simp [hx]))]
    congr 1
    simp; omega

theorem contains_of_lt (rs : RunesRanges) {c : Nat} (h : c < 0x80) :
    rs.contains c = rs.ascii.contains (UInt8.ofNat c) := by
  unfold contains; rw [if_pos (by omega)]

theorem contains_of_ge (rs : RunesRanges) {c : Nat} (h : 0x80 ≤ c) :
    rs.contains c = rs.containsUnicode c := by
  unfold contains; rw [if_neg (by omega)]

theorem indexAscii_utf8 (rs : RunesRanges) (hr : rs.ranges = []) (cs : List Char) (i : Nat) :
    rs.indexAscii i (utf8 cs) = rs.idxSpec i cs := by
  induction cs generalizing i with
  | nil => rfl
  | cons c cs ih =>
    rw [utf8_cons]
    unfold idxSpec
    by_cases hc : c.toNat < 0x80
    · rw [encodeRune_ascii hc, List.singleton_append, indexAscii, contains_of_lt rs hc]
      split
      · rw [ofNat_toNat_lt (by omega)]; rfl
      · exact ih _
    · have : rs.contains c.toNat = false := by
        rw [contains_of_ge rs (by omega)]
        unfold containsUnicode
        rw [hr]
      rw [this]
      simp only [Bool.false_eq_true, if_false]
      rw [indexAscii_append, ih]
      intro b hb
      have := encodeRune_nonascii (Char.runeOk c) (by omega) b hb
      cases hh : rs.ascii.contains b with
      | false => rfl
      | true => have := ASCIISet.contains_lt hh; omega

theorem indexLoop_utf8 (rs : RunesRanges) (cs : List Char)
    (hno : ∀ c ∈ cs, c.toNat ≠ runeError) (f i : Nat) (hf : (utf8 cs).length ≤ f) :
    rs.indexLoop f i (utf8 cs) = rs.idxSpec i cs := by
  induction cs generalizing f i with
  | nil => cases f <;> rfl
  | cons c cs ih =>
    have hpos := encodeRune_pos c.toNat
    have hl : (utf8 (c :: cs)).length = (encodeRune c.toNat).length + (utf8 cs).length := by
      rw [utf8_cons]; simp
    have hno' : ∀ c ∈ cs, c.toNat ≠ runeError := fun x hx => hno x (by simp [hx])
    have hcE : c.toNat ≠ runeError := hno c (by simp)
    cases f with
    | zero => omega
    | succ f =>
      unfold idxSpec
      by_cases hc : c.toNat < 0x80
      · rw [utf8_cons, encodeRune_ascii hc, List.singleton_append, indexLoop,
          contains_of_lt rs hc, if_pos (by rw [ofNat_toNat_lt (by omega)]; omega)]
        rw [encodeRune_ascii hc] at hl
        split
        · rw [ofNat_toNat_lt (by omega)]; rfl
        · simp at hl
          exact ih hno' _ _ (by omega)
      · have hd := decodeRune_utf8_cons c cs
        have hdrop := drop_utf8_cons c cs
        obtain ⟨b0, rest, e, _, _, _, _, hlt⟩ := encodeRune_shape (Char.runeOk c)
        cases hs : utf8 (c :: cs) with
        | nil => exact absurd hs (utf8_cons_ne_nil _ _)
        | cons b t =>
          have hb : b = b0 := by
            rw [utf8_cons, e] at hs
            simp at hs
            exact hs.1.symm
          rw [hs] at hd hdrop
          rw [indexLoop, if_neg (by rw [hb]; omega), hd]
          simp only
          rw [if_neg hcE, ← contains_of_ge rs (show 0x80 ≤ c.toNat by omega), hdrop,
            ih hno' _ _ (by omega)]

theorem index_utf8 (rs : RunesRanges) (cs : List Char)
    (hno : rs.ranges ≠ [] → ∀ c ∈ cs, c.toNat ≠ runeError) :
    rs.index (utf8 cs) = rs.idxSpec 0 cs := by
  unfold index
  split
  · rename_i h; exact indexAscii_utf8 rs h cs 0
  · rename_i h; exact indexLoop_utf8 rs cs (hno h) _ _ (Nat.le_refl _)

theorem indexLoop_first (rs : RunesRanges) (cs : List Char) (f i : Nat) (hf : (utf8 cs).length ≤ f) :
    rs.indexLoop f i (utf8 cs) = rs.idxSpec i cs ∨ rs.indexLoop f i (utf8 cs) = none := by
  induction cs generalizing f i with
  | nil => cases f <;> exact Or.inl rfl
  | cons c cs ih =>
    have hpos := encodeRune_pos c.toNat
    have hl : (utf8 (c :: cs)).length = (encodeRune c.toNat).length + (utf8 cs).length := by
      rw [utf8_cons]; simp
    cases f with
    | zero => omega
    | succ f =>
      unfold idxSpec
      by_cases hc : c.toNat < 0x80
      · rw [utf8_cons, encodeRune_ascii hc, List.singleton_append, indexLoop,
          contains_of_lt rs hc, if_pos (by rw [ofNat_toNat_lt (by omega)]; omega)]
        rw [encodeRune_ascii hc] at hl
        split
        · rw [ofNat_toNat_lt (by omega)]; exact Or.inl rfl
        · simp at hl
          exact ih _ _ (by omega)
      · have hd := decodeRune_utf8_cons c cs
        have hdrop := drop_utf8_cons c cs
        obtain ⟨b0, rest, e, _, _, _, _, hlt⟩ := encodeRune_shape (Char.runeOk c)
        cases hs : utf8 (c :: cs) with
        | nil => exact absurd hs (utf8_cons_ne_nil _ _)
        | cons b t =>
          have hb : b = b0 := by
            rw [utf8_cons, e] at hs
            simp at hs
            exact hs.1.symm
          rw [hs] at hd hdrop
          rw [indexLoop, if_neg (by rw [hb]; omega), hd]
          simp only
          by_cases hcE : c.toNat = runeError
          · rw [if_pos hcE]; exact Or.inr rfl
          · rw [if_neg hcE, ← contains_of_ge rs (show 0x80 ≤ c.toNat by omega), hdrop]
            split
            · exact Or.inl rfl
            · exact ih _ _ (by omega)

/-- `Index` finds the first member, or nothing when U+FFFD occurs in the text. -/
theorem index_first (rs : RunesRanges) (cs : List Char) :
    rs.index (utf8 cs) = rs.idxSpec 0 cs ∨
    ((¬ ∀ c ∈ cs, c.toNat ≠ runeError) ∧ rs.index (utf8 cs) = none) := by
  by_cases h : ∀ c ∈ cs, c.toNat ≠ runeError
  · exact Or.inl (index_utf8 rs cs fun _ => h)
  · unfold index
    split
    · rename_i hr; exact Or.inl (indexAscii_utf8 rs hr cs 0)
    · exact (indexLoop_first rs cs _ 0 (Nat.le_refl _)).imp id fun e => ⟨h, e⟩

theorem idxSpec_cases (rs : RunesRanges) (cs : List Char) (i : Nat) :
    (rs.idxSpec i cs = none ∧ ∀ c ∈ cs, rs.contains c.toNat = false) ∨
    ∃ pre c post, cs = pre ++ c :: post ∧ (∀ d ∈ pre, rs.contains d.toNat = false) ∧
      rs.contains c.toNat = true ∧
      rs.idxSpec i cs = some (i + (utf8 pre).length, c.toNat, (encodeRune c.toNat).length) := by
  induction cs generalizing i with
  | nil => left; simp [idxSpec]
  | cons c cs ih =>
    unfold idxSpec
    cases hc : rs.contains c.toNat with
    | true =>
      right
      exact ⟨[], c, cs, rfl, by simp, hc, by simp⟩
    | false =>
      simp only [Bool.false_eq_true, if_false]
      rcases ih (i + (encodeRune c.toNat).length) with ⟨h1, h2⟩ | ⟨pre, d, post, h1, h2, h3, h4⟩
      · left
        refine ⟨h1, ?_⟩
        intro x hx
        rcases List.mem_cons.mp hx with rfl | hx
        · exact hc
        · exact h2 x hx
      · right
        refine ⟨c :: pre, d, post, by rw [h1]; rfl, ?_, h3, ?_⟩
        · intro x hx
          rcases List.mem_cons.mp hx with rfl | hx
          · exact hc
          · exact h2 x hx
        · rw [h4, utf8_cons]
          congr 2
          simp; omega

/-- `StartsWith` on any bytes: decode one rune and test it. -/
theorem startsWith_eq (rs : RunesRanges) (s : Str) :
    rs.startsWith s =
      if s ≠ [] ∧ (decodeRune s).1 ≠ runeError ∧ rs.contains (decodeRune s).1 = true
      then some (decodeRune s) else none := by
  cases s with
  | nil => simp [startsWith]
  | cons b t =>
    rw [startsWith]
    by_cases hb : b.toNat < 128
    · have hd : decodeRune (b :: t) = (b.toNat, 1) := by
        simp [decodeRune, hb]
      have hne : b.toNat ≠ runeError := by unfold runeError; omega
      rw [if_pos hb, hd]
      simp only [contains_of_lt rs hb]
      simp [hne]
    · rw [if_neg hb]
      simp only
      by_cases hd : (decodeRune (b :: t)).1 = runeError
      · simp [hd]
      · have hge : 0x80 ≤ (decodeRune (b :: t)).1 := by
          apply Classical.byContradiction
          intro hlt
          revert hlt hd
          unfold decodeRune
          simp only [if_neg hb]
          split
          · simp
          · rename_i sz lo hi hli
            have hlead : (sz = 2 ∧ 0xC2 ≤ b.toNat) ∨ (sz = 3 ∧ (b.toNat = 0xE0 ∧ lo = 0xA0 ∨ 0xE1 ≤ b.toNat) ∧ 0x80 ≤ lo)
                ∨ (sz = 4 ∧ (b.toNat = 0xF0 ∧ lo = 0x90 ∨ 0xF1 ≤ b.toNat) ∧ 0x80 ≤ lo) := by
              unfold leadInfo at hli
              split at hli
              · simp at hli
              · split at hli
                · simp at hli; omega
                · split at hli
                  · simp at hli; omega
                  · split at hli
                    · simp at hli; omega
                    · split at hli
                      · simp at hli; omega
                      · split at hli
                        · simp at hli; omega
                        · split at hli
                          · simp at hli; omega
                          · split at hli
                            · simp at hli; omega
                            · simp at hli
            split
            · simp
            · split
              · simp
              · rename_i c1 t1 hacc
                simp at hacc
                split
                · simp; intro _; omega
                · split
                  · simp
                  · split
                    · simp
                    · split
                      · simp; intro _; omega
                      · split
                        · simp
                        · split
                          · simp
                          · simp; intro _; omega
        rw [contains_of_ge rs hge]
        simp [hd]

end RunesRanges

/-! ## Last rune and rune skipping -/

theorem lastScan_conts (k : Nat) (x : Str) (b : UInt8) (t : Str)
    (hx : ∀ y ∈ x, isCont y.toNat = true) (hb : isCont b.toNat = false) (hk : x.length + 1 ≤ k) :
    lastScan k (x ++ b :: t) = x.length + 1 := by
  induction x generalizing k with
  | nil =>
    cases k with
    | zero => simp at hk
    | succ k => simp [lastScan, runeStart, hb]
  | cons y x ih =>
    cases k with
    | zero => simp at hk
    | succ k =>
      have hy := hx y (by simp)
      simp at hk
      rw [List.cons_append, lastScan]
      simp only [runeStart, hy, Bool.not_true, Bool.false_eq_true, if_false]
      rw [ih _ (fun z hz => hx z (by simp [hz])) (by omega)]
      simp; omega

theorem decodeLastRune_append (p : Str) (c : Char) :
    decodeLastRune (p ++ encodeRune c.toNat) = (c.toNat, (encodeRune c.toNat).length) := by
  obtain ⟨b, rest, e, hb, hr, hlen, hnil, hlt⟩ := encodeRune_shape (Char.runeOk c)
  have hd := decodeRune_encode (Char.runeOk c) []
  rw [List.append_nil, e] at hd
  rw [e]
  unfold decodeLastRune
  rcases List.eq_nil_or_concat rest with hrest | ⟨rest', l, hrest⟩
  · subst hrest
    have hc : c.toNat < 0x80 := by simpa using hnil
    have hbl : b.toNat < 0x80 := hlt.mpr hc
    have hbc : b.toNat = c.toNat := by
      have := congrArg Prod.fst hd
      simp [decodeRune, hbl] at this
      exact this
    simp [hbc, hc]
  · subst hrest
    have hl := hr l (by simp)
    have hl' : ¬ l.toNat < 0x80 := by
      simp [isCont] at hl; omega
    have hrev : (p ++ b :: (rest' ++ [l])).reverse = l :: (rest'.reverse ++ b :: p.reverse) := by
      simp
    have hscan : lastScan 3 (rest'.reverse ++ b :: p.reverse) = rest'.length + 1 := by
      rw [lastScan_conts _ _ _ _ (by
        intro y hy
        exact hr y (by simp at hy; simp [hy])) hb (by simp at hlen ⊢; omega)]
      simp
    have hdrop : (p ++ b :: (rest' ++ [l])).drop
        ((p ++ b :: (rest' ++ [l])).length - (1 + (rest'.length + 1))) = b :: (rest' ++ [l]) := by
      have : (p ++ b :: (rest' ++ [l])).length - (1 + (rest'.length + 1)) = p.length := by
        simp; omega
      rw [this]; simp
    rw [List.concat_eq_append] at hd ⊢
    rw [hrev]
    simp only [if_neg hl', hscan]
    rw [hdrop, hd]
    simp; omega

theorem skipRunes_utf8 (cs : List Char) (k : Nat) :
    skipRunes (utf8 cs) k = if k ≤ cs.length then some (utf8 (cs.take k)).length else none := by
  induction k generalizing cs with
  | zero => simp [skipRunes]
  | succ k ih =>
    cases cs with
    | nil => simp [skipRunes, decodeRune]
    | cons c cs =>
      have hpos := encodeRune_pos c.toNat
      unfold skipRunes
      rw [decodeRune_utf8_cons]
      simp only
      rw [if_neg (by omega), drop_utf8_cons, ih]
      simp only [List.length_cons, Nat.add_le_add_iff_right, List.take_succ_cons]
      split
      · rw [utf8_cons]; simp
      · rfl

theorem skipRunes_le {s : Str} {k n : Nat} (h : skipRunes s k = some n) : n ≤ s.length := by
  induction k generalizing s n with
  | zero => simp [skipRunes] at h; omega
  | succ k ih =>
    unfold skipRunes at h
    simp only at h
    split at h
    · simp at h
    · simp only [Option.map_eq_some_iff] at h
      obtain ⟨m, hm, e⟩ := h
      have := ih hm
      have := decodeRune_width_le s
      simp at *
      omega

theorem skipRunesLastLoop_utf8 (cs : List Char) (k : Nat) :
    skipRunesLastLoop (utf8 cs) k =
      if k ≤ cs.length then some (utf8 (cs.drop (cs.length - k))).length else none := by
  induction k generalizing cs with
  | zero => simp [skipRunesLastLoop]
  | succ k ih =>
    rcases List.eq_nil_or_concat cs with rfl | ⟨cs, c, rfl⟩
    · simp [skipRunesLastLoop, decodeLastRune]
    · have hpos := encodeRune_pos c.toNat
      have hu : utf8 (cs.concat c) = utf8 cs ++ encodeRune c.toNat := by
        rw [List.concat_eq_append, utf8_append, utf8_cons]; simp
      unfold skipRunesLastLoop
      rw [hu, decodeLastRune_append]
      simp only
      rw [if_neg (by omega)]
      have : (utf8 cs ++ encodeRune c.toNat).take
          ((utf8 cs ++ encodeRune c.toNat).length - (encodeRune c.toNat).length) = utf8 cs := by
        have e : (utf8 cs ++ encodeRune c.toNat).length - (encodeRune c.toNat).length
            = (utf8 cs).length := by simp
        rw [e]; simp
      rw [this, ih]
      simp only [List.length_concat, Nat.add_le_add_iff_right]
      split
      · rename_i hk
        simp only [Option.map_some, Option.some.injEq]
        have e : cs.length + 1 - (k + 1) = cs.length - k := by omega
        rw [e, List.concat_eq_append, List.drop_append_of_le_length (by omega), utf8_append,
          utf8_cons]
        simp; omega
      · rfl

theorem skipRunesLast_utf8 (cs : List Char) (k : Nat) :
    skipRunesLast (utf8 cs) k =
      if k ≤ cs.length then some (utf8 (cs.take (cs.length - k))).length else none := by
  unfold skipRunesLast
  rw [skipRunesLastLoop_utf8]
  split
  · rename_i hk
    simp only [Option.map_some, Option.some.injEq]
    have : utf8 cs = utf8 (cs.take (cs.length - k)) ++ utf8 (cs.drop (cs.length - k)) := by
      rw [← utf8_append, List.take_append_drop]
    have := congrArg List.length this
    simp only [List.length_append] at this
    omega
  · rfl

end GoMatcher
