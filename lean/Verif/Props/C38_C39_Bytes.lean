import Verif.Proofs.ClassScan
import Verif.Props.C36_C40_Classes

/-! # C38 and C39 on all byte strings

The properties themselves are false; here is what the functions do instead, for every class text and
every byte string.  Membership is described by `C37.class_exact`. -/

namespace GoMatcher
namespace C38

/-- A class text that is accepted has ranges iff it has a member outside ASCII. -/
theorem ranges_iff {body : Str} {rs : RunesRanges}
    (h : RunesRanges.expand (b! "[" ++ body ++ b! "]") = some rs) :
    rs.ranges ≠ [] ↔ ∃ c, 128 ≤ c ∧ rs.contains c = true := by
  obtain ⟨cs, hcs⟩ := RunesRanges.rangeStr_go_chars body.length 0 body
  obtain ⟨es, hes⟩ := RunesRanges.reads_total cs
  rcases RunesRanges.expand_reads hcs hes with ⟨_, rs', h2, h3⟩ | ⟨_, h2⟩
  · have : rs = rs' := by
      have : some rs = some rs' := h.symm.trans h2
      simpa using this
    subst this
    constructor
    · intro hne
      cases hr : rs.ranges with
      | nil => exact absurd hr hne
      | cons r l =>
        have hr1 : r ∈ rs.ranges := by rw [hr]; simp
        have h4 := h3.wf r hr1
        refine ⟨r.first, by omega, ?_⟩
        rw [RunesRanges.contains_of_ge rs (by omega)]
        rw [RunesRanges.containsUnicode_spec h3.sorted]
        exact ⟨r, hr1, Nat.le_refl _, h3.sorted.wf r hr1⟩
    · rintro ⟨c, hc, hm⟩ hr
      rw [RunesRanges.contains_of_ge rs hc, RunesRanges.containsUnicode, hr] at hm
      simp at hm
  · have : some rs = none := h.symm.trans h2
    simp at this

/-- `Index` of a class with a member outside ASCII, on every byte string: the text is cut at the
first member, or at the first U+FFFD or undecodable byte, whatever comes first.  In the second
case, or at the end of the text, the answer is "none". -/
theorem index_wide (body : Str) (rs : RunesRanges)
    (h : RunesRanges.expand (b! "[" ++ body ++ b! "]") = some rs)
    (hw : ∃ c, 128 ≤ c ∧ rs.contains c = true) (s : Str) :
    ∃ (cs : List Char) (rest : Str), s = utf8 cs ++ rest ∧
      (∀ c ∈ cs, c.toNat ≠ 0xFFFD ∧ rs.contains c.toNat = false) ∧
      (rest = [] ∧ rs.index s = none ∨
        (rest ≠ [] ∧ ∀ (c : Char) t, rest = utf8 [c] ++ t → c.toNat = 0xFFFD) ∧ rs.index s = none ∨
        ∃ (c : Char) (t : Str), rest = utf8 [c] ++ t ∧ c.toNat ≠ 0xFFFD ∧ rs.contains c.toNat = true ∧
          rs.index s = some ((utf8 cs).length, c.toNat, (utf8 [c]).length)) := by
  have hr := (ranges_iff h).2 hw
  unfold RunesRanges.index
  rw [if_neg hr]
  obtain ⟨cs, rest, h1, h2, h3⟩ := rs.indexLoop_bytes s.length 0 s (Nat.le_refl _)
  refine ⟨cs, rest, h1, h2, ?_⟩
  simpa only [Nat.zero_add, RunesRanges.Stuck] using h3

/-- `Index` and `IndexByte` of a class of ASCII members, on every byte string: the first byte that is
a member. -/
theorem index_ascii (body : Str) (rs : RunesRanges)
    (h : RunesRanges.expand (b! "[" ++ body ++ b! "]") = some rs)
    (hw : ∀ c, rs.contains c = true → c < 128) (s : Str) (fuel : Nat) :
    rs.indexByte fuel s = .ok (rs.index s) ∧
    ((rs.index s = none ∧ ∀ b ∈ s, rs.contains b.toNat = false) ∨
      ∃ pre b post, s = pre ++ b :: post ∧ (∀ x ∈ pre, rs.contains x.toNat = false) ∧
        rs.contains b.toNat = true ∧ rs.index s = some (pre.length, b.toNat, 1)) := by
  have hr : rs.ranges = [] := by
    apply Classical.byContradiction
    intro hn
    obtain ⟨c, h1, h2⟩ := (ranges_iff h).1 hn
    have := hw c h2
    omega
  have hb : ∀ b : UInt8, rs.ascii.contains b = rs.contains b.toNat := by
    intro b
    by_cases hlt : b.toNat < 128
    · rw [RunesRanges.contains_of_lt rs hlt]
      simp
    · rw [RunesRanges.contains_of_ge rs (by omega), RunesRanges.containsUnicode, hr]
      cases hx : rs.ascii.contains b with
      | false => rfl
      | true => have := ASCIISet.contains_lt hx; omega
  unfold RunesRanges.index RunesRanges.indexByte
  rw [if_pos hr, if_pos hr]
  refine ⟨rfl, ?_⟩
  simpa only [hb, Nat.zero_add] using rs.indexAscii_bytes 0 s

/-- `IndexByte` of a class with a member outside ASCII, on every byte string.  It agrees with `Index`
until the first ASCII character; if that is not a member, it never returns. -/
theorem indexByte_wide (body : Str) (rs : RunesRanges)
    (h : RunesRanges.expand (b! "[" ++ body ++ b! "]") = some rs)
    (hw : ∃ c, 128 ≤ c ∧ rs.contains c = true) (s : Str) :
    ∃ (cs : List Char) (rest : Str), s = utf8 cs ++ rest ∧
      (∀ c ∈ cs, c.toNat ≠ 0xFFFD ∧ rs.contains c.toNat = false ∧ 128 ≤ c.toNat) ∧
      (rest = [] ∧ rs.indexByte (s.length + 1) s = .ok none ∨
        (rest ≠ [] ∧ ∀ (c : Char) t, rest = utf8 [c] ++ t → c.toNat = 0xFFFD) ∧
          rs.indexByte (s.length + 1) s = .ok none ∨
        (∃ (c : Char) (t : Str), rest = utf8 [c] ++ t ∧ c.toNat ≠ 0xFFFD ∧ rs.contains c.toNat = true ∧
          rs.indexByte (s.length + 1) s = .ok (some ((utf8 cs).length, c.toNat, (utf8 [c]).length))) ∨
        ∃ (c : Char) (t : Str), rest = utf8 [c] ++ t ∧ c.toNat < 128 ∧ rs.contains c.toNat = false ∧
          ∀ fuel, rs.indexByte fuel s = .timeout) := by
  have hr := (ranges_iff h).2 hw
  simp only [RunesRanges.indexByte, if_neg hr]
  obtain ⟨cs, rest, h1, h2, h3⟩ := rs.indexByteLoop_bytes s.length 0 s (Nat.le_refl _)
  refine ⟨cs, rest, h1, h2, ?_⟩
  simpa only [Nat.zero_add, RunesRanges.Stuck] using h3

/-- `[aю-я]` on `b`, `щ`, a stray byte and `я`. -/
example : ∃ rs, RunesRanges.expand (b! "[" ++ b! "aю-я" ++ b! "]") = some rs ∧
    (128 ≤ 0x44F ∧ rs.contains 0x44F = true) ∧
    rs.index (b! "bщя") = some (3, 0x44F, 2) ∧ rs.index (b! "bщ" ++ [0xFF] ++ b! "я") = none ∧
    rs.indexByte 20 (b! "щa") = .ok (some (2, 97, 1)) ∧ rs.indexByte 20 (b! "щba") = .timeout := by
  refine ⟨_, rfl, ?_⟩
  decide +kernel
example : ∃ rs, RunesRanges.expand (b! "[" ++ b! "a-c" ++ b! "]") = some rs ∧
    rs.index ([0xFF] ++ b! "яb") = some (3, 98, 1) := by
  refine ⟨_, rfl, ?_⟩
  decide +kernel

end C38

namespace C39

/-- `EndsWith` on any byte string and any class value: the last rune when it decodes to a member,
with the offset where it starts, but 1 for ASCII. -/
theorem endsWith_spec (rs : RunesRanges) (s : Str) :
    rs.endsWith s =
      if s ≠ [] ∧ (decodeLastRune s).1 ≠ runeError ∧ rs.contains (decodeLastRune s).1 = true
      then some ((decodeLastRune s).1,
        if (decodeLastRune s).1 < 128 then 1 else s.length - (decodeLastRune s).2)
      else none := by
  unfold RunesRanges.endsWith
  by_cases hs : s = []
  · simp [hs]
  rw [if_neg hs]
  dsimp only
  by_cases he : (decodeLastRune s).1 = runeError
  · simp [he]
  rw [if_neg he]
  by_cases hlt : (decodeLastRune s).1 < 128
  · rw [if_pos hlt, RunesRanges.contains_of_lt rs hlt]
    simp [hs, he, hlt]
  · rw [if_neg hlt, RunesRanges.contains_of_ge rs (by omega)]
    simp [hs, he, hlt]

/-- On valid text, by its last character: every class value, every character. -/
theorem endsWith_exact (rs : RunesRanges) (c : Char) (cs : List Char) :
    rs.endsWith (utf8 (cs ++ [c])) =
      if c.toNat ≠ 0xFFFD ∧ rs.contains c.toNat = true
      then some (c.toNat, if c.toNat < 128 then 1 else (utf8 cs).length) else none := by
  have hu : utf8 (cs ++ [c]) = utf8 cs ++ encodeRune c.toNat := by
    rw [utf8_append, utf8_cons]; simp
  have hne : utf8 cs ++ encodeRune c.toNat ≠ [] := by simp [encodeRune_ne_nil]
  rw [endsWith_spec, hu, decodeLastRune_append]
  simp [runeError, encodeRune_ne_nil]

/-- On valid text, by its first character: every class value, every character. -/
theorem startsWith_exact (rs : RunesRanges) (c : Char) (cs : List Char) :
    rs.startsWith (utf8 (c :: cs)) =
      if c.toNat ≠ 0xFFFD ∧ rs.contains c.toNat = true
      then some (c.toNat, (utf8 [c]).length) else none := by
  rw [startsWith_spec, decodeRune_utf8_cons]
  have h1 : utf8 (c :: cs) ≠ [] := utf8_cons_ne_nil c cs
  have h3 : (utf8 [c]).length = (encodeRune c.toNat).length := by rw [utf8_cons]; simp
  simp [h1, h3, runeError]

example : (RunesRanges.expand (b! "[а-яz]")).map (fun rs =>
    (rs.endsWith (b! "abz"), rs.endsWith (b! "zя"), rs.endsWith (b! "я" ++ [0xD1]))) =
    some (some (0x7A, 1), some (0x44F, 1), none) := by decide +kernel

end C39
end GoMatcher
