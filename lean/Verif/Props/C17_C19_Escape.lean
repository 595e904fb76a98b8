import Verif.Proofs.Escape

/-! # C17, C18, C19, C48: URL escaping -/

namespace GoMatcher
open Escape

namespace C17

/-- `Unescape(Query(s)) = s` for every byte string; `Query` never panics. -/
theorem unescape_query (s : Str) : ∃ e, Query s = .ok e ∧ Unescape e = s := by
  refine ⟨_, escape_eq s .queryComponent, ?_⟩
  rw [Unescape_eq, unescLoop_escWrite_query]

/-- For `Path` the round trip turns `+` into a space and changes nothing else. -/
theorem unescape_path (s : Str) :
    ∃ e, Path s = .ok e ∧ Unescape e = s.map (fun c => if c = 43 then 32 else c) := by
  refine ⟨_, escape_eq s .path, ?_⟩
  rw [Unescape_eq, unescLoop_escWrite_path]

/-- Text without `%` and `+` is left alone by `Unescape`. -/
theorem unescape_plain (s : Str) (h : ∀ c ∈ s, c ≠ 37 ∧ c ≠ 43) : Unescape s = s := by
  rw [Unescape_eq]
  have := unescLoop_take s [] h
  simpa [unescLoop] using this

/-- `UnescapeNameTo` returns the unescaped name and the same name behind `__name__=`. -/
theorem unescapeName (s : Str) :
    UnescapeNameTo s = (Unescape s, b! "__name__=" ++ Unescape s) := by
  unfold UnescapeNameTo Unescape
  cases unescapeSet.index s <;> rfl

example : Query (b! "a b+%é") = .ok (b! "a+b%2B%25%C3%A9") := by decide +kernel
example : Unescape (b! "a+b%2B%25%C3%A9") = b! "a b+%é" := by decide +kernel
example : ∀ c ∈ b! "cpu.load", c ≠ 37 ∧ c ≠ 43 := by decide
/-- Malformed escapes are copied. -/
example : Unescape (b! "%zz%4") = b! "%zz%4" := by decide +kernel

end C17

namespace C18

/-- The case in which the streaming escapers lose a byte: the last byte is plain and
the byte before it is escaped. -/
def LosesLast (mode : Mode) (s : Str) : Prop :=
  ∃ p c d, s = p ++ [c, d] ∧ shouldEscape c mode = true ∧ shouldEscape d mode = false

/-- What the streaming escaper appends, in every case. -/
theorem escapeTo_exact (s : Str) (mode : Mode) :
    (¬ LosesLast mode s → .ok (escapeTo s mode) = escape s mode) ∧
    (LosesLast mode s → ∃ d, escape s mode = .ok (escapeTo s mode ++ [d])) := by
  have hspec := escapeToLoop_spec s mode 0 0 (Nat.zero_le _) (Nat.le_refl _)
    (fun k _ _ h => by omega)
  rw [escape_eq]
  unfold escapeTo
  generalize hr : escapeToLoop s mode 0 0 = r at hspec
  obtain ⟨w, pos⟩ := r
  simp only [List.drop_zero, Nat.sub_zero, List.take_zero, List.nil_append] at hspec
  obtain ⟨e1, e2, e3, e4⟩ := hspec
  dsimp only
  by_cases h0 : pos = 0
  · subst h0
    simp only [if_true]
    simp only [List.drop_zero] at e1
    refine ⟨fun _ => by rw [e1], ?_⟩
    rintro ⟨p, c, d, rfl, hc, hd⟩
    have := e3 p.length (by simp) (by omega)
    simp [hc] at this
  · rw [if_neg h0]
    obtain ⟨hlt, hpos, hesc⟩ : ∃ h : pos - 1 < s.length, 0 < pos ∧ shouldEscape s[pos - 1] mode = true := by
      rcases e4 with e4 | e4
      · exact absurd e4 h0
      · exact e4
    by_cases hl : pos + 1 = s.length
    · -- one plain byte after the last escaped one
      have hlast : pos < s.length := by omega
      have hplain := e3 pos hlast (Nat.le_refl _)
      have hdrop : s.drop pos = [s[pos]] := by
        rw [List.drop_eq_getElem_cons hlast, List.drop_eq_nil_of_le (by omega)]
      have hs : LosesLast mode s := by
        refine ⟨s.take (pos - 1), s[pos - 1], s[pos], ?_, hesc, hplain⟩
        conv => lhs; rw [← List.take_append_drop (pos - 1) s]
        rw [List.drop_eq_getElem_cons (by omega)]
        have : pos - 1 + 1 = pos := by omega
        rw [this, hdrop]
      rw [if_neg (by omega)]
      exact ⟨fun h => absurd hs h, fun _ => ⟨s[pos], by rw [← e1, hdrop]⟩⟩
    · have hw : (if (pos : Int) < (s.length : Int) - 1 then w ++ s.drop pos else w) = escWrite mode s := by
        split
        · exact e1
        · have : pos = s.length := by omega
          rw [← e1, this]; simp
      simp only [hw]
      refine ⟨fun _ => trivial, ?_⟩
      rintro ⟨p, c, d, rfl, hc, hd⟩
      exfalso
      simp only [List.length_append, List.length_cons, List.length_nil] at hl e2
      have h1 : pos ≤ p.length → False := fun h => by
        have := e3 p.length (by simp) h
        simp [hc] at this
      have h2 : pos = p.length + 2 := by
        have : ¬ pos ≤ p.length := h1
        omega
      subst h2
      have : shouldEscape d mode = true := by simpa using hesc
      rw [hd] at this; cases this

/-- C18 where it holds: `QueryTo` appends exactly `Query(s)` unless a lone plain byte
follows the last escaped byte.  Missing from the full claim: that excluded case,
in which it is false (`queryTo_loses`). -/
theorem queryTo_partial (s buf : Str) (h : ¬ LosesLast .queryComponent s) :
    ∃ e, Query s = .ok e ∧ QueryTo s buf = buf ++ e := by
  have := (escapeTo_exact s .queryComponent).1 h
  exact ⟨_, this.symm, rfl⟩

/-- As `queryTo_partial`, for `PathTo` and `Path`. -/
theorem pathTo_partial (s buf : Str) (h : ¬ LosesLast .path s) :
    ∃ e, Path s = .ok e ∧ PathTo s buf = buf ++ e := by
  have := (escapeTo_exact s .path).1 h
  exact ⟨_, this.symm, rfl⟩

/-- In the excluded case the full claim is false for every string and buffer. -/
theorem queryTo_loses (s buf : Str) (h : LosesLast .queryComponent s) :
    ∃ e d, Query s = .ok (e ++ [d]) ∧ QueryTo s buf = buf ++ e := by
  obtain ⟨d, hd⟩ := (escapeTo_exact s .queryComponent).2 h
  exact ⟨_, d, hd, rfl⟩

/-- Concrete witness against C18: `QueryTo("a b")` writes `a+`. -/
theorem queryTo_wrong : Query (b! "a b") = .ok (b! "a+b") ∧ QueryTo (b! "a b") [] = b! "a+" := by
  decide +kernel

example : LosesLast .queryComponent (b! "a b") := ⟨b! "a", 32, 98, rfl, by decide, by decide⟩
example : ¬ LosesLast .queryComponent (b! "a bc=") := by
  rintro ⟨p, c, d, h, hc, hd⟩
  have : d = 61 := by
    have := congrArg List.getLast? h
    simpa using this.symm
  subst this
  exact absurd hd (by decide)

end C18

namespace C19

/-- Unreserved characters of RFC 3986. -/
def Unreserved (c : UInt8) : Prop :=
  (97 ≤ c ∧ c ≤ 122) ∨ (65 ≤ c ∧ c ≤ 90) ∨ (48 ≤ c ∧ c ≤ 57) ∨ c = 45 ∨ c = 95 ∨ c = 46 ∨ c = 126

/-- Upper-case hex digit. -/
def Hex (c : UInt8) : Prop := (48 ≤ c ∧ c ≤ 57) ∨ (65 ≤ c ∧ c ≤ 70)

instance (c : UInt8) : Decidable (Unreserved c) := by unfold Unreserved; infer_instance
instance (c : UInt8) : Decidable (Hex c) := by unfold Hex; infer_instance

/-- Text made of unreserved characters, `+`, and `%` with two upper-case hex digits. -/
inductive Safe : Str → Prop
  | nil : Safe []
  | plain (c t) : Unreserved c → Safe t → Safe (c :: t)
  | plus (t) : Safe t → Safe (43 :: t)
  | hex (a b t) : Hex a → Hex b → Safe t → Safe (37 :: a :: b :: t)

theorem hexDigits : ∀ c : UInt8, Hex (upperHex (c >>> 4)) ∧ Hex (upperHex (c &&& 15)) := by
  apply byte_forall
  decide +kernel

theorem plain_unreserved : ∀ c : UInt8, shouldEscape c .queryComponent = false → Unreserved c := by
  apply byte_forall
  decide +kernel

/-- The output of `Query` is safe for every byte string. -/
theorem query_safe (s : Str) : ∃ e, Query s = .ok e ∧ Safe e := by
  refine ⟨_, escape_eq s .queryComponent, ?_⟩
  induction s with
  | nil => exact .nil
  | cons c s ih =>
    rw [escWrite]
    split
    · exact .plus _ ih
    · split
      · exact .hex _ _ _ (hexDigits c).1 (hexDigits c).2 ih
      · rename_i h
        exact .plain _ _ (plain_unreserved c (by simpa using h)) ih

/-- Different strings have different escapes. -/
theorem query_injective (s t : Str) (h : Query s = Query t) : s = t := by
  obtain ⟨e, he, hs⟩ := C17.unescape_query s
  obtain ⟨f, hf, ht⟩ := C17.unescape_query t
  rw [he, hf] at h
  injection h with h
  rw [← hs, ← ht, h]

/-- Consequence used by the tag code: escaped text has none of the delimiters of a
tagged path. -/
theorem query_no_delims (s : Str) : ∃ e, Query s = .ok e ∧
    (∀ c ∈ e, c ≠ 61 ∧ c ≠ 38 ∧ c ≠ 59 ∧ c ≠ 63) := by
  obtain ⟨e, he, hsafe⟩ := query_safe s
  refine ⟨e, he, ?_⟩
  clear he
  have hu : ∀ c, Unreserved c → c ≠ 61 ∧ c ≠ 38 ∧ c ≠ 59 ∧ c ≠ 63 := by
    apply byte_forall; decide +kernel
  have hh : ∀ c, Hex c → c ≠ 61 ∧ c ≠ 38 ∧ c ≠ 59 ∧ c ≠ 63 := by
    apply byte_forall; decide +kernel
  induction hsafe with
  | nil => simp
  | plain c t h _ ih =>
    intro x hx
    rcases List.mem_cons.mp hx with rfl | hx
    · exact hu _ h
    · exact ih x hx
  | plus t _ ih =>
    intro x hx
    rcases List.mem_cons.mp hx with rfl | hx
    · decide
    · exact ih x hx
  | hex a b t ha hb _ ih =>
    intro x hx
    simp only [List.mem_cons] at hx
    rcases hx with rfl | rfl | rfl | hx
    · decide
    · exact hh _ ha
    · exact hh _ hb
    · exact ih x hx

example : Query (b! "k=v&x;y?") = .ok (b! "k%3Dv%26x%3By%3F") := by decide +kernel
example : Query (b! "a") ≠ Query (b! "b") := by decide +kernel

end C19
namespace C48

/-- The value of a hexadecimal digit of either case. -/
def digit (c : Char) : Option Nat :=
  if c ∈ "0123456789".toList then some (c.toNat - '0'.toNat)
  else if c ∈ "abcdef".toList then some (10 + (c.toNat - 'a'.toNat))
  else if c ∈ "ABCDEF".toList then some (10 + (c.toNat - 'A'.toNat))
  else none

/-- The value of a byte read as hexadecimal digit. -/
def byteDigit (b : UInt8) : Option Nat := digit (Char.ofNat b.toNat)

example : byteDigit 102 = some 15 ∧ byteDigit 70 = some 15 ∧ byteDigit 55 = some 7 ∧
    byteDigit 103 = none := by decide

/-- `Decodes s u`: reading `s` from left to right, `+` is a space, `%` with two hexadecimal digits
is the byte, everything else stands for itself. -/
inductive Decodes : Str → Str → Prop
  | nil : Decodes [] []
  | plus {t u} : Decodes t u → Decodes (43 :: t) (32 :: u)
  | escape {a b t u x y} : byteDigit a = some x → byteDigit b = some y → Decodes t u →
      Decodes (37 :: a :: b :: t) (UInt8.ofNat (16 * x + y) :: u)
  | other {c t u} : c ≠ 43 → (c = 37 → ∀ a b r, t = a :: b :: r →
      byteDigit a = none ∨ byteDigit b = none) → Decodes t u → Decodes (c :: t) (c :: u)

/-- `%` is followed by two hexadecimal digits wherever it stands. -/
inductive WellFormed : Str → Prop
  | nil : WellFormed []
  | escape {a b t} : byteDigit a ≠ none → byteDigit b ≠ none → WellFormed t →
      WellFormed (37 :: a :: b :: t)
  | other {c t} : c ≠ 37 → WellFormed t → WellFormed (c :: t)

theorem ishex_digit : ∀ c : UInt8, ishex c = (byteDigit c).isSome := by
  apply byte_forall
  decide +kernel

theorem unhex_digit : ∀ c : UInt8, ∀ x, byteDigit c = some x → unhex c = UInt8.ofNat x ∧ x < 16 := by
  have : ∀ c : UInt8, (byteDigit c).all (fun x => unhex c = UInt8.ofNat x ∧ x < 16) = true := by
    apply byte_forall
    decide +kernel
  intro c x h
  have := this c
  rw [h] at this
  simpa using this

theorem hex_value : ∀ x < 16, ∀ y < 16,
    (UInt8.ofNat x <<< 4) ||| UInt8.ofNat y = UInt8.ofNat (16 * x + y) := by
  decide +kernel

theorem unescLoop_escape {a b : UInt8} {x y : Nat} (ha : byteDigit a = some x)
    (hb : byteDigit b = some y) (t : Str) :
    unescLoop (37 :: a :: b :: t) = UInt8.ofNat (16 * x + y) :: unescLoop t := by
  obtain ⟨h1, h2⟩ := unhex_digit a x ha
  obtain ⟨h3, h4⟩ := unhex_digit b y hb
  rw [unescLoop, if_pos (by rw [ishex_digit, ishex_digit, ha, hb]; rfl), h1, h3, hex_value x h2 y h4]

/-- There is one way to decode a string. -/
theorem Decodes.unique {s u v : Str} (h : Decodes s u) (h' : Decodes s v) : u = v := by
  induction h generalizing v with
  | nil => cases h'; rfl
  | plus _ ih =>
    cases h' with
    | plus h' => rw [ih h']
    | other h1 => exact absurd rfl h1
  | escape ha hb _ ih =>
    cases h' with
    | escape ha' hb' h' =>
      rw [ha] at ha'; rw [hb] at hb'
      cases ha'; cases hb'
      rw [ih h']
    | other _ h2 _ =>
      rcases h2 rfl _ _ _ rfl with h | h
      · rw [h] at ha; cases ha
      · rw [h] at hb; cases hb
  | other h1 h2 _ ih =>
    cases h' with
    | plus _ => exact absurd rfl h1
    | escape ha hb _ =>
      rcases h2 rfl _ _ _ rfl with h | h
      · rw [h] at ha; cases ha
      · rw [h] at hb; cases hb
    | other _ _ h' => rw [ih h']

/-- Full statement (not true of the code): `Unescape s` is the decoding of `s`, for every `s`.
Here for strings in which every `%` starts an escape; see `bad_escape_wrong` for the others. -/
theorem unescape_partial (s : Str) (h : WellFormed s) : Decodes s (Unescape s) := by
  rw [Unescape_eq]
  induction h with
  | nil => exact .nil
  | escape ha hb _ ih =>
    obtain ⟨x, hx⟩ := Option.ne_none_iff_exists'.1 ha
    obtain ⟨y, hy⟩ := Option.ne_none_iff_exists'.1 hb
    rw [unescLoop_escape hx hy]
    exact .escape hx hy ih
  | @other c t hc _ ih =>
    by_cases h43 : c = 43
    · subst h43
      rw [unescLoop]
      exact .plus ih
    · rw [unescLoop]
      · exact .other h43 (fun h => absurd h hc) ih
      all_goals simp_all

/-- What the code does with every string: a `%` that starts no escape is copied together
with the two bytes after it, even if these are `%` or `+`. -/
inductive DecodesThree : Str → Str → Prop
  | nil : DecodesThree [] []
  | plus {t u} : DecodesThree t u → DecodesThree (43 :: t) (32 :: u)
  | escape {a b t u x y} : byteDigit a = some x → byteDigit b = some y → DecodesThree t u →
      DecodesThree (37 :: a :: b :: t) (UInt8.ofNat (16 * x + y) :: u)
  | bad {a b t u} : byteDigit a = none ∨ byteDigit b = none → DecodesThree t u →
      DecodesThree (37 :: a :: b :: t) (37 :: a :: b :: u)
  | short {t} : t.length < 2 → DecodesThree (37 :: t) (37 :: t)
  | other {c t u} : c ≠ 43 → c ≠ 37 → DecodesThree t u → DecodesThree (c :: t) (c :: u)

/-- The behaviour on every byte string. -/
theorem unescape_exact (s u : Str) : Unescape s = u ↔ DecodesThree s u := by
  rw [Unescape_eq]
  constructor
  · rintro rfl
    fun_induction unescLoop s with
    | case1 => exact .nil
    | case2 a b t h ih =>
      simp only [Bool.and_eq_true, ishex_digit, Option.isSome_iff_exists] at h
      obtain ⟨⟨x, hx⟩, y, hy⟩ := h
      have := unescLoop_escape hx hy t
      rw [unescLoop, if_pos (by rw [ishex_digit, ishex_digit, hx, hy]; rfl)] at this
      rw [this]
      exact .escape hx hy ih
    | case3 a b t h ih =>
      refine .bad ?_ ih
      rw [ishex_digit, ishex_digit] at h
      cases ha : byteDigit a <;> cases hb : byteDigit b <;> simp_all
    | case4 t h =>
      refine .short ?_
      match t with
      | [] => simp
      | [_] => simp
      | a :: b :: r => exact absurd rfl (h a b r)
    | case5 t ih => exact .plus ih
    | case6 c t h1 h2 h3 ih => exact .other (fun h => h3 (by rw [h])) (fun h => h2 (by rw [h])) ih
  · intro h
    induction h with
    | nil => rfl
    | plus _ ih => rw [unescLoop, ih]
    | escape ha hb _ ih => rw [unescLoop_escape ha hb, ih]
    | bad h _ ih =>
      rw [unescLoop, if_neg, ih]
      rw [ishex_digit, ishex_digit]
      rcases h with h | h <;> simp [h]
    | @short t h =>
      match t with
      | [] => rfl
      | [_] => simp [unescLoop]
      | a :: b :: r => simp only [List.length_cons] at h; omega
    | other h1 h2 _ ih =>
      rw [unescLoop, ih] <;> simp_all

/-- `%%41` should be `%A`, and `%+1` should be `% 1`. -/
theorem bad_escape_wrong :
    Decodes (b!"%%41") (b!"%A") ∧ Unescape (b!"%%41") = b!"%%41" ∧
    Decodes (b!"%+1") (b!"% 1") ∧ Unescape (b!"%+1") = b!"%+1" := by
  refine ⟨.other (by decide) (fun _ a b r h => ?_) (.escape (x := 4) (y := 1) (by decide) (by decide) .nil),
    by decide +kernel, .other (by decide) (fun _ a b r h => ?_)
      (.plus (.other (by decide) (fun h => absurd h (by decide)) .nil)), by decide +kernel⟩
  · cases h; left; decide
  · cases h; left; decide

example : WellFormed (b!"a%2b+%Fe") ∧ Unescape (b!"a%2b+%Fe") = [97, 43, 32, 0xfe] :=
  ⟨.other (by decide) (.escape (by decide) (by decide) (.other (by decide)
    (.escape (by decide) (by decide) .nil))), by decide +kernel⟩

end C48

end GoMatcher
