import Verif.Props.C17_C19_Escape

/-! # C60: what escaping writes for each byte -/

namespace GoMatcher
open Escape
namespace C60

/-- The bytes of a text of ASCII characters. -/
def bytes (s : String) : Str := s.toList.map fun c => UInt8.ofNat c.toNat

/-- `%` and the two hexadecimal digits of the byte, the high one first. -/
def percent (c : UInt8) : Str :=
  37 :: (bytes "0123456789ABCDEF")[c.toNat / 16]?.toList ++
    (bytes "0123456789ABCDEF")[c.toNat % 16]?.toList

/-- Letters, digits and `-_.~`. -/
def kept : Str :=
  bytes "ABCDEFGHIJKLMNOPQRSTUVWXYZabcdefghijklmnopqrstuvwxyz0123456789-_.~"

/-- What `Query` makes of one byte. -/
def queryByte (c : UInt8) : Str :=
  if c ∈ kept then [c] else if c = 32 then bytes "+" else percent c

/-- What `Path` makes of one byte. -/
def pathByte (c : UInt8) : Str :=
  if c ∈ kept ∨ c ∈ bytes "$&+,/:;=@" then [c] else percent c

theorem escWrite_query_byte : ∀ c : UInt8, escWrite .queryComponent [c] = queryByte c := by
  apply byte_forall
  decide +kernel

theorem escWrite_path_byte : ∀ c : UInt8, escWrite .path [c] = pathByte c := by
  apply byte_forall
  decide +kernel

theorem escWrite_bytes (mode : Mode) (s : Str) :
    escWrite mode s = s.flatMap fun c => escWrite mode [c] := by
  induction s with
  | nil => rfl
  | cons c s ih =>
    rw [List.flatMap_cons, ← ih]
    simp only [escWrite]
    split
    · rfl
    · split
      · simp
      · rfl

/-- `Query` works byte by byte: letters, digits and `-_.~` stay, a blank becomes `+`, every other
byte becomes `%` and two upper case digits. -/
theorem query_exact (s : Str) : Query s = .ok (s.flatMap queryByte) := by
  rw [Query, escape_eq, escWrite_bytes]
  simp only [escWrite_query_byte]

/-- `Path` works byte by byte: letters, digits and `-_.~$&+,/:;=@` stay, every other byte becomes
`%` and two upper case digits. -/
theorem path_exact (s : Str) : Path s = .ok (s.flatMap pathByte) := by
  rw [Path, escape_eq, escWrite_bytes]
  simp only [escWrite_path_byte]

/-- The two streaming escapers at once: `f` is what the escaper makes of one byte. -/
theorem to_exact (mode : Mode) (f : UInt8 → Str) (s : Str)
    (hk : ∀ c, shouldEscape c mode = true ↔ f c ≠ [c]) (he : escape s mode = .ok (s.flatMap f)) :
    (∀ p c d, s = p ++ [c, d] → f c ≠ [c] → f d = [d] →
      escapeTo s mode = (p ++ [c]).flatMap f) ∧
    ((∀ p c d, s = p ++ [c, d] → f c = [c] ∨ f d ≠ [d]) → escapeTo s mode = s.flatMap f) := by
  have hx := C18.escapeTo_exact s mode
  constructor
  · intro p c d e h1 h2
    have hd : shouldEscape d mode = false := by
      cases h : shouldEscape d mode with
      | false => rfl
      | true => exact absurd h2 ((hk d).1 h)
    obtain ⟨d', hd'⟩ := hx.2 ⟨p, c, d, e, (hk c).2 h1, hd⟩
    rw [he, R.ok.injEq] at hd'
    have e2 : s.flatMap f = (p ++ [c]).flatMap f ++ [d] := by
      rw [e, show p ++ [c, d] = (p ++ [c]) ++ [d] by simp, List.flatMap_append (ys := [d])]
      simp [h2]
    rw [e2] at hd'
    exact (List.append_inj_left' hd' rfl).symm
  · intro h
    have := hx.1 (by
      rintro ⟨p, c, d, e, h1, h2⟩
      rcases h p c d e with h | h
      · exact (hk c).1 h1 h
      · rw [(hk d).2 h] at h2; cases h2)
    rw [he, R.ok.injEq] at this
    exact this

/-- `QueryTo` appends the same text, unless the last byte stays and the one before it does not; then
the last byte is missing. -/
theorem queryTo_exact (s buf : Str) :
    (∀ p c d, s = p ++ [c, d] → c ∉ kept → d ∈ kept →
      QueryTo s buf = buf ++ (p ++ [c]).flatMap queryByte) ∧
    ((∀ p c d, s = p ++ [c, d] → c ∈ kept ∨ d ∉ kept) →
      QueryTo s buf = buf ++ s.flatMap queryByte) := by
  have hk : ∀ c : UInt8, shouldEscape c .queryComponent = true ↔ queryByte c ≠ [c] := by
    apply byte_forall; decide +kernel
  have hm : ∀ c : UInt8, c ∈ kept ↔ queryByte c = [c] := by
    apply byte_forall; decide +kernel
  have h := to_exact .queryComponent queryByte s hk (query_exact s)
  unfold QueryTo
  refine ⟨fun p c d e h1 h2 => ?_, fun hh => ?_⟩
  · rw [h.1 p c d e (fun x => h1 ((hm c).2 x)) ((hm d).1 h2)]
  · rw [h.2 (fun p c d e => (hh p c d e).imp (hm c).1 (fun x y => x ((hm d).2 y)))]

/-- The same for `PathTo`. -/
theorem pathTo_exact (s buf : Str) :
    (∀ p c d, s = p ++ [c, d] → pathByte c ≠ [c] → pathByte d = [d] →
      PathTo s buf = buf ++ (p ++ [c]).flatMap pathByte) ∧
    ((∀ p c d, s = p ++ [c, d] → pathByte c = [c] ∨ pathByte d ≠ [d]) →
      PathTo s buf = buf ++ s.flatMap pathByte) := by
  have hk : ∀ c : UInt8, shouldEscape c .path = true ↔ pathByte c ≠ [c] := by
    apply byte_forall; decide +kernel
  have h := to_exact .path pathByte s hk (path_exact s)
  unfold PathTo
  refine ⟨fun p c d e h1 h2 => ?_, fun hh => ?_⟩
  · rw [h.1 p c d e h1 h2]
  · rw [h.2 hh]

example : Query (b! "a9 +é/") = .ok (b! "a9+%2B%C3%A9%2F") := by decide +kernel
example : Path (b! "a9 +é/?") = .ok (b! "a9%20+%C3%A9/%3F") := by decide +kernel
example : PathTo (b! "x y") (b! "buf") = b! "bufx%20" := by decide +kernel

end C60
end GoMatcher
