import Verif.Basic

/-!
# Go's `unicode/utf8`

Hand translation of the functions of Go's `unicode/utf8` package used by the
code (Go 1.18+ source, file `unicode/utf8/utf8.go`).  Runes are natural numbers.
-/

namespace GoMatcher

/-- `utf8.RuneError`. -/
def runeError : Nat := 0xFFFD

/-- Second byte range `acceptRanges[first[b0]>>4]` of `utf8.DecodeRuneInString`,
together with the sequence length `first[b0]&7`; `none` when `b0` is ASCII or
cannot start a sequence. -/
def leadInfo (b0 : Nat) : Option (Nat × Nat × Nat) :=
  if b0 < 0xC2 then none
  else if b0 ≤ 0xDF then some (2, 0x80, 0xBF)
  else if b0 = 0xE0 then some (3, 0xA0, 0xBF)
  else if b0 = 0xED then some (3, 0x80, 0x9F)
  else if b0 ≤ 0xEF then some (3, 0x80, 0xBF)
  else if b0 = 0xF0 then some (4, 0x90, 0xBF)
  else if b0 ≤ 0xF3 then some (4, 0x80, 0xBF)
  else if b0 = 0xF4 then some (4, 0x80, 0x8F)
  else none

/-- Continuation byte test `locb <= b && b <= hicb`. -/
def isCont (b : Nat) : Bool := 0x80 ≤ b && b ≤ 0xBF

/-- `utf8.DecodeRuneInString(s)` / `utf8.DecodeRune(b)`: rune and width;
`(RuneError, 0)` on empty input, `(RuneError, 1)` on an invalid sequence. -/
def decodeRune (s : Str) : Nat × Nat :=
  match s with
  | [] => (runeError, 0)
  | c0 :: t =>
    let b0 := c0.toNat
    if b0 < 0x80 then (b0, 1)
    else match leadInfo b0 with
      | none => (runeError, 1)
      | some (sz, lo, hi) =>
        match t with
        | [] => (runeError, 1)
        | c1 :: t1 =>
          let b1 := c1.toNat
          if b1 < lo || hi < b1 then (runeError, 1)
          else if sz = 2 then ((b0 - 0xC0) * 64 + (b1 - 0x80), 2)
          else match t1 with
            | [] => (runeError, 1)
            | c2 :: t2 =>
              let b2 := c2.toNat
              if !isCont b2 then (runeError, 1)
              else if sz = 3 then ((b0 - 0xE0) * 4096 + (b1 - 0x80) * 64 + (b2 - 0x80), 3)
              else match t2 with
                | [] => (runeError, 1)
                | c3 :: _ =>
                  let b3 := c3.toNat
                  if !isCont b3 then (runeError, 1)
                  else ((b0 - 0xF0) * 262144 + (b1 - 0x80) * 4096 + (b2 - 0x80) * 64
                    + (b3 - 0x80), 4)

/-- `utf8.ValidRune`. -/
def validRune (r : Nat) : Bool := r < 0xD800 || (0xE000 ≤ r && r ≤ 0x10FFFF)

/-- Bytes written by `utf8.AppendRune` / `string(r)` / `Builder.WriteRune(r)`;
surrogates and values above U+10FFFF are written as U+FFFD. -/
def encodeRune (r : Nat) : Str :=
  if r < 0x80 then [UInt8.ofNat r]
  else if r < 0x800 then
    [UInt8.ofNat (0xC0 + r / 64), UInt8.ofNat (0x80 + r % 64)]
  else if 0xD800 ≤ r ∧ r < 0xE000 ∨ 0x10FFFF < r then [0xEF, 0xBF, 0xBD]
  else if r < 0x10000 then
    [UInt8.ofNat (0xE0 + r / 4096), UInt8.ofNat (0x80 + r / 64 % 64),
      UInt8.ofNat (0x80 + r % 64)]
  else
    [UInt8.ofNat (0xF0 + r / 262144), UInt8.ofNat (0x80 + r / 4096 % 64),
      UInt8.ofNat (0x80 + r / 64 % 64), UInt8.ofNat (0x80 + r % 64)]

/-- `utf8.RuneLen(r)`; `-1` for an invalid rune. -/
def runeLen (r : Nat) : Int :=
  if r < 0x80 then 1
  else if r < 0x800 then 2
  else if 0xD800 ≤ r ∧ r < 0xE000 then -1
  else if r < 0x10000 then 3
  else if r ≤ 0x10FFFF then 4
  else -1

/-- `utf8.RuneStart(b)`. -/
def runeStart (b : UInt8) : Bool := !isCont b.toNat

/-- Backward scan of `utf8.DecodeLastRuneInString` over the reversed bytes that
precede the last one: how many of the at most `k` further bytes to include. -/
def lastScan : Nat → Str → Nat
  | 0, _ => 0
  | _ + 1, [] => 0
  | k + 1, b :: t => if runeStart b then 1 else 1 + lastScan k t

/-- `utf8.DecodeLastRuneInString(s)`. The Go loop walks `start` down from
`end-2` to `max(end-4,0)` and stops at a `RuneStart` byte; if none is found
`start` is `lim-1` (or 0), so one more byte is included, which makes the decoded
width differ from the distance and yields `(RuneError, 1)`; the model gives that
result directly. -/
def decodeLastRune (s : Str) : Nat × Nat :=
  match s.reverse with
  | [] => (runeError, 0)
  | l :: rest =>
    if l.toNat < 0x80 then (l.toNat, 1)
    else
      let k := 1 + lastScan 3 rest
      let r := decodeRune (s.drop (s.length - k))
      if r.2 = k then r else (runeError, 1)

/-- Go `for i, c := range s`: positions and runes. -/
def rangeStr (s : Str) : List (Nat × Nat) :=
  go s.length 0 s
where
  go : Nat → Nat → Str → List (Nat × Nat)
  | 0, _, _ => []
  | _ + 1, _, [] => []
  | f + 1, i, b :: t =>
    let r := decodeRune (b :: t)
    (i, r.1) :: go f (i + r.2) ((b :: t).drop r.2)

/-- UTF-8 text of a list of characters: the valid Go strings. -/
def utf8 (cs : List Char) : Str := cs.flatMap fun c => encodeRune c.toNat

end GoMatcher
