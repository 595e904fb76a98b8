import Verif.Model.AsciiSet

/-! # Model of URL escaping (`pkg/escape`) -/

namespace GoMatcher
namespace Escape

/-- `encoding` (url.go:15-25), all seven modes. -/
inductive Mode where
  | path | pathSegment | host | zone | userPassword | queryComponent | fragment
  deriving DecidableEq, Repr

/-- First test of `shouldEscape` (url.go:34): ASCII letters and digits. -/
def alnum (c : UInt8) : Bool :=
  (97 ≤ c && c ≤ 122) || (65 ≤ c && c ≤ 90) || (48 ≤ c && c ≤ 57)

/-- `shouldEscape` (url.go:32-107). -/
def shouldEscape (c : UInt8) (mode : Mode) : Bool :=
  if alnum c then false
  else if (mode = .host ∨ mode = .zone) ∧ c ∈ b! "!$&'()*+,;=:[]<>\"" then false
  else if c ∈ b! "-_.~" then false
  else if c ∈ b! "$&+,/:;=?@" ∧ mode ≠ .host ∧ mode ≠ .zone then
    match mode with
    | .path => c = 63
    | .pathSegment => c = 47 ∨ c = 59 ∨ c = 44 ∨ c = 63
    | .userPassword => c = 64 ∨ c = 47 ∨ c = 63 ∨ c = 58
    | .queryComponent => true
    | _ => false
  else if mode = .fragment ∧ c ∈ b! "!()*" then false
  else true

/-- `"0123456789ABCDEF"[n]` (url.go:154-155), for `n < 16`. -/
def upperHex (n : UInt8) : UInt8 := (b! "0123456789ABCDEF").getD n.toNat 0

/-- `'%'` and the two digits written by url.go:153-155. -/
def hexEscape (c : UInt8) : Str := [37, upperHex (c >>> 4), upperHex (c &&& 15)]

/-- Counting loop of `escape` (url.go:111-120): `(spaceCount, hexCount)`. -/
def escCount (mode : Mode) : Str → Nat × Nat → Nat × Nat
  | [], st => st
  | c :: s, (sp, hx) =>
    if shouldEscape c mode then
      if c = 32 ∧ mode = .queryComponent then escCount mode s (sp + 1, hx)
      else escCount mode s (sp, hx + 1)
    else escCount mode s (sp, hx)

/-- Writing loop of `escape` (url.go:147-161).  The Go code fills a buffer of length
`len(s) + 2*hexCount` by index; the model produces the written bytes. `escape`
below checks that they fill that buffer exactly. -/
def escWrite (mode : Mode) : Str → Str
  | [] => []
  | c :: s =>
    if c = 32 ∧ mode = .queryComponent then 43 :: escWrite mode s
    else if shouldEscape c mode then hexEscape c ++ escWrite mode s
    else c :: escWrite mode s

/-- Writing `w` by index into a fresh buffer of `n` bytes and converting the whole
buffer to a string (url.go:126-162): panics when `w` is longer than the buffer,
the tail stays 0 when it is shorter. -/
def fillBuffer (n : Nat) (w : Str) : R Str :=
  if w.length ≤ n then .ok (w ++ List.replicate (n - w.length) 0) else .panic

/-- `escape` (url.go:109-163). -/
def escape (s : Str) (mode : Mode) : R Str :=
  let (spaceCount, hexCount) := escCount mode s (0, 0)
  if spaceCount = 0 ∧ hexCount = 0 then .ok s
  else if hexCount = 0 then .ok (s.map fun c => if c = 32 then 43 else c)
  else fillBuffer (s.length + 2 * hexCount) (escWrite mode s)

/-- Loop of `escapeTo` (url.go:166-180): `i` is the loop variable, `pos` the start of
the not yet written text, `s` the whole string.  Returns what was written and the
final `pos`. -/
def escapeToLoop (s : Str) (mode : Mode) (i pos : Nat) : Str × Nat :=
  match h : s[i]? with
  | none => ([], pos)
  | some c =>
    if shouldEscape c mode then
      let esc := if c = 32 ∧ mode = .queryComponent then [43] else hexEscape c
      let r := escapeToLoop s mode (i + 1) (i + 1)
      ((s.drop pos).take (i - pos) ++ esc ++ r.1, r.2)
    else escapeToLoop s mode (i + 1) pos
termination_by s.length - i
decreasing_by
  all_goals
    have := List.getElem?_eq_some_iff.mp h
    obtain ⟨h, _⟩ := this
    omega

/-- `escapeTo` (url.go:165-188): the text appended to the buffer. -/
def escapeTo (s : Str) (mode : Mode) : Str :=
  let (w, pos) := escapeToLoop s mode 0 0
  if pos = 0 then w ++ s
  else if (pos : Int) < (s.length : Int) - 1 then w ++ s.drop pos
  else w

/-- `Path` (escape.go:8-10). -/
def Path (s : Str) : R Str := escape s .path
/-- `PathTo` (escape.go:12-14). -/
def PathTo (s : Str) (buf : Str) : Str := buf ++ escapeTo s .path
/-- `Query` (escape.go:17-19). -/
def Query (s : Str) : R Str := escape s .queryComponent
/-- `QueryTo` (escape.go:21-23). -/
def QueryTo (s : Str) (buf : Str) : Str := buf ++ escapeTo s .queryComponent

/-- `ishex` (unescape.go:9-19). -/
def ishex (c : UInt8) : Bool :=
  (48 ≤ c && c ≤ 57) || (97 ≤ c && c ≤ 102) || (65 ≤ c && c ≤ 70)

/-- `unhex` (unescape.go:21-31). -/
def unhex (c : UInt8) : UInt8 :=
  if 48 ≤ c && c ≤ 57 then c - 48
  else if 97 ≤ c && c ≤ 102 then c - 97 + 10
  else if 65 ≤ c && c ≤ 70 then c - 65 + 10
  else 0

/-- Loop of `unescape` (unescape.go:44-62) from position `first` on: `s` is `s[i:]`. -/
def unescLoop : Str → Str
  | [] => []
  | 37 :: a :: b :: t =>
    if ishex a && ishex b then ((unhex a <<< 4) ||| unhex b) :: unescLoop t
    else 37 :: a :: b :: unescLoop t
  | 37 :: t => 37 :: t
  | 43 :: t => 32 :: unescLoop t
  | c :: t => c :: unescLoop t

/-- `unescape` (unescape.go:38-65): the returned string is what was appended to the
builder. -/
def unescape (s : Str) (first : Nat) : Str := s.take first ++ unescLoop (s.drop first)

/-- `unescapeSet` (unescape.go:67). -/
def unescapeSet : ASCIISet := (ASCIISet.make (b! "%+")).1

/-- `Unescape` (unescape.go:69-77) and the result of `UnescapeTo` (81-88). -/
def Unescape (s : Str) : Str :=
  match unescapeSet.index s with
  | none => s
  | some first => unescape s first

/-- `UnescapeNameTo` (unescape.go:92-109): `(name, nameTag)`. -/
def UnescapeNameTo (s : Str) : Str × Str :=
  match unescapeSet.index s with
  | none => (s, b! "__name__=" ++ s)
  | some first => (unescape s first, b! "__name__=" ++ unescape s first)

end Escape
end GoMatcher
