import Verif.Model.Random
import Verif.Model.Escape
import Verif.Model.TagTerm

/-! # The writers as programs on a shared `strings.Builder`

Elsewhere a writer is modelled by the text that it writes.  Here the same functions take the content
of the builder, write to it step by step and return the new content, with the slice
`buf.String()[l:]` that the code returns. -/

namespace GoMatcher

/-- The content of a `strings.Builder`.  `Grow` only reserves memory and is left out. -/
abbrev Builder := Str

namespace Builder

/-- `WriteByte`. -/
def writeByte (buf : Builder) (b : UInt8) : Builder := buf ++ [b]
/-- `WriteString`. -/
def writeStr (buf : Builder) (s : Str) : Builder := buf ++ s
/-- `WriteRune`, which writes U+FFFD for a number that is no rune. -/
def writeRune (buf : Builder) (r : Nat) : Builder := buf ++ encodeRune r
/-- `buf.String()[l:]`, with `l` an earlier length of the same builder. -/
def from_ (buf : Builder) (l : Nat) : Str := buf.drop l

/-- `for i := 0; i < n; i++ { buf.WriteByte(b) }` (any.go:27-29, star.go:29-31). -/
def writeBytes (b : UInt8) : Nat → Builder → Builder
  | 0, buf => buf
  | n + 1, buf => writeBytes b n (buf.writeByte b)

end Builder

namespace Escape

/-- `isPercentEscape` (unescape.go:33-35). -/
def isPercentEscape (s : Str) (i : Nat) : Bool :=
  match s[i + 1]?, s[i + 2]? with
  | some a, some b => ishex a && ishex b
  | _, _ => false

/-- The loop of `unescape` (unescape.go:44-62) at index `i`.  The first argument bounds the number of
rounds. -/
def unescapeAt (s : Str) : Nat → Nat → Builder → Builder
  | 0, _, sb => sb
  | k + 1, i, sb =>
    match s[i]? with
    | none => sb
    | some c =>
      if c = 37 then
        if s.length < i + 3 then sb.writeStr (s.drop i)
        else
          let sb := if !isPercentEscape s i then sb.writeStr ((s.drop i).take 3)
            else sb.writeByte ((unhex (s.getD (i + 1) 0) <<< 4) ||| unhex (s.getD (i + 2) 0))
          unescapeAt s k (i + 2 + 1) sb
      else if c = 43 then unescapeAt s k (i + 1) (sb.writeByte 32)
      else unescapeAt s k (i + 1) (sb.writeByte c)

/-- `unescape` (unescape.go:38-65): the slice returned and the builder. -/
def unescapeB (s : Str) (first : Nat) (sb : Builder) : Str × Builder :=
  let pos := sb.length
  let sb := sb.writeStr (s.take first)
  let sb := unescapeAt s (s.length - first) first sb
  (sb.from_ pos, sb)

/-- `UnescapeTo` (unescape.go:81-88). -/
def unescapeToB (s : Str) (sb : Builder) : Str × Builder :=
  match unescapeSet.index s with
  | none => (s, sb)
  | some first => unescapeB s first sb

/-- `UnescapeNameTo` (unescape.go:92-109): `(name, nameTag)` and the builder. -/
def unescapeNameToB (s : Str) (sb : Builder) : (Str × Str) × Builder :=
  match unescapeSet.index s with
  | none =>
    let pos := sb.length
    let sb := sb.writeStr (b! "__name__=")
    let e := sb.length
    let sb := sb.writeStr s
    ((sb.from_ e, sb.from_ pos), sb)
  | some first =>
    let pos := sb.length
    let sb := sb.writeStr (b! "__name__=")
    let r := unescapeB s first sb
    ((r.1, r.2.from_ pos), r.2)

end Escape

namespace ASCIISet

/-- The loop of `ASCIISet.WriteString` (asciiset.go:21-34) over the values of `i`, and the bytes
written after it (35-37). -/
def writeLoopB (s : ASCIISet) : List UInt8 → UInt8 → Builder → Builder
  | [], start, buf => if start ≠ 0 then buf.writeByte start else buf
  | i :: is, start, buf =>
    if s.contains i then writeLoopB s is (if start = 0 then i else start) buf
    else if start ≠ 0 then
      let buf := buf.writeByte start
      let buf := if i > start + 1 then (buf.writeByte 0x2D).writeByte (i - 1) else buf
      writeLoopB s is 0 buf
    else writeLoopB s is start buf

/-- `ASCIISet.WriteString` (asciiset.go:18-39). -/
def writeStringB (s : ASCIISet) (buf : Builder) : Builder :=
  if !s.isEmpty then writeLoopB s codes 0 buf else buf

/-- The loop of `ASCIISet.WriteStringAll` (asciiset.go:81-85) over the values of `i`. -/
def writeAllLoopB (s : ASCIISet) : List UInt8 → Builder → Builder
  | [], buf => buf
  | i :: is, buf => writeAllLoopB s is (if s.contains i then buf.writeByte i else buf)

/-- `ASCIISet.WriteStringAll` (asciiset.go:79-86). -/
def writeStringAllB (s : ASCIISet) (buf : Builder) : Builder :=
  writeAllLoopB s ((List.range' 1 126).map UInt8.ofNat) buf

/-- `ASCIISet.String` (asciiset.go:72-77). -/
def stringB (s : ASCIISet) : Str := s.writeStringB []

/-- `ASCIISet.StringAll` (asciiset.go:88-93). -/
def stringAllB (s : ASCIISet) : Str := s.writeStringAllB []

end ASCIISet

namespace RunesRanges

/-- The loop of `RunesRanges.WriteString` (utils/runesranges.go:160-166). -/
def writeRangesB : List RuneRange → Builder → Builder
  | [], buf => buf
  | r :: rs, buf =>
    let buf := buf.writeRune r.first
    let buf := if r.first ≠ r.last then (buf.writeRune 0x2D).writeRune r.last else buf
    writeRangesB rs buf

/-- `RunesRanges.WriteString` (utils/runesranges.go:157-168). -/
def writeStringB (rs : RunesRanges) (buf : Builder) : Builder :=
  let buf := buf.writeRune 0x5B
  let buf := rs.ascii.writeStringB buf
  let buf := writeRangesB rs.ranges buf
  buf.writeRune 0x5D

/-- `RunesRanges.String` (utils/runesranges.go:170-175). -/
def stringB (rs : RunesRanges) : Str := rs.writeStringB []

end RunesRanges

namespace Item

/-- The loop of `StringList.WriteString` (stringlist.go:116-121) at index `i`. -/
def writeValsB (minSize : Int) : Nat → List Str → Builder → Builder
  | _, [], buf => buf
  | i, s :: ss, buf =>
    let buf := if i > 0 ∨ minSize = 0 then buf.writeByte 44 else buf
    writeValsB minSize (i + 1) ss (buf.writeStr s)

mutual
/-- `WriteString` of the items (string.go:26-30, byte.go:21-25, rune.go:22-26, any.go:23-31,
star.go:24-33, items/runesranges.go:42-46, stringlist.go:113-124, group.go:34-45, chain.go:39-45):
the slice returned and the builder. -/
def writeStringB : Item → Builder → Str × Builder
  | .str s, buf =>
    let l := buf.length
    let buf := buf.writeStr s
    (buf.from_ l, buf)
  | .byte b, buf =>
    let l := buf.length
    let buf := buf.writeByte b
    (buf.from_ l, buf)
  | .rune r, buf =>
    let l := buf.length
    let buf := buf.writeRune r
    (buf.from_ l, buf)
  | .any n, buf =>
    let l := buf.length
    let buf := buf.writeBytes 63 n
    (buf.from_ l, buf)
  | .star n, buf =>
    let l := buf.length
    let buf := (buf.writeByte 42).writeBytes 63 n
    (buf.from_ l, buf)
  | .ranges rs, buf =>
    let l := buf.length
    let buf := rs.writeStringB buf
    (buf.from_ l, buf)
  | .list v, buf =>
    let l := buf.length
    let buf := (writeValsB v.minSize 0 v.vals (buf.writeByte 123)).writeByte 125
    (buf.from_ l, buf)
  | .group vals _ _, buf =>
    let l := buf.length
    let buf := (writeAltsB 0 vals (buf.writeByte 123)).writeByte 125
    (buf.from_ l, buf)
  | .chain items _ _, buf =>
    let l := buf.length
    let buf := writeItemsB items buf
    (buf.from_ l, buf)
/-- The loop of chain.go:41-43 and glob.go:274-276. -/
def writeItemsB : List Item → Builder → Builder
  | [], buf => buf
  | x :: xs, buf => writeItemsB xs (writeStringB x buf).2
/-- The loop of group.go:37-42 at index `i`. -/
def writeAltsB : Nat → List Item → Builder → Builder
  | _, [], buf => buf
  | i, x :: xs, buf =>
    let buf := if i > 0 then buf.writeByte 44 else buf
    writeAltsB (i + 1) xs (writeStringB x buf).2
end

/-- `String` of the items (string.go:32-35, byte.go:27-30, rune.go:28-31, any.go:33-36, star.go:35-38,
items/runesranges.go:48-51, stringlist.go:126-129, group.go:47-50, chain.go:47-50). -/
def stringB (it : Item) : Str := (it.writeStringB []).1

end Item

/-- `TaggedTerm.WriteString` (tagged_term.go:42-46). -/
def TTerm.writeStringB (t : TTerm) (buf : Builder) : Builder :=
  ((buf.writeStr t.key).writeStr t.op.text).writeStr t.value

/-- The loop of `TaggedTermList.WriteString` (tagged_term.go:107-114) at index `i`. -/
def writeTermsB : Nat → List TTerm → Builder → Builder
  | _, [], buf => buf
  | i, t :: ts, buf =>
    let buf := if i > 0 then buf.writeByte 44 else buf
    let buf := buf.writeByte 39
    let buf := t.writeStringB buf
    let buf := buf.writeByte 39
    writeTermsB (i + 1) ts buf

/-- `TaggedTermList.WriteString` (tagged_term.go:105-116). -/
def termsWriteB (ts : List TTerm) (buf : Builder) : Builder :=
  (writeTermsB 0 ts (buf.writeStr (b!"seriesByTag("))).writeStr (b!")")

end GoMatcher
