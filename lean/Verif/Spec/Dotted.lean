import Verif.Spec.GlobLang
import Verif.Utf8
import Verif.Proofs.Lists

/-! # Specification: dotted globs and dotted paths -/

namespace GoMatcher

/-- The text of a dotted glob, given by its parts. -/
def dottedText (gts : List (List Tok)) : Str := joinByte 46 (gts.map fun ts => utf8 (renderGlob ts))

/-- The path with the given parts. -/
def dottedPath (ps : List (List Char)) : Str := joinByte 46 (ps.map utf8)

/-- The meaning of a dotted glob: as many parts, none empty, each fits. -/
def DFits (gts : List (List Tok)) (ps : List (List Char)) : Prop :=
  gts.length = ps.length ∧ ∀ x ∈ gts.zip ps, x.2 ≠ [] ∧ Fits x.1 x.2

/-- Tokens that can be a part of a dotted glob. -/
def PartOk (ts : List Tok) : Prop :=
  (∀ t ∈ ts, t.Ok) ∧ renderGlob ts ≠ [] ∧ '.' ∉ renderGlob ts

/-- Parts of a path: at least one, no dot inside, the last one not empty (a trailing dot of
the path is written separately). -/
def PathOk (ps : List (List Char)) : Prop :=
  ps ≠ [] ∧ (∀ p ∈ ps, '.' ∉ p) ∧ ps.getLast? ≠ some []

/-- The glob describes arbitrarily long texts. -/
def Unbounded (ts : List Tok) : Prop := ∀ n, ∃ cs, Fits ts cs ∧ n < (utf8 cs).length

end GoMatcher
