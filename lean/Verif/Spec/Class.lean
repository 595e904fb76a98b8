/-!
# Specification: character classes

A class is written as single characters and ranges `a-b`.
-/

namespace GoMatcher

/-- One element of a character class. -/
inductive ClassElt where
  | one (c : Char)
  | range (a b : Char)
  deriving DecidableEq, Repr

namespace ClassElt

/-- The class text: `c` or `a-b`. -/
def render : ClassElt → List Char
  | one c => [c]
  | range a b => [a, '-', b]

/-- Code point `c` belongs to the element. -/
def Mem (c : Nat) : ClassElt → Prop
  | one d => c = d.toNat
  | range a b => a.toNat ≤ c ∧ c ≤ b.toNat

instance (c : Nat) (e : ClassElt) : Decidable (Mem c e) := by
  cases e <;> unfold Mem <;> infer_instance

/-- Number of bytes of a code point in UTF-8 (no surrogates here). -/
def width (c : Nat) : Nat :=
  if c < 0x80 then 1 else if c < 0x800 then 2 else if c < 0x10000 then 3 else 4

/-- Elements the class syntax can express: `-` is the range operator, U+FFFD is
not supported, a range must not be reversed, and both ends must have the same
UTF-8 width (otherwise the glob is refused). -/
def Ok : ClassElt → Prop
  | one c => c ≠ '-' ∧ c.toNat ≠ 0xFFFD
  | range a b => a ≠ '-' ∧ b ≠ '-' ∧ a.toNat ≠ 0xFFFD ∧ b.toNat ≠ 0xFFFD ∧
      a.toNat ≤ b.toNat ∧ width a.toNat = width b.toNat

instance (e : ClassElt) : Decidable (Ok e) := by
  cases e <;> unfold Ok <;> infer_instance

end ClassElt

/-- Code point `c` belongs to the class. -/
def ClassMem (es : List ClassElt) (c : Nat) : Prop := ∃ e ∈ es, e.Mem c

end GoMatcher
