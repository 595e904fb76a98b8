import Verif.Spec.GlobLang

/-!
# Specification: globs whose normal form can be read back

The normal form (`Node`) of a glob is written from the parsed items.  Four things do not
survive this: a class with a single special character (`[*]` is written `*`), a class with
a run of characters that ends in DEL (the end of the run is lost), and classes whose runs
go across a change of UTF-8 width (the written range is refused by the parser).
-/

namespace GoMatcher

/-- The special characters. -/
def specials : List Char := ['[', ']', '{', '}', '*', '?']

/-- Nothing but the character `c`. -/
def ClassElt.only (c : Char) (e : ClassElt) : Bool := e = .one c || e = .range c c

/-- The class is read back as it was written. -/
def TidyClass (es : List ClassElt) : Prop :=
  (∀ c ∈ specials, es.all (ClassElt.only c) = false) ∧
  ¬ (ClassMem es 126 ∧ ClassMem es 127) ∧
  ¬ (ClassMem es 0x7FF ∧ ClassMem es 0x800) ∧
  ¬ (ClassMem es 0xFFFF ∧ ClassMem es 0x10000)

def Sub.Tidy : Sub → Prop
  | .cls es => TidyClass es
  | _ => True

def Tok.Tidy : Tok → Prop
  | .sub s => s.Tidy
  | .alt alts => ∀ a ∈ alts, ∀ s ∈ a, s.Tidy

/-- Tokens that can be written, without the demand that braces with wildcards have two
different alternatives. -/
def Tok.Written : Tok → Prop
  | .sub s => s.Ok false
  | .alt alts => alts ≠ [] ∧ ∀ a ∈ alts, ∀ s ∈ a, s.Ok true

/-- Two alternatives with different meaning. -/
def TwoMeanings (alts : List (List Sub)) : Prop :=
  ∃ a ∈ alts, ∃ b ∈ alts, ¬ ∀ cs, subsFit a cs ↔ subsFit b cs

instance (es : List ClassElt) (c : Nat) : Decidable (ClassMem es c) := by
  unfold ClassMem; infer_instance

instance (es : List ClassElt) : Decidable (TidyClass es) := by
  unfold TidyClass; infer_instance

instance (s : Sub) : Decidable s.Tidy := by
  cases s <;> unfold Sub.Tidy <;> infer_instance

instance (t : Tok) : Decidable t.Tidy := by
  cases t <;> unfold Tok.Tidy <;> infer_instance

end GoMatcher
