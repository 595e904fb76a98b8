import Verif.Spec.Tidy

/-!
# Specification: globs up to the way they are written

Only globs whose braces hold words without wildcards are meant.  Two of them are written forms of the
same thing if they have the same literal characters, the same sets of characters, the same sets of words,
and in the same places runs of wildcards that agree in the number of `?` and in whether there is a `*`.
Nothing here refers to the parser.
-/

namespace GoMatcher

/-- A piece of a glob: a character, a run of `?` and `*`, a set of characters, or a set of words. -/
inductive GPiece where
  | ch (c : Char)
  | run (star : Bool) (n : Nat)
  | set (m : Nat → Bool)
  | words (m : List Char → Bool)

/-- The character of a class with one member. -/
def classOne : List ClassElt → Option Char
  | .one c :: es => if es.all (ClassElt.only c) then some c else none
  | .range a b :: es => if a = b ∧ es.all (ClassElt.only a) then some a else none
  | [] => none

def Sub.piece : Sub → GPiece
  | .lit c => .ch c
  | .any => .run false 1
  | .star => .run true 0
  | .cls es =>
    match classOne es with
    | some c => .ch c
    | none => .set fun c => decide (ClassMem es c)

/-- Neighbouring wildcards make one run. -/
def GPiece.put : GPiece → List GPiece → List GPiece
  | .run s n, .run s' n' :: r => .run (s || s') (n + n') :: r
  | p, r => p :: r

/-- The character of a literal. -/
def Sub.char? : Sub → Option Char
  | .lit c => some c
  | _ => none

/-- The word of braces that hold only one, perhaps repeated. -/
def oneWord : List (List Sub) → Option (List Char)
  | [] => none
  | a :: l => if l.all (fun b => decide (b = a)) then some (a.filterMap Sub.char?) else none

/-- The pieces of a token: braces with one word are that word. -/
def Tok.pieces : Tok → List GPiece
  | .sub s => [s.piece]
  | .alt alts =>
    match oneWord alts with
    | some w => w.map .ch
    | none => [.words fun w => decide (w.map Sub.lit ∈ alts)]

/-- The pieces of a glob. -/
def pieces (ts : List Tok) : List GPiece := (ts.flatMap Tok.pieces).foldr GPiece.put []

/-- Braces hold words without wildcards. -/
def Tok.Wordy : Tok → Prop
  | .sub _ => True
  | .alt alts => plainAlts alts = true

instance (t : Tok) : Decidable t.Wordy := by
  cases t <;> unfold Tok.Wordy <;> infer_instance

/-- No star, and braces hold words of which none is the beginning of another one. -/
def Tok.OneWay : Tok → Prop
  | .sub s => s ≠ .star
  | .alt alts => plainAlts alts = true ∧ ∀ a ∈ alts, ∀ b ∈ alts, a <+: b → a = b

instance (t : Tok) : Decidable t.OneWay := by
  cases t <;> unfold Tok.OneWay <;> infer_instance

end GoMatcher
