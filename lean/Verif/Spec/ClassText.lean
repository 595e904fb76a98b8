/-!
# Specification: how the text between `[` and `]` is read

`-` between two characters makes a range, several `-` count as one.  A `-` at the start, at the
end, or directly after a range is skipped.  U+FFFD is skipped too, unless it ends a range.
A single character `c` is the range from `c` to `c`.
-/

namespace GoMatcher

/-- `Reads cs es`: the text `cs` lists the ranges `es`. -/
inductive Reads : List Char → List (Char × Char) → Prop
  | nil : Reads [] []
  | skip {r cs es} : r = '-' ∨ r = '�' → Reads cs es → Reads (r :: cs) es
  | single {c cs es} : c ≠ '-' → c ≠ '�' → cs.head? ≠ some '-' → Reads cs es →
      Reads (c :: cs) ((c, c) :: es)
  | trailing {c} (k : Nat) : c ≠ '-' → c ≠ '�' →
      Reads (c :: '-' :: List.replicate k '-') [(c, c)]
  | range {c d cs es} (k : Nat) : c ≠ '-' → c ≠ '�' → d ≠ '-' → Reads cs es →
      Reads (c :: '-' :: (List.replicate k '-' ++ d :: cs)) ((c, d) :: es)

end GoMatcher
