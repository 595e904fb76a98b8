import Verif.Model.Expand

/-! # Model checks against the test table of `/repo/expand/expand_test.go` (TestExpand)

These are tests of the model, not proofs of properties. -/

namespace GoMatcher.Tests

-- {b,c} max -1 depth 0
example : expandGlob [123, 98, 44, 99, 125] (-1) 0 = .ok [[98], [99]] := by decide +kernel
-- a{b,c}d max -1 depth 0
example : expandGlob [97, 123, 98, 44, 99, 125, 100] (-1) 0 = .ok [[97, 98, 100], [97, 99, 100]] := by decide +kernel
-- a{,b,c}d max -1 depth 0
example : expandGlob [97, 123, 44, 98, 44, 99, 125, 100] (-1) 0 = .ok [[97, 100], [97, 98, 100], [97, 99, 100]] := by decide +kernel
-- a{b,,c}d max -1 depth 0
example : expandGlob [97, 123, 98, 44, 44, 99, 125, 100] (-1) 0 = .ok [[97, 98, 100], [97, 100], [97, 99, 100]] := by decide +kernel
-- a{b,c,}d max -1 depth 0
example : expandGlob [97, 123, 98, 44, 99, 44, 125, 100] (-1) 0 = .ok [[97, 98, 100], [97, 99, 100], [97, 100]] := by decide +kernel
-- a{b,}d max -1 depth 0
example : expandGlob [97, 123, 98, 44, 125, 100] (-1) 0 = .ok [[97, 98, 100], [97, 100]] := by decide +kernel
-- a{b}d max -1 depth 0
example : expandGlob [97, 123, 98, 125, 100] (-1) 0 = .ok [[97, 98, 100]] := by decide +kernel
-- a{b,c,}d max -1 depth 0
example : expandGlob [97, 123, 98, 44, 99, 44, 125, 100] (-1) 0 = .ok [[97, 98, 100], [97, 99, 100], [97, 100]] := by decide +kernel
-- [2-4] max -1 depth 0
example : expandGlob [91, 50, 45, 52, 93] (-1) 0 = .ok [[50], [51], [52]] := by decide +kernel
-- [24] max -1 depth 0
example : expandGlob [91, 50, 52, 93] (-1) 0 = .ok [[50], [52]] := by decide +kernel
-- [243] max -1 depth 0
example : expandGlob [91, 50, 52, 51, 93] (-1) 0 = .ok [[50], [51], [52]] := by decide +kernel
-- 1[b-e]2[a-c]3 max -1 depth 0
example : expandGlob [49, 91, 98, 45, 101, 93, 50, 91, 97, 45, 99, 93, 51] (-1) 0 = .ok [[49, 98, 50, 97, 51], [49, 98, 50, 98, 51], [49, 98, 50, 99, 51], [49, 99, 50, 97, 51], [49, 99, 50, 98, 51], [49, 99, 50, 99, 51], [49, 100, 50, 97, 51], [49, 100, 50, 98, 51], [49, 100, 50, 99, 51], [49, 101, 50, 97, 51], [49, 101, 50, 98, 51], [49, 101, 50, 99, 51]] := by decide +kernel
-- as{12,32}[a-c]{2} max -1 depth 0
example : expandGlob [97, 115, 123, 49, 50, 44, 51, 50, 125, 91, 97, 45, 99, 93, 123, 50, 125] (-1) 0 = .ok [[97, 115, 49, 50, 97, 50], [97, 115, 49, 50, 98, 50], [97, 115, 49, 50, 99, 50], [97, 115, 51, 50, 97, 50], [97, 115, 51, 50, 98, 50], [97, 115, 51, 50, 99, 50]] := by decide +kernel
-- as{12,32}[a-c]{2} max 1 depth 0
example : expandGlob [97, 115, 123, 49, 50, 44, 51, 50, 125, 91, 97, 45, 99, 93, 123, 50, 125] (1) 0 = .ok [[97, 115, 123, 49, 50, 44, 51, 50, 125, 91, 97, 45, 99, 93, 50]] := by decide +kernel
-- as{12,32}[a-c]{2} max 2 depth 0
example : expandGlob [97, 115, 123, 49, 50, 44, 51, 50, 125, 91, 97, 45, 99, 93, 123, 50, 125] (2) 0 = .ok [[97, 115, 49, 50, 91, 97, 45, 99, 93, 50], [97, 115, 51, 50, 91, 97, 45, 99, 93, 50]] := by decide +kernel
-- as{12,32}[a-c]{2} max 5 depth 0
example : expandGlob [97, 115, 123, 49, 50, 44, 51, 50, 125, 91, 97, 45, 99, 93, 123, 50, 125] (5) 0 = .ok [[97, 115, 49, 50, 91, 97, 45, 99, 93, 50], [97, 115, 51, 50, 91, 97, 45, 99, 93, 50]] := by decide +kernel
-- as{12,32}[a-c]{2} max 6 depth 0
example : expandGlob [97, 115, 123, 49, 50, 44, 51, 50, 125, 91, 97, 45, 99, 93, 123, 50, 125] (6) 0 = .ok [[97, 115, 49, 50, 97, 50], [97, 115, 49, 50, 98, 50], [97, 115, 49, 50, 99, 50], [97, 115, 51, 50, 97, 50], [97, 115, 51, 50, 98, 50], [97, 115, 51, 50, 99, 50]] := by decide +kernel
-- as{12,32}.[a-c].{2} max -1 depth 1
example : expandGlob [97, 115, 123, 49, 50, 44, 51, 50, 125, 46, 91, 97, 45, 99, 93, 46, 123, 50, 125] (-1) 1 = .ok [[97, 115, 49, 50, 46, 91, 97, 45, 99, 93, 46, 50], [97, 115, 51, 50, 46, 91, 97, 45, 99, 93, 46, 50]] := by decide +kernel
-- as{12,32}{2}.[a-c] max -1 depth 1
example : expandGlob [97, 115, 123, 49, 50, 44, 51, 50, 125, 123, 50, 125, 46, 91, 97, 45, 99, 93] (-1) 1 = .ok [[97, 115, 49, 50, 50, 46, 91, 97, 45, 99, 93], [97, 115, 51, 50, 50, 46, 91, 97, 45, 99, 93]] := by decide +kernel
-- as{12,32}.2[a-c] max -1 depth 1
example : expandGlob [97, 115, 123, 49, 50, 44, 51, 50, 125, 46, 50, 91, 97, 45, 99, 93] (-1) 1 = .ok [[97, 115, 49, 50, 46, 50, 91, 97, 45, 99, 93], [97, 115, 51, 50, 46, 50, 91, 97, 45, 99, 93]] := by decide +kernel
-- as{12,32}[a-c]{2} max -1 depth 2
example : expandGlob [97, 115, 123, 49, 50, 44, 51, 50, 125, 91, 97, 45, 99, 93, 123, 50, 125] (-1) 2 = .ok [[97, 115, 49, 50, 97, 50], [97, 115, 49, 50, 98, 50], [97, 115, 49, 50, 99, 50], [97, 115, 51, 50, 97, 50], [97, 115, 51, 50, 98, 50], [97, 115, 51, 50, 99, 50]] := by decide +kernel
-- as{12,32}.{2}[a-c] max -1 depth 2
example : expandGlob [97, 115, 123, 49, 50, 44, 51, 50, 125, 46, 123, 50, 125, 91, 97, 45, 99, 93] (-1) 2 = .ok [[97, 115, 49, 50, 46, 50, 97], [97, 115, 49, 50, 46, 50, 98], [97, 115, 49, 50, 46, 50, 99], [97, 115, 51, 50, 46, 50, 97], [97, 115, 51, 50, 46, 50, 98], [97, 115, 51, 50, 46, 50, 99]] := by decide +kernel
-- as{12,32}.[a-c].{2,a} max -1 depth 2
example : expandGlob [97, 115, 123, 49, 50, 44, 51, 50, 125, 46, 91, 97, 45, 99, 93, 46, 123, 50, 44, 97, 125] (-1) 2 = .ok [[97, 115, 49, 50, 46, 97, 46, 123, 50, 44, 97, 125], [97, 115, 49, 50, 46, 98, 46, 123, 50, 44, 97, 125], [97, 115, 49, 50, 46, 99, 46, 123, 50, 44, 97, 125], [97, 115, 51, 50, 46, 97, 46, 123, 50, 44, 97, 125], [97, 115, 51, 50, 46, 98, 46, 123, 50, 44, 97, 125], [97, 115, 51, 50, 46, 99, 46, 123, 50, 44, 97, 125]] := by decide +kernel
-- as{12,32}.[a-c].{2,a} max -1 depth 3
example : expandGlob [97, 115, 123, 49, 50, 44, 51, 50, 125, 46, 91, 97, 45, 99, 93, 46, 123, 50, 44, 97, 125] (-1) 3 = .ok [[97, 115, 49, 50, 46, 97, 46, 50], [97, 115, 49, 50, 46, 97, 46, 97], [97, 115, 49, 50, 46, 98, 46, 50], [97, 115, 49, 50, 46, 98, 46, 97], [97, 115, 49, 50, 46, 99, 46, 50], [97, 115, 49, 50, 46, 99, 46, 97], [97, 115, 51, 50, 46, 97, 46, 50], [97, 115, 51, 50, 46, 97, 46, 97], [97, 115, 51, 50, 46, 98, 46, 50], [97, 115, 51, 50, 46, 98, 46, 97], [97, 115, 51, 50, 46, 99, 46, 50], [97, 115, 51, 50, 46, 99, 46, 97]] := by decide +kernel
-- a{b,c}*d max -1 depth 0
example : expandGlob [97, 123, 98, 44, 99, 125, 42, 100] (-1) 0 = .ok [[97, 98, 42, 100], [97, 99, 42, 100]] := by decide +kernel
-- a*{b,c}d max -1 depth 0
example : expandGlob [97, 42, 123, 98, 44, 99, 125, 100] (-1) 0 = .ok [[97, 42, 123, 98, 44, 99, 125, 100]] := by decide +kernel
-- a?{b,c}d max -1 depth 0
example : expandGlob [97, 63, 123, 98, 44, 99, 125, 100] (-1) 0 = .ok [[97, 63, 123, 98, 44, 99, 125, 100]] := by decide +kernel
-- a{*b,c}d max -1 depth 0
example : expandGlob [97, 123, 42, 98, 44, 99, 125, 100] (-1) 0 = .ok [[97, 123, 42, 98, 44, 99, 125, 100]] := by decide +kernel

/-- Kinds and texts of the expressions. -/
def exprsOf (s : Str) : Option (List (ExpTyp × Str × List Str)) :=
  match parseExpr s with
  | .ok l => some (l.map fun e => (e.typ, e.body, e.list))
  | _ => none

-- x{12,b}xxxxx
example : exprsOf [120, 123, 49, 50, 44, 98, 125, 120, 120, 120, 120, 120] = some [(.str, [120], []), (.list, [123, 49, 50, 44, 98, 125], [[49, 50], [98]]), (.str, [120, 120, 120, 120, 120], [])] := by decide +kernel
-- ab[124-5]xxxxx
example : exprsOf [97, 98, 91, 49, 50, 52, 45, 53, 93, 120, 120, 120, 120, 120] = some [(.str, [97, 98], []), (.runes, [91, 49, 50, 52, 45, 53, 93], []), (.str, [120, 120, 120, 120, 120], [])] := by decide +kernel
-- {x{12,{}}xxxxx
example : exprsOf [123, 120, 123, 49, 50, 44, 123, 125, 125, 120, 120, 120, 120, 120] = some [(.wild, [123, 120, 123, 49, 50, 44, 123, 125, 125], []), (.str, [120, 120, 120, 120, 120], [])] := by decide +kernel
-- x{12,{}}{{,13}
example : exprsOf [120, 123, 49, 50, 44, 123, 125, 125, 123, 123, 44, 49, 51, 125] = some [(.str, [120], []), (.wild, [123, 49, 50, 44, 123, 125, 125, 123, 123, 44, 49, 51, 125], [])] := by decide +kernel
-- {x{12,{}}{{,13}
example : exprsOf [123, 120, 123, 49, 50, 44, 123, 125, 125, 123, 123, 44, 49, 51, 125] = some [(.wild, [123, 120, 123, 49, 50, 44, 123, 125, 125, 123, 123, 44, 49, 51, 125], [])] := by decide +kernel
-- {{x{12,{}}{{,13}
example : exprsOf [123, 123, 120, 123, 49, 50, 44, 123, 125, 125, 123, 123, 44, 49, 51, 125] = some [(.wild, [123, 123, 120, 123, 49, 50, 44, 123, 125, 125, 123, 123, 44, 49, 51, 125], [])] := by decide +kernel
-- }some{
example : exprsOf [125, 115, 111, 109, 101, 123] = some [(.wild, [125, 115, 111, 109, 101, 123], [])] := by decide +kernel
-- }some
example : exprsOf [125, 115, 111, 109, 101] = some [(.wild, [125], []), (.str, [115, 111, 109, 101], [])] := by decide +kernel
-- some{
example : exprsOf [115, 111, 109, 101, 123] = some [(.str, [115, 111, 109, 101], []), (.wild, [123], [])] := by decide +kernel
-- ]some[
example : exprsOf [93, 115, 111, 109, 101, 91] = some [(.wild, [93, 115, 111, 109, 101, 91], [])] := by decide +kernel
-- ]some
example : exprsOf [93, 115, 111, 109, 101] = some [(.wild, [93], []), (.str, [115, 111, 109, 101], [])] := by decide +kernel
-- some[
example : exprsOf [115, 111, 109, 101, 91] = some [(.str, [115, 111, 109, 101], []), (.wild, [91], [])] := by decide +kernel
-- x[124-5]a*xxxx
example : exprsOf [120, 91, 49, 50, 52, 45, 53, 93, 97, 42, 120, 120, 120, 120] = some [(.str, [120], []), (.runes, [91, 49, 50, 52, 45, 53, 93], []), (.str, [97], []), (.wild, [42], []), (.str, [120, 120, 120, 120], [])] := by decide +kernel
-- x*[124-5]xxxxx
example : exprsOf [120, 42, 91, 49, 50, 52, 45, 53, 93, 120, 120, 120, 120, 120] = some [(.str, [120], []), (.wild, [42, 91, 49, 50, 52, 45, 53, 93], []), (.str, [120, 120, 120, 120, 120], [])] := by decide +kernel
-- x?[124-5]xxxxx
example : exprsOf [120, 63, 91, 49, 50, 52, 45, 53, 93, 120, 120, 120, 120, 120] = some [(.str, [120], []), (.wild, [63, 91, 49, 50, 52, 45, 53, 93], []), (.str, [120, 120, 120, 120, 120], [])] := by decide +kernel
-- x[*124-5]xxxxx
example : exprsOf [120, 91, 42, 49, 50, 52, 45, 53, 93, 120, 120, 120, 120, 120] = some [(.str, [120], []), (.wild, [91, 42, 49, 50, 52, 45, 53, 93], []), (.str, [120, 120, 120, 120, 120], [])] := by decide +kernel

end GoMatcher.Tests
