import Verif.Model.Glob

/-! # Model checks against the test tables of `/repo/glob/glob_*_test.go`

These are tests of the model, not proofs of properties. -/

namespace GoMatcher.Tests

/-- One row of the Go test table. -/
def globRow (g : Str) (node : Option Str) (mn mx : Option Int) (isErr : Bool) (yes no : List Str) : Bool :=
  match parseGlob g with
  | .ok (.ok p) => !isErr && (node.all (· == p.node)) && (mn.all (· == p.minLen)) && (mx.all (· == p.maxLen)) &&
      yes.all (fun s => p.matches s == .ok true) && no.all (fun s => p.matches s == .ok false)
  | .ok (.error _) => isErr
  | _ => false

-- glob "?"
example : globRow [63] (some [63]) (some (1)) (some (4)) false [[97], [99]] [[], [97, 98], [97, 46, 98]] = true := by decide +kernel
-- glob "??"
example : globRow [63, 63] (some [63, 63]) (some (2)) (some (8)) false [[97, 98], [99, 99]] [[], [97], [97, 46, 98]] = true := by decide +kernel
-- glob "???"
example : globRow [63, 63, 63] (some [63, 63, 63]) (some (3)) (some (12)) false [[97, 98, 99], [99, 99, 99]] [[], [97, 98], [97, 98, 99, 100], [97, 46, 98, 100]] = true := by decide +kernel
-- glob "a?"
example : globRow [97, 63] (some [97, 63]) (some (2)) (some (5)) false [[97, 99], [97, 122]] [[], [97], [98], [98, 99], [97, 99, 101], [97, 46, 99]] = true := by decide +kernel
-- glob "a?c"
example : globRow [97, 63, 99] (some [97, 63, 99]) (some (3)) (some (6)) false [[97, 99, 99], [97, 101, 99]] [[], [97, 98], [97, 99], [97, 99, 101], [97, 46, 101], [98, 101, 99]] = true := by decide +kernel
-- glob "a?[c]?d"
example : globRow [97, 63, 91, 99, 93, 63, 100] (some [97, 63, 99, 63, 100]) (some (5)) (some (11)) false [[97, 90, 99, 99, 100], [97, 90, 99, 65, 100]] [[], [97, 98], [97, 99], [97, 99, 101], [97, 90, 68, 65, 100], [97, 46, 99]] = true := by decide +kernel
-- glob "a*?c?d"
example : globRow [97, 42, 63, 99, 63, 100] (some [97, 42, 63, 99, 63, 100]) (some (5)) (some (-1)) false [[97, 90, 99, 99, 100], [97, 90, 99, 65, 100], [97, 73, 90, 99, 65, 100]] [[], [97, 98], [97, 99], [97, 99, 101], [97, 90, 68, 65, 100], [97, 46, 99]] = true := by decide +kernel
-- glob "*a?"
example : globRow [42, 97, 63] (some [42, 97, 63]) (some (2)) (some (-1)) false [[97, 97], [97, 98], [97, 99], [98, 97, 100]] [[], [97], [100]] = true := by decide +kernel
-- glob "{b*,a?cd*,cd[a-z]}bc*c*e"
example : globRow [123, 98, 42, 44, 97, 63, 99, 100, 42, 44, 99, 100, 91, 97, 45, 122, 93, 125, 98, 99, 42, 99, 42, 101] (some [123, 97, 63, 99, 100, 42, 44, 98, 42, 44, 99, 100, 91, 97, 45, 122, 93, 125, 98, 99, 42, 99, 42, 101]) (some (5)) (some (-1)) false [[97, 90, 99, 100, 98, 99, 99, 101], [97, 90, 99, 100, 81, 65, 98, 99, 90, 87, 99, 73, 101], [99, 100, 113, 98, 99, 90, 99, 73, 101], [98, 67, 68, 98, 99, 90, 73, 99, 101]] [[], [97, 90, 99, 100, 98, 99, 99], [97, 90, 99, 100, 99, 99, 101], [97, 90, 99, 100, 81, 65, 98, 99, 90, 87, 73, 101]] = true := by decide +kernel
-- glob "?*{b*,a?cd*,cd[a-z]}bc*c*e"
example : globRow [63, 42, 123, 98, 42, 44, 97, 63, 99, 100, 42, 44, 99, 100, 91, 97, 45, 122, 93, 125, 98, 99, 42, 99, 42, 101] (some [42, 63, 123, 97, 63, 99, 100, 42, 44, 98, 42, 44, 99, 100, 91, 97, 45, 122, 93, 125, 98, 99, 42, 99, 42, 101]) (some (6)) (some (-1)) false [[90, 97, 90, 99, 100, 98, 99, 99, 101], [208, 153, 97, 208, 174, 99, 100, 81, 65, 98, 99, 90, 87, 99, 73, 101], [208, 153, 97, 99, 100, 113, 98, 99, 90, 99, 73, 101], [208, 153, 97, 98, 67, 68, 98, 99, 90, 73, 99, 101]] [[], [97, 208, 175, 99, 100, 98, 99, 99, 101], [97, 90, 99, 100, 81, 65, 98, 99, 90, 87, 99, 73, 101], [97, 90, 99, 100, 98, 99, 99], [97, 90, 99, 100, 99, 99, 101], [97, 90, 99, 100, 81, 65, 98, 99, 90, 87, 73, 101]] = true := by decide +kernel
-- glob "?*{b*,a?cd*,cd[a-z]}bc*c*e"
example : globRow [63, 42, 123, 98, 42, 44, 97, 63, 99, 100, 42, 44, 99, 100, 91, 97, 45, 122, 93, 125, 98, 99, 42, 99, 42, 101] (some [42, 63, 123, 97, 63, 99, 100, 42, 44, 98, 42, 44, 99, 100, 91, 97, 45, 122, 93, 125, 98, 99, 42, 99, 42, 101]) (some (6)) (some (-1)) false [[90, 97, 90, 99, 100, 98, 99, 99, 101], [208, 153, 97, 208, 174, 99, 100, 81, 65, 98, 99, 90, 87, 99, 73, 101], [208, 153, 97, 99, 100, 113, 98, 99, 90, 99, 73, 101], [208, 153, 97, 98, 67, 68, 98, 99, 90, 73, 99, 101]] [[], [97, 208, 175, 99, 100, 98, 99, 99, 101], [97, 90, 99, 100, 81, 65, 98, 99, 90, 87, 99, 73, 101], [97, 90, 99, 100, 98, 99, 99], [97, 90, 99, 100, 99, 99, 101], [97, 90, 99, 100, 81, 65, 98, 99, 90, 87, 73, 101]] = true := by decide +kernel
-- glob "?Й?"
example : globRow [63, 208, 153, 63] (some [63, 208, 153, 63]) (some (4)) (some (10)) false [[97, 208, 153, 209, 129], [208, 153, 208, 153, 100], [208, 175, 208, 153, 97]] [[], [97], [100], [97, 208, 153], [208, 153], [208, 164, 105, 208, 153], [97, 208, 153, 99, 99]] = true := by decide +kernel
-- glob "*Й?"
example : globRow [42, 208, 153, 63] (some [42, 208, 153, 63]) (some (3)) (some (-1)) false [[208, 153, 209, 129], [208, 153, 208, 153, 100], [97, 208, 153, 97]] [[], [97], [100], [97, 208, 153], [208, 153]] = true := by decide +kernel
-- glob "[a-c]"
example : globRow [91, 97, 45, 99, 93] (some [91, 97, 45, 99, 93]) (some (1)) (some (1)) false [[97], [98], [99]] [[], [100], [97, 98], [97, 99], [97, 46, 98]] = true := by decide +kernel
-- glob "[a-c]z"
example : globRow [91, 97, 45, 99, 93, 122] (some [91, 97, 45, 99, 93, 122]) (some (2)) (some (2)) false [[97, 122], [98, 122], [99, 122]] [[], [100], [97, 98], [97, 99], [97, 98, 122], [97, 122, 46, 98], [97, 46, 98, 122]] = true := by decide +kernel
-- glob "[a-c]*"
example : globRow [91, 97, 45, 99, 93, 42] (some [91, 97, 45, 99, 93, 42]) (some (1)) (some (-1)) false [[97], [98], [99], [97, 46], [97, 98], [97, 122], [98, 122], [99, 122], [97, 46, 98], [97, 98, 122], [99, 97, 98], [99, 122, 98], [97, 122, 46, 98], [97, 46, 98, 122]] [[], [100], [100, 97]] = true := by decide +kernel
-- glob "a*[b-e].b"
example : globRow [97, 42, 91, 98, 45, 101, 93, 46, 98] (some [97, 42, 91, 98, 45, 101, 93, 46, 98]) (some (4)) (some (-1)) false [[97, 98, 46, 98], [97, 99, 46, 98], [97, 101, 46, 98], [97, 83, 84, 99, 46, 98], [97, 99, 98, 101, 99, 46, 98], [97, 98, 98, 101, 99, 101, 46, 98]] [[], [97, 98], [99], [97, 46, 98], [97, 46, 98, 100], [97, 97, 46, 98], [97, 102, 46, 98]] = true := by decide +kernel
-- glob "[ac"
example : globRow [91, 97, 99] none none none true [] [] = true := by decide +kernel
-- glob "a]c"
example : globRow [97, 93, 99] none none none true [] [] = true := by decide +kernel
-- glob "[]a"
example : globRow [91, 93, 97] (some [97]) (some (1)) (some (1)) false [[97]] [[], [98], [97, 98]] = true := by decide +kernel
-- glob "*"
example : globRow [42] (some [42]) none (some (-1)) false [[], [97, 99], [97, 98, 99], [97, 98, 99, 99]] [] = true := by decide +kernel
-- glob "**"
example : globRow [42, 42] (some [42]) none (some (-1)) false [[], [97, 99], [97, 98, 99], [97, 98, 99, 99]] [] = true := by decide +kernel
-- glob "a******c"
example : globRow [97, 42, 42, 42, 42, 42, 42, 99] (some [97, 42, 99]) (some (2)) (some (-1)) false [[97, 99], [97, 98, 99], [97, 98, 99, 99]] [[], [97, 99, 98], [97, 99, 46], [97, 99, 46, 98]] = true := by decide +kernel
-- glob "*"
example : globRow [42] (some [42]) (some (0)) (some (-1)) false [[], [97], [97, 99], [97, 98, 99], [97, 98, 99, 99], [97, 99, 46], [97, 99, 46, 98]] [] = true := by decide +kernel
-- glob "a*c"
example : globRow [97, 42, 99] (some [97, 42, 99]) (some (2)) (some (-1)) false [[97, 99], [97, 99, 99], [97, 101, 99], [97, 101, 98, 99], [97, 101, 99, 99], [97, 101, 99, 101, 99], [97, 98, 101, 99, 101, 99], [97, 46, 99]] [[], [97, 98], [99], [97, 99, 101]] = true := by decide +kernel
-- glob "a*"
example : globRow [97, 42] (some [97, 42]) (some (1)) (some (-1)) false [[97, 99], [97, 98], [97, 99, 99], [97, 99, 101], [97, 101, 99], [97, 101, 98, 99], [97, 101, 99, 99], [97, 101, 99, 101, 99], [97, 98, 101, 99, 101, 99], [97, 46, 99]] [[], [99]] = true := by decide +kernel
-- glob "a*b?c"
example : globRow [97, 42, 98, 63, 99] (some [97, 42, 98, 63, 99]) (some (4)) (some (-1)) false [[97, 98, 101, 99], [97, 98, 98, 101, 99], [97, 99, 98, 98, 99], [97, 101, 99, 98, 101, 99]] [[], [97, 98], [99], [97, 99, 101], [97, 46, 99], [97, 98, 98, 101, 99, 101]] = true := by decide +kernel
-- glob "a*?_FIND*_st"
example : globRow [97, 42, 63, 95, 70, 73, 78, 68, 42, 95, 115, 116] (some [97, 42, 63, 95, 70, 73, 78, 68, 42, 95, 115, 116]) (some (10)) (some (-1)) false [[97, 98, 95, 70, 73, 78, 68, 95, 115, 116], [97, 76, 99, 95, 70, 73, 78, 68, 95, 115, 116], [97, 76, 66, 99, 95, 70, 73, 78, 68, 95, 115, 116], [97, 76, 66, 99, 95, 70, 73, 78, 68, 95, 83, 84, 65, 82, 95, 115, 116], [97, 76, 66, 99, 95, 70, 73, 78, 68, 66, 95, 115, 116]] [[97, 95, 70, 73, 78, 68, 95, 115, 116], [97, 95, 70, 73, 78, 68, 66, 95, 115, 116]] = true := by decide +kernel
-- glob "a******?c"
example : globRow [97, 42, 42, 42, 42, 42, 42, 63, 99] (some [97, 42, 63, 99]) (some (3)) (some (-1)) false [[97, 66, 99], [97, 66, 67, 99], [97, 66, 67, 68, 99], [97, 66, 67, 68, 69, 99]] [[], [97, 99], [97, 99, 98]] = true := by decide +kernel
-- glob "a?******c"
example : globRow [97, 63, 42, 42, 42, 42, 42, 42, 99] (some [97, 42, 63, 99]) (some (3)) (some (-1)) false [[97, 66, 99], [97, 66, 67, 99], [97, 66, 67, 68, 99], [97, 66, 67, 68, 69, 99]] [[], [97, 99], [97, 99, 98]] = true := by decide +kernel
-- glob "a**?****c"
example : globRow [97, 42, 42, 63, 42, 42, 42, 42, 99] (some [97, 42, 63, 99]) (some (3)) (some (-1)) false [[97, 66, 99], [97, 66, 67, 99], [97, 66, 67, 68, 99], [97, 66, 67, 68, 69, 99]] [[], [97, 99], [97, 99, 98]] = true := by decide +kernel
-- glob "a?******?c"
example : globRow [97, 63, 42, 42, 42, 42, 42, 42, 63, 99] (some [97, 42, 63, 63, 99]) (some (4)) (some (-1)) false [[97, 66, 67, 99], [97, 66, 67, 68, 99], [97, 66, 67, 68, 69, 99], [97, 46, 67, 99], [97, 66, 46, 68, 99], [97, 66, 67, 46, 46, 99], [97, 66, 67, 99, 46, 97, 66, 67, 99]] [[97, 98, 99], [97, 66, 99], [98], [99, 66, 99], [90, 66, 67, 99], [97, 66, 67, 99, 46], [97, 66, 67, 99, 46, 97]] = true := by decide +kernel
-- glob "a**??c"
example : globRow [97, 42, 42, 63, 63, 99] (some [97, 42, 63, 63, 99]) (some (4)) (some (-1)) false [[97, 66, 67, 99], [97, 66, 67, 68, 99], [97, 66, 67, 68, 69, 99], [97, 46, 67, 99], [97, 66, 46, 68, 99], [97, 66, 67, 46, 46, 99], [97, 66, 67, 99, 46, 97, 66, 67, 99]] [[97, 98, 99], [97, 66, 99], [98], [99, 66, 99], [90, 66, 67, 99], [97, 66, 67, 99, 46], [97, 66, 67, 99, 46, 97]] = true := by decide +kernel
-- glob "a*?*?*c"
example : globRow [97, 42, 63, 42, 63, 42, 99] (some [97, 42, 63, 63, 99]) (some (4)) (some (-1)) false [[97, 66, 67, 99], [97, 66, 67, 68, 99], [97, 66, 67, 68, 69, 99], [97, 46, 67, 99], [97, 66, 46, 68, 99], [97, 66, 67, 46, 46, 99], [97, 66, 67, 99, 46, 97, 66, 67, 99]] [[97, 98, 99], [97, 66, 99], [98], [99, 66, 99], [90, 66, 67, 99], [97, 66, 67, 99, 46], [97, 66, 67, 99, 46, 97]] = true := by decide +kernel
-- glob "a?*??c"
example : globRow [97, 63, 42, 63, 63, 99] (some [97, 42, 63, 63, 63, 99]) (some (5)) (some (-1)) false [[97, 66, 67, 68, 99], [97, 66, 67, 68, 69, 99], [97, 46, 46, 67, 99], [97, 66, 46, 68, 99], [97, 66, 67, 46, 46, 99], [97, 66, 67, 99, 46, 97, 66, 67, 99]] [[97, 98, 99], [97, 66, 99], [97, 66, 67, 99], [98], [99, 66, 99], [90, 66, 67, 99], [97, 46, 67, 99], [97, 66, 67, 99, 46], [97, 66, 67, 99, 46, 97]] = true := by decide +kernel
-- glob "a??*?*c"
example : globRow [97, 63, 63, 42, 63, 42, 99] (some [97, 42, 63, 63, 63, 99]) (some (5)) (some (-1)) false [[97, 66, 67, 68, 99], [97, 66, 67, 68, 69, 99], [97, 46, 46, 67, 99], [97, 66, 46, 68, 99], [97, 66, 67, 46, 46, 99], [97, 66, 67, 99, 46, 97, 66, 67, 99]] [[97, 98, 99], [97, 66, 99], [97, 66, 67, 99], [98], [99, 66, 99], [90, 66, 67, 99], [97, 46, 67, 99], [97, 66, 67, 99, 46], [97, 66, 67, 99, 46, 97]] = true := by decide +kernel
-- glob "a???**c"
example : globRow [97, 63, 63, 63, 42, 42, 99] (some [97, 42, 63, 63, 63, 99]) (some (5)) (some (-1)) false [[97, 66, 67, 68, 99], [97, 66, 67, 68, 69, 99], [97, 46, 46, 67, 99], [97, 66, 46, 68, 99], [97, 66, 67, 46, 46, 99], [97, 66, 67, 99, 46, 97, 66, 67, 99]] [[97, 98, 99], [97, 66, 99], [97, 66, 67, 99], [98], [99, 66, 99], [90, 66, 67, 99], [97, 46, 67, 99], [97, 66, 67, 99, 46], [97, 66, 67, 99, 46, 97]] = true := by decide +kernel
-- glob "a"
example : globRow [97] (some [97]) (some (1)) (some (1)) false [[97]] [[], [98], [97, 98], [98, 97], [97, 46], [97, 46, 98]] = true := by decide +kernel
-- glob "a.bc"
example : globRow [97, 46, 98, 99] (some [97, 46, 98, 99]) (some (4)) (some (4)) false [[97, 46, 98, 99]] [[], [98], [97, 98], [98, 99], [97, 98, 99], [97, 46, 98], [97, 46, 98, 99, 46], [98, 46, 98, 99], [97, 46, 98, 99, 101], [97, 46, 98, 99, 46, 101]] = true := by decide +kernel
-- glob "[a-]"
example : globRow [91, 97, 45, 93] (some [97]) (some (1)) (some (1)) false [[97]] [[], [98], [100], [97, 98], [97, 46, 98]] = true := by decide +kernel
-- glob "[Й-]"
example : globRow [91, 208, 153, 45, 93] (some [208, 153]) (some (2)) (some (2)) false [[208, 153]] [[], [209, 132], [100], [97, 98], [97, 46, 98], [208, 166], [208, 153, 208, 166]] = true := by decide +kernel
-- glob "{a}"
example : globRow [123, 97, 125] (some [97]) (some (1)) (some (1)) false [[97]] [[], [98], [100], [97, 98], [97, 46, 98]] = true := by decide +kernel
-- glob "{Й}"
example : globRow [123, 208, 153, 125] (some [208, 153]) (some (2)) (some (2)) false [[208, 153]] [[], [209, 132], [100], [97, 98], [97, 46, 98], [208, 166], [208, 153, 208, 166]] = true := by decide +kernel
-- glob "{str}"
example : globRow [123, 115, 116, 114, 125] (some [115, 116, 114]) (some (3)) (some (3)) false [[115, 116, 114]] [[], [115, 116], [115, 116, 114, 116]] = true := by decide +kernel
-- glob "a[a-]Z"
example : globRow [97, 91, 97, 45, 93, 90] (some [97, 97, 90]) (some (3)) (some (3)) false [[97, 97, 90]] [[], [97], [98], [100], [97, 97], [97, 98], [97, 97, 122], [97, 97, 90, 46], [97, 97, 90, 97], [97, 46, 98]] = true := by decide +kernel
-- glob "a[a-]Z[Q]"
example : globRow [97, 91, 97, 45, 93, 90, 91, 81, 93] (some [97, 97, 90, 81]) (some (4)) (some (4)) false [[97, 97, 90, 81]] [[], [97, 98], [97, 97, 90, 81, 97]] = true := by decide +kernel
-- glob "a[a-]Z[Q]*"
example : globRow [97, 91, 97, 45, 93, 90, 91, 81, 93, 42] (some [97, 97, 90, 81, 42]) (some (4)) (some (-1)) false [[97, 97, 90, 81], [97, 97, 90, 81, 97]] [[], [97, 98], [97, 97, 90, 113, 97]] = true := by decide +kernel
-- glob "a[a-]Z[Q]st{LT}*I{NN}*[z-][a]ST{lt}l"
example : globRow [97, 91, 97, 45, 93, 90, 91, 81, 93, 115, 116, 123, 76, 84, 125, 42, 73, 123, 78, 78, 125, 42, 91, 122, 45, 93, 91, 97, 93, 83, 84, 123, 108, 116, 125, 108] (some [97, 97, 90, 81, 115, 116, 76, 84, 42, 73, 78, 78, 42, 122, 97, 83, 84, 108, 116, 108]) (some (18)) (some (-1)) false [[97, 97, 90, 81, 115, 116, 76, 84, 73, 78, 78, 122, 97, 83, 84, 108, 116, 108], [97, 97, 90, 81, 115, 116, 76, 84, 97, 73, 78, 78, 122, 97, 83, 84, 108, 116, 108]] [[], [97, 98], [97, 97, 90, 113, 97]] = true := by decide +kernel
-- glob "a[a-]Z[Q]st{LT}*Ц{NN}*[z-][a]ST{lt}l"
example : globRow [97, 91, 97, 45, 93, 90, 91, 81, 93, 115, 116, 123, 76, 84, 125, 42, 208, 166, 123, 78, 78, 125, 42, 91, 122, 45, 93, 91, 97, 93, 83, 84, 123, 108, 116, 125, 108] (some [97, 97, 90, 81, 115, 116, 76, 84, 42, 208, 166, 78, 78, 42, 122, 97, 83, 84, 108, 116, 108]) (some (19)) (some (-1)) false [[97, 97, 90, 81, 115, 116, 76, 84, 208, 166, 78, 78, 122, 97, 83, 84, 108, 116, 108], [97, 97, 90, 81, 115, 116, 76, 84, 97, 208, 166, 78, 78, 122, 97, 83, 84, 108, 116, 108]] [[], [97, 98], [97, 97, 90, 113, 97], [97, 97, 90, 81, 115, 116, 76, 84, 97, 208, 166, 97, 78, 78, 122, 97, 83, 84, 108, 116, 108], [97, 97, 90, 81, 115, 116, 76, 84, 97, 97, 78, 78, 122, 97, 83, 84, 108, 116, 108]] = true := by decide +kernel
-- glob "a[Л]*И{Ф}*b{В}*В{NN}*nn[в]*В{N}*{Ц}l"
example : globRow [97, 91, 208, 155, 93, 42, 208, 152, 123, 208, 164, 125, 42, 98, 123, 208, 146, 125, 42, 208, 146, 123, 78, 78, 125, 42, 110, 110, 91, 208, 178, 93, 42, 208, 146, 123, 78, 125, 42, 123, 208, 166, 125, 108] (some [97, 208, 155, 42, 208, 152, 208, 164, 42, 98, 208, 146, 42, 208, 146, 78, 78, 42, 110, 110, 208, 178, 42, 208, 146, 78, 42, 208, 166, 108]) (some (24)) (some (-1)) false [[97, 208, 155, 208, 152, 208, 164, 98, 208, 146, 208, 146, 78, 78, 110, 110, 208, 178, 208, 146, 78, 208, 166, 108], [97, 208, 155, 208, 166, 208, 152, 208, 164, 114, 98, 208, 146, 95, 208, 146, 78, 78, 95, 110, 110, 208, 178, 208, 146, 78, 95, 208, 166, 108]] [[], [97, 98], [97, 97, 90, 113, 97], [97, 208, 152, 208, 164, 98, 208, 146, 208, 146, 78, 78, 110, 110, 208, 178, 208, 146, 78, 208, 166, 108]] = true := by decide +kernel
-- glob "a[a-]Z[Q]st{LT}*{NN}I*[z-][a]ST{lt}"
example : globRow [97, 91, 97, 45, 93, 90, 91, 81, 93, 115, 116, 123, 76, 84, 125, 42, 123, 78, 78, 125, 73, 42, 91, 122, 45, 93, 91, 97, 93, 83, 84, 123, 108, 116, 125] (some [97, 97, 90, 81, 115, 116, 76, 84, 42, 78, 78, 73, 42, 122, 97, 83, 84, 108, 116]) (some (17)) (some (-1)) false [[97, 97, 90, 81, 115, 116, 76, 84, 78, 78, 73, 122, 97, 83, 84, 108, 116], [97, 97, 90, 81, 115, 116, 76, 84, 97, 78, 78, 73, 122, 97, 83, 84, 108, 116]] [[], [97, 98], [97, 97, 90, 113, 97], [97, 97, 90, 81, 115, 116, 76, 84, 97, 78, 78, 73, 122, 97, 83, 84, 108, 116, 108]] = true := by decide +kernel
-- glob "a[a-]Z[Q]*[a]c"
example : globRow [97, 91, 97, 45, 93, 90, 91, 81, 93, 42, 91, 97, 93, 99] (some [97, 97, 90, 81, 42, 97, 99]) (some (6)) (some (-1)) false [[97, 97, 90, 81, 97, 99], [97, 97, 90, 81, 97, 97, 99], [97, 97, 90, 81, 98, 97, 99]] [[], [97, 98], [97, 97, 90, 113, 97]] = true := by decide +kernel
-- glob "{Z,Q}"
example : globRow [123, 90, 44, 81, 125] (some [123, 81, 44, 90, 125]) (some (1)) (some (1)) false [[90], [81]] [[], [122], [113], [98], [90, 81], [81, 90], [90, 113], [97, 98], [98, 97], [97, 98, 99]] = true := by decide +kernel
-- glob "{Z,Q,}"
example : globRow [123, 90, 44, 81, 44, 125] (some [123, 44, 81, 44, 90, 125]) (some (0)) (some (1)) false [[], [90], [81]] [[122], [113], [98], [90, 81], [81, 90], [90, 113], [97, 98], [98, 97], [97, 98, 99]] = true := by decide +kernel
-- glob "{a,bc}"
example : globRow [123, 97, 44, 98, 99, 125] (some [123, 97, 44, 98, 99, 125]) (some (1)) (some (2)) false [[97], [98, 99]] [[], [98], [97, 98], [98, 97], [97, 98, 99], [98, 99, 97]] = true := by decide +kernel
-- glob "*{a,bc}"
example : globRow [42, 123, 97, 44, 98, 99, 125] (some [42, 123, 97, 44, 98, 99, 125]) (some (1)) (some (-1)) false [[97], [97, 97], [98, 97], [98, 99], [66, 97], [97, 98, 99], [98, 99, 97], [66, 98, 99], [97, 66, 97]] [[], [98], [97, 98]] = true := by decide +kernel
-- glob "a{a,bc}{qa,q}c"
example : globRow [97, 123, 97, 44, 98, 99, 125, 123, 113, 97, 44, 113, 125, 99] (some [97, 123, 97, 44, 98, 99, 125, 123, 113, 44, 113, 97, 125, 99]) (some (4)) (some (6)) false [[97, 97, 113, 97, 99], [97, 98, 99, 113, 97, 99], [97, 97, 113, 99]] [[], [98], [97, 98], [98, 97], [97, 98, 99], [97, 97, 98, 99], [97, 97, 113, 98, 99]] = true := by decide +kernel
-- glob "a{a,bc}Z{qa,q}c"
example : globRow [97, 123, 97, 44, 98, 99, 125, 90, 123, 113, 97, 44, 113, 125, 99] (some [97, 123, 97, 44, 98, 99, 125, 90, 123, 113, 44, 113, 97, 125, 99]) (some (5)) (some (7)) false [[97, 97, 90, 113, 97, 99], [97, 98, 99, 90, 113, 97, 99], [97, 97, 90, 113, 99]] [[], [98], [97, 98], [98, 97], [97, 98, 99], [97, 97, 98, 99], [97, 97, 113, 98, 99]] = true := by decide +kernel
-- glob "a{,a,bc}Z{qa,q}c"
example : globRow [97, 123, 44, 97, 44, 98, 99, 125, 90, 123, 113, 97, 44, 113, 125, 99] (some [97, 123, 44, 97, 44, 98, 99, 125, 90, 123, 113, 44, 113, 97, 125, 99]) (some (4)) (some (7)) false [[97, 97, 90, 113, 97, 99], [97, 98, 99, 90, 113, 97, 99], [97, 97, 90, 113, 99], [97, 90, 113, 99], [97, 90, 113, 97, 99]] [[], [98], [97, 98], [98, 97], [97, 98, 99], [97, 97, 98, 99], [97, 97, 113, 98, 99]] = true := by decide +kernel
-- glob "*.{bc,d}*.e"
example : globRow [42, 46, 123, 98, 99, 44, 100, 125, 42, 46, 101] (some [42, 46, 123, 98, 99, 44, 100, 125, 42, 46, 101]) (some (4)) (some (-1)) false [[97, 46, 98, 46, 98, 99, 101, 46, 101]] [] = true := by decide +kernel
-- glob "b{a,}"
example : globRow [98, 123, 97, 44, 125] (some [98, 123, 44, 97, 125]) (some (1)) (some (2)) false [[98], [98, 97]] [[], [98, 98], [98, 100], [97, 98], [98, 97, 98], [98, 97, 46, 98]] = true := by decide +kernel
-- glob "*{a,}"
example : globRow [42, 123, 97, 44, 125] (some [42, 123, 44, 97, 125]) (some (0)) (some (-1)) false [[], [97], [98], [98, 97], [98, 98], [98, 100], [97, 98], [98, 97, 98], [98, 97, 46, 98]] [] = true := by decide +kernel
-- glob "*{a,}{b,cd}"
example : globRow [42, 123, 97, 44, 125, 123, 98, 44, 99, 100, 125] (some [42, 123, 44, 97, 125, 123, 98, 44, 99, 100, 125]) (some (1)) (some (-1)) false [[97, 98, 99, 100], [98], [99, 100], [97, 98], [97, 99, 100], [98, 98], [98, 99, 100], [98, 97, 98], [97, 98, 99, 100], [98, 97, 99, 100], [98, 98, 98], [98, 97, 46, 98], [98, 97, 46, 99, 100]] [[], [98, 98, 100], [97, 98, 99]] = true := by decide +kernel
-- glob "b*{a,}"
example : globRow [98, 42, 123, 97, 44, 125] (some [98, 42, 123, 44, 97, 125]) (some (1)) (some (-1)) false [[98], [98, 97], [98, 98], [98, 98, 97], [98, 98, 98], [98, 98, 100], [98, 97, 98], [98, 98, 97, 98], [98, 98, 97, 46, 98]] [[], [97], [97, 98], [97, 98, 97]] = true := by decide +kernel
-- glob "b*{a,}*"
example : globRow [98, 42, 123, 97, 44, 125, 42] (some [98, 42, 123, 44, 97, 125, 42]) (some (1)) (some (-1)) false [[98, 99, 46, 46, 100, 102]] [] = true := by decide +kernel
-- glob "DB.*.Cassandra.{BalanceCluster,BalanceStaging,Billing,UpProduction,UpTesting,WebCluster}.*.DownEndpointCount"
example : globRow [68, 66, 46, 42, 46, 67, 97, 115, 115, 97, 110, 100, 114, 97, 46, 123, 66, 97, 108, 97, 110, 99, 101, 67, 108, 117, 115, 116, 101, 114, 44, 66, 97, 108, 97, 110, 99, 101, 83, 116, 97, 103, 105, 110, 103, 44, 66, 105, 108, 108, 105, 110, 103, 44, 85, 112, 80, 114, 111, 100, 117, 99, 116, 105, 111, 110, 44, 85, 112, 84, 101, 115, 116, 105, 110, 103, 44, 87, 101, 98, 67, 108, 117, 115, 116, 101, 114, 125, 46, 42, 46, 68, 111, 119, 110, 69, 110, 100, 112, 111, 105, 110, 116, 67, 111, 117, 110, 116] (some [68, 66, 46, 42, 46, 67, 97, 115, 115, 97, 110, 100, 114, 97, 46, 123, 66, 97, 108, 97, 110, 99, 101, 67, 108, 117, 115, 116, 101, 114, 44, 66, 97, 108, 97, 110, 99, 101, 83, 116, 97, 103, 105, 110, 103, 44, 66, 105, 108, 108, 105, 110, 103, 44, 85, 112, 80, 114, 111, 100, 117, 99, 116, 105, 111, 110, 44, 85, 112, 84, 101, 115, 116, 105, 110, 103, 44, 87, 101, 98, 67, 108, 117, 115, 116, 101, 114, 125, 46, 42, 46, 68, 111, 119, 110, 69, 110, 100, 112, 111, 105, 110, 116, 67, 111, 117, 110, 116]) (some (40)) (some (-1)) false [[68, 66, 46, 83, 97, 108, 101, 115, 46, 67, 97, 115, 115, 97, 110, 100, 114, 97, 46, 85, 112, 80, 114, 111, 100, 117, 99, 116, 105, 111, 110, 46, 78, 79, 68, 69, 49, 46, 68, 111, 119, 110, 69, 110, 100, 112, 111, 105, 110, 116, 67, 111, 117, 110, 116], [68, 66, 46, 83, 97, 108, 101, 115, 46, 67, 97, 115, 115, 97, 110, 100, 114, 97, 46, 85, 112, 80, 114, 111, 100, 117, 99, 116, 105, 111, 110, 46, 110, 111, 100, 101, 49, 46, 78, 79, 68, 69, 50, 46, 68, 111, 119, 110, 69, 110, 100, 112, 111, 105, 110, 116, 67, 111, 117, 110, 116], [68, 66, 46, 46, 67, 97, 115, 115, 97, 110, 100, 114, 97, 46, 85, 112, 80, 114, 111, 100, 117, 99, 116, 105, 111, 110, 46, 46, 68, 111, 119, 110, 69, 110, 100, 112, 111, 105, 110, 116, 67, 111, 117, 110, 116], [68, 66, 46, 46, 67, 97, 115, 115, 97, 110, 100, 114, 97, 46, 85, 112, 80, 114, 111, 100, 117, 99, 116, 105, 111, 110, 46, 110, 111, 100, 101, 49, 46, 68, 111, 119, 110, 69, 110, 100, 112, 111, 105, 110, 116, 67, 111, 117, 110, 116]] [[68, 66, 46, 67, 97, 115, 115, 97, 110, 100, 114, 97, 46, 46, 85, 112, 80, 114, 111, 100, 117, 99, 116, 105, 111, 110, 46, 68, 111, 119, 110, 69, 110, 100, 112, 111, 105, 110, 116, 67, 111, 117, 110, 116], [68, 66, 46, 67, 97, 115, 115, 97, 110, 100, 114, 97, 46, 85, 112, 80, 114, 111, 100, 117, 99, 116, 105, 111, 110, 46, 68, 111, 119, 110, 69, 110, 100, 112, 111, 105, 110, 116, 67, 111, 117, 110, 116], [68, 66, 46, 67, 97, 115, 115, 97, 110, 100, 114, 97, 46, 85, 112, 80, 114, 111, 100, 117, 99, 116, 105, 111, 110, 46, 110, 111, 100, 101, 49, 46, 68, 111, 119, 110, 69, 110, 100, 112, 111, 105, 110, 116, 67, 111, 117, 110, 116], [68, 66, 46, 83, 97, 108, 101, 115, 46, 67, 97, 115, 115, 97, 110, 100, 114, 97, 46, 83, 97, 108, 101, 115, 67, 108, 117, 115, 116, 101, 114, 46, 110, 111, 100, 101, 49, 46, 68, 111, 119, 110, 69, 110, 100, 112, 111, 105, 110, 116, 67, 111, 117, 110, 116]] = true := by decide +kernel
-- glob "DB.*?.Cassandra.{BalanceCluster,BalanceStaging,Billing,UpProduction,UpTesting,WebCluster}.*?.DownEndpointCount"
example : globRow [68, 66, 46, 42, 63, 46, 67, 97, 115, 115, 97, 110, 100, 114, 97, 46, 123, 66, 97, 108, 97, 110, 99, 101, 67, 108, 117, 115, 116, 101, 114, 44, 66, 97, 108, 97, 110, 99, 101, 83, 116, 97, 103, 105, 110, 103, 44, 66, 105, 108, 108, 105, 110, 103, 44, 85, 112, 80, 114, 111, 100, 117, 99, 116, 105, 111, 110, 44, 85, 112, 84, 101, 115, 116, 105, 110, 103, 44, 87, 101, 98, 67, 108, 117, 115, 116, 101, 114, 125, 46, 42, 63, 46, 68, 111, 119, 110, 69, 110, 100, 112, 111, 105, 110, 116, 67, 111, 117, 110, 116] (some [68, 66, 46, 42, 63, 46, 67, 97, 115, 115, 97, 110, 100, 114, 97, 46, 123, 66, 97, 108, 97, 110, 99, 101, 67, 108, 117, 115, 116, 101, 114, 44, 66, 97, 108, 97, 110, 99, 101, 83, 116, 97, 103, 105, 110, 103, 44, 66, 105, 108, 108, 105, 110, 103, 44, 85, 112, 80, 114, 111, 100, 117, 99, 116, 105, 111, 110, 44, 85, 112, 84, 101, 115, 116, 105, 110, 103, 44, 87, 101, 98, 67, 108, 117, 115, 116, 101, 114, 125, 46, 42, 63, 46, 68, 111, 119, 110, 69, 110, 100, 112, 111, 105, 110, 116, 67, 111, 117, 110, 116]) (some (42)) (some (-1)) false [[68, 66, 46, 97, 46, 67, 97, 115, 115, 97, 110, 100, 114, 97, 46, 85, 112, 80, 114, 111, 100, 117, 99, 116, 105, 111, 110, 46, 110, 111, 100, 101, 49, 46, 68, 111, 119, 110, 69, 110, 100, 112, 111, 105, 110, 116, 67, 111, 117, 110, 116], [68, 66, 46, 97, 46, 67, 97, 115, 115, 97, 110, 100, 114, 97, 46, 85, 112, 80, 114, 111, 100, 117, 99, 116, 105, 111, 110, 46, 98, 46, 68, 111, 119, 110, 69, 110, 100, 112, 111, 105, 110, 116, 67, 111, 117, 110, 116], [68, 66, 46, 83, 97, 108, 101, 115, 46, 67, 97, 115, 115, 97, 110, 100, 114, 97, 46, 85, 112, 80, 114, 111, 100, 117, 99, 116, 105, 111, 110, 46, 110, 111, 100, 101, 49, 46, 68, 111, 119, 110, 69, 110, 100, 112, 111, 105, 110, 116, 67, 111, 117, 110, 116], [68, 66, 46, 83, 97, 108, 101, 115, 46, 67, 97, 115, 115, 97, 110, 100, 114, 97, 46, 85, 112, 80, 114, 111, 100, 117, 99, 116, 105, 111, 110, 46, 110, 111, 100, 101, 49, 46, 78, 79, 68, 69, 50, 46, 68, 111, 119, 110, 69, 110, 100, 112, 111, 105, 110, 116, 67, 111, 117, 110, 116]] [[87, 101, 98, 46, 65, 112, 112, 46, 85, 112, 80, 114, 111, 100, 117, 99, 116, 105, 111, 110, 46, 68, 111, 119, 110, 69, 110, 100, 112, 111, 105, 110, 116, 67, 111, 117, 110, 116], [87, 101, 98, 46, 97, 46, 67, 97, 115, 115, 97, 110, 100, 114, 97, 46, 85, 112, 80, 114, 111, 100, 117, 99, 116, 105, 111, 110, 46, 110, 111, 100, 101, 49, 46, 68, 111, 119, 110, 69, 110, 100, 112, 111, 105, 110, 116, 67, 111, 117, 110, 116], [68, 66, 46, 97, 46, 67, 97, 115, 115, 97, 110, 100, 114, 97, 46, 85, 112, 80, 114, 111, 100, 117, 99, 116, 105, 111, 110, 46, 110, 111, 100, 101, 49, 46, 68, 111, 119, 110, 69, 110, 100, 112, 111, 105, 110, 116, 67, 111, 117, 110, 116, 50], [68, 66, 46, 67, 97, 115, 115, 97, 110, 100, 114, 97, 46, 85, 112, 80, 114, 111, 100, 117, 99, 116, 105, 111, 110, 46, 68, 111, 119, 110, 69, 110, 100, 112, 111, 105, 110, 116, 67, 111, 117, 110, 116], [68, 66, 46, 67, 97, 115, 115, 97, 110, 100, 114, 97, 46, 85, 112, 80, 114, 111, 100, 117, 99, 116, 105, 111, 110, 46, 110, 111, 100, 101, 49, 46, 68, 111, 119, 110, 69, 110, 100, 112, 111, 105, 110, 116, 67, 111, 117, 110, 116], [68, 66, 46, 46, 67, 97, 115, 115, 97, 110, 100, 114, 97, 46, 85, 112, 80, 114, 111, 100, 117, 99, 116, 105, 111, 110, 46, 110, 111, 100, 101, 49, 46, 68, 111, 119, 110, 69, 110, 100, 112, 111, 105, 110, 116, 67, 111, 117, 110, 116], [68, 66, 46, 46, 67, 97, 115, 115, 97, 110, 100, 114, 97, 46, 85, 112, 80, 114, 111, 100, 117, 99, 116, 105, 111, 110, 46, 46, 68, 111, 119, 110, 69, 110, 100, 112, 111, 105, 110, 116, 67, 111, 117, 110, 116], [68, 66, 46, 83, 97, 108, 101, 115, 46, 67, 97, 115, 115, 97, 110, 100, 114, 97, 46, 83, 97, 108, 101, 115, 67, 108, 117, 115, 116, 101, 114, 46, 110, 111, 100, 101, 49, 46, 68, 111, 119, 110, 69, 110, 100, 112, 111, 105, 110, 116, 67, 111, 117, 110, 116]] = true := by decide +kernel
-- glob "DB.*{BalanceCluster,BalanceStaging,Billing,UpProduction,UpTesting,WebCluster}.*.DownEndpointCount"
example : globRow [68, 66, 46, 42, 123, 66, 97, 108, 97, 110, 99, 101, 67, 108, 117, 115, 116, 101, 114, 44, 66, 97, 108, 97, 110, 99, 101, 83, 116, 97, 103, 105, 110, 103, 44, 66, 105, 108, 108, 105, 110, 103, 44, 85, 112, 80, 114, 111, 100, 117, 99, 116, 105, 111, 110, 44, 85, 112, 84, 101, 115, 116, 105, 110, 103, 44, 87, 101, 98, 67, 108, 117, 115, 116, 101, 114, 125, 46, 42, 46, 68, 111, 119, 110, 69, 110, 100, 112, 111, 105, 110, 116, 67, 111, 117, 110, 116] (some [68, 66, 46, 42, 123, 66, 97, 108, 97, 110, 99, 101, 67, 108, 117, 115, 116, 101, 114, 44, 66, 97, 108, 97, 110, 99, 101, 83, 116, 97, 103, 105, 110, 103, 44, 66, 105, 108, 108, 105, 110, 103, 44, 85, 112, 80, 114, 111, 100, 117, 99, 116, 105, 111, 110, 44, 85, 112, 84, 101, 115, 116, 105, 110, 103, 44, 87, 101, 98, 67, 108, 117, 115, 116, 101, 114, 125, 46, 42, 46, 68, 111, 119, 110, 69, 110, 100, 112, 111, 105, 110, 116, 67, 111, 117, 110, 116]) (some (29)) (some (-1)) false [[68, 66, 46, 67, 97, 115, 115, 97, 110, 100, 114, 97, 46, 85, 112, 80, 114, 111, 100, 117, 99, 116, 105, 111, 110, 46, 110, 111, 100, 101, 49, 46, 68, 111, 119, 110, 69, 110, 100, 112, 111, 105, 110, 116, 67, 111, 117, 110, 116], [68, 66, 46, 46, 67, 97, 115, 115, 97, 110, 100, 114, 97, 46, 85, 112, 80, 114, 111, 100, 117, 99, 116, 105, 111, 110, 46, 110, 111, 100, 101, 49, 46, 68, 111, 119, 110, 69, 110, 100, 112, 111, 105, 110, 116, 67, 111, 117, 110, 116], [68, 66, 46, 46, 67, 97, 115, 115, 97, 110, 100, 114, 97, 46, 85, 112, 80, 114, 111, 100, 117, 99, 116, 105, 111, 110, 46, 46, 68, 111, 119, 110, 69, 110, 100, 112, 111, 105, 110, 116, 67, 111, 117, 110, 116], [68, 66, 46, 97, 46, 67, 97, 115, 115, 97, 110, 100, 114, 97, 46, 85, 112, 80, 114, 111, 100, 117, 99, 116, 105, 111, 110, 46, 110, 111, 100, 101, 49, 46, 68, 111, 119, 110, 69, 110, 100, 112, 111, 105, 110, 116, 67, 111, 117, 110, 116], [68, 66, 46, 97, 46, 67, 97, 115, 115, 97, 110, 100, 114, 97, 46, 85, 112, 80, 114, 111, 100, 117, 99, 116, 105, 111, 110, 46, 98, 46, 68, 111, 119, 110, 69, 110, 100, 112, 111, 105, 110, 116, 67, 111, 117, 110, 116], [68, 66, 46, 83, 97, 108, 101, 115, 46, 67, 97, 115, 115, 97, 110, 100, 114, 97, 46, 85, 112, 80, 114, 111, 100, 117, 99, 116, 105, 111, 110, 46, 110, 111, 100, 101, 49, 46, 68, 111, 119, 110, 69, 110, 100, 112, 111, 105, 110, 116, 67, 111, 117, 110, 116], [68, 66, 46, 83, 97, 108, 101, 115, 46, 67, 97, 115, 115, 97, 110, 100, 114, 97, 46, 85, 112, 80, 114, 111, 100, 117, 99, 116, 105, 111, 110, 46, 110, 111, 100, 101, 49, 46, 78, 79, 68, 69, 50, 46, 68, 111, 119, 110, 69, 110, 100, 112, 111, 105, 110, 116, 67, 111, 117, 110, 116]] [[87, 101, 98, 46, 65, 112, 112, 46, 85, 112, 80, 114, 111, 100, 117, 99, 116, 105, 111, 110, 46, 68, 111, 119, 110, 69, 110, 100, 112, 111, 105, 110, 116, 67, 111, 117, 110, 116], [87, 101, 98, 46, 97, 46, 67, 97, 115, 115, 97, 110, 100, 114, 97, 46, 85, 112, 80, 114, 111, 100, 117, 99, 116, 105, 111, 110, 46, 110, 111, 100, 101, 49, 46, 68, 111, 119, 110, 69, 110, 100, 112, 111, 105, 110, 116, 67, 111, 117, 110, 116], [68, 66, 46, 97, 46, 67, 97, 115, 115, 97, 110, 100, 114, 97, 46, 85, 112, 80, 114, 111, 100, 117, 99, 116, 105, 111, 110, 46, 110, 111, 100, 101, 49, 46, 68, 111, 119, 110, 69, 110, 100, 112, 111, 105, 110, 116, 67, 111, 117, 110, 116, 50], [68, 66, 46, 67, 97, 115, 115, 97, 110, 100, 114, 97, 46, 85, 112, 80, 114, 111, 100, 117, 99, 116, 105, 111, 110, 46, 68, 111, 119, 110, 69, 110, 100, 112, 111, 105, 110, 116, 67, 111, 117, 110, 116], [68, 66, 46, 83, 97, 108, 101, 115, 46, 67, 97, 115, 115, 97, 110, 100, 114, 97, 46, 83, 97, 108, 101, 115, 67, 108, 117, 115, 116, 101, 114, 46, 110, 111, 100, 101, 49, 46, 68, 111, 119, 110, 69, 110, 100, 112, 111, 105, 110, 116, 67, 111, 117, 110, 116]] = true := by decide +kernel
-- glob "{ac"
example : globRow [123, 97, 99] none none none true [] [] = true := by decide +kernel
-- glob "a}c"
example : globRow [97, 125, 99] none none none true [] [] = true := by decide +kernel
-- glob "{b*,a?cd*,cda-z]}bc*c*e"
example : globRow [123, 98, 42, 44, 97, 63, 99, 100, 42, 44, 99, 100, 97, 45, 122, 93, 125, 98, 99, 42, 99, 42, 101] none none none true [] [] = true := by decide +kernel
-- glob "{}a"
example : globRow [123, 125, 97] (some [97]) (some (1)) (some (1)) false [[97]] [[], [98], [97, 98]] = true := by decide +kernel

end GoMatcher.Tests
