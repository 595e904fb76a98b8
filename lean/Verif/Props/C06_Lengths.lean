import Verif.Props.C01_C03_Match
import Verif.Proofs.LitLen

/-! # C06: `MinLen` and `MaxLen` bound the length of every fitting text -/

namespace GoMatcher
namespace C06

/-- `MinLen` is a lower bound, for every written glob. -/
theorem min_len (ts : List Tok) (hok : ∀ t ∈ ts, t.Ok) :
    ∃ g, parseGlob (utf8 (renderGlob ts)) = .ok (.ok g) ∧
      ∀ cs, Fits ts cs → g.minLen ≤ (utf8 cs).length := by
  obtain ⟨g, hg, hG⟩ := parse_spec ts hok
  exact ⟨g, hg, hG.min⟩

/-- Full statement (not true of the code): `MaxLen` is `-1` or an upper bound for every
written glob.  Missing: globs outside `MaxOk`, where a star stands inside an alternative and no
other star makes the length unbounded; see `max_len_wrong`. -/
theorem max_len_partial (ts : List Tok) (hok : ∀ t ∈ ts, t.Ok) (hmax : MaxOk ts) :
    ∃ g, parseGlob (utf8 (renderGlob ts)) = .ok (.ok g) ∧
      (g.maxLen = -1 ∨ ∀ cs, Fits ts cs → (utf8 cs).length ≤ g.maxLen) := by
  obtain ⟨g, hg, hG⟩ := parse_spec ts hok
  exact ⟨g, hg, hG.max hmax⟩

/-- Hence the two length tests of `Match` (glob.go:47-52) never refuse a fitting text. -/
theorem length_checks_partial (ts : List Tok) (hok : ∀ t ∈ ts, t.Ok) (hmax : MaxOk ts)
    (g : Glob) (hg : parseGlob (utf8 (renderGlob ts)) = .ok (.ok g)) (cs : List Char)
    (h : Fits ts cs) : ¬ ((utf8 cs).length : Int) < g.minLen ∧
      ¬ (g.maxLen > 0 ∧ ((utf8 cs).length : Int) > g.maxLen) := by
  obtain ⟨g', hg', hG⟩ := parse_spec ts hok
  rw [hg'] at hg
  injection hg with hg
  injection hg with hg
  subst hg
  have h1 := hG.min cs h
  refine ⟨by omega, ?_⟩
  rcases hG.max hmax with h2 | h2
  · omega
  · have := h2 cs h; omega

/-- Any byte string that is accepted and leaves no items (`{a}[b]c`, `[�]` and the like): both bounds are
the length of the node text, which is the only text that matches, unless it is a star
(`C13.literal_star_wrong`). -/
theorem literal_len (s : Str) (g : Glob) (h : parseGlob s = .ok (.ok g)) (hi : g.items = []) :
    g.minLen = g.node.length ∧ g.maxLen = g.node.length ∧
      (g.node ≠ b!"*" → ∀ v, g.matches v = .ok (decide (g.node = v))) :=
  ⟨((parseGlob_lens h).2 hi).1, ((parseGlob_lens h).2 hi).2, fun hs v => literal_matches h hi hs v⟩

example : ∃ g, parseGlob ((b! "{a}[б]") ++ 255 :: (b! "[c]d")) = .ok (.ok g) ∧ g.items.length = 0 ∧
    g.node = utf8 "aб�cd".toList ∧ g.minLen = 8 := ⟨_, rfl, by decide +kernel, by decide +kernel, by decide +kernel⟩

/-- `a?[б-я]{b,cde}`: five to ten bytes. -/
def exTs : List Tok := [.sub (.lit 'a'), .sub .any, .sub (.cls [.range 'б' 'я']),
  .alt [[.lit 'b'], [.lit 'c', .lit 'd', .lit 'e']]]

example : (∀ t ∈ exTs, t.Ok) ∧ MaxOk exTs ∧ Fits exTs "a𝄞яcde".toList := by decide +kernel
example : ∃ g, parseGlob (utf8 (renderGlob exTs)) = .ok (.ok g) ∧ g.minLen = 5 ∧ g.maxLen = 10 :=
  ⟨_, rfl, by decide +kernel⟩
example : (utf8 "a𝄞яcde".toList).length = 10 := by decide +kernel

/-- `{a*b,c}` gets `MaxLen = 1`, although `axxb` fits. -/
theorem max_len_wrong : let ts : List Tok := [.alt [[.lit 'a', .star, .lit 'b'], [.lit 'c']]]
    (∀ t ∈ ts, t.Ok) ∧ Fits ts "axxb".toList ∧
    ∃ g, parseGlob (utf8 (renderGlob ts)) = .ok (.ok g) ∧ g.maxLen = 1 :=
  ⟨by decide +kernel, by decide +kernel, _, rfl, by decide +kernel⟩

end C06
end GoMatcher
