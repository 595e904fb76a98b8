import Verif.Proofs.LongTexts
import Verif.Props.C01_Text

/-! # C67: `MinLen` and `MaxLen` are the lengths of a shortest and a longest text

C06 says that the two numbers are bounds.  Here they are attained: no larger `MinLen` and no
smaller `MaxLen` would do, and `MaxLen = -1` is written only where lengths are unbounded.

The texts of globs are shorter than `2^63 - 1` bytes, as every Go string is (the model's strings
are not limited, and `NewItemList` starts its search for a minimum from the largest `int`,
pkg/items/stringlist.go:239). -/

namespace GoMatcher
namespace C67

/-- `MinLen` is the length of a shortest text, for every written glob. -/
theorem shortest (ts : List Tok) (hok : ∀ t ∈ ts, t.Ok)
    (hlt : (utf8 (renderGlob ts)).length < 2 ^ 63 - 1) :
    ∃ g, parseGlob (utf8 (renderGlob ts)) = .ok (.ok g) ∧
      (∃ cs, Fits ts cs ∧ ((utf8 cs).length : Int) = g.minLen) ∧
      ∀ cs, Fits ts cs → g.minLen ≤ (utf8 cs).length := by
  obtain ⟨g, hg, hG⟩ := parse_spec ts hok
  exact ⟨g, hg, min_attained hg hG (wordsLe_render ts) hlt, hG.min⟩

/-- The same for every accepted text, read as the code reads it. -/
theorem shortest_text {s : List Char} {ts : List Tok} (hp : PlainText s)
    (h : GlobText false s ts) (hlt : (utf8 s).length < 2 ^ 63 - 1) :
    ∃ g, parseGlob (utf8 s) = .ok (.ok g) ∧
      (∃ cs, Fits ts cs ∧ ((utf8 cs).length : Int) = g.minLen) ∧
      ∀ cs, Fits ts cs → g.minLen ≤ (utf8 cs).length := by
  obtain ⟨g, hg, hG⟩ := parse_text hp h
  exact ⟨g, hg, min_attained hg hG (wordsLe_text h) hlt, hG.min⟩

theorem utf8_length_zero {cs : List Char} (h : (utf8 cs).length = 0) : cs = [] := by
  have := length_le_utf8 cs
  exact List.length_eq_zero_iff.1 (by omega)

/-- `MinLen = 0` says exactly that the empty text fits. -/
theorem empty_fits (ts : List Tok) (hok : ∀ t ∈ ts, t.Ok)
    (hlt : (utf8 (renderGlob ts)).length < 2 ^ 63 - 1) :
    ∃ g, parseGlob (utf8 (renderGlob ts)) = .ok (.ok g) ∧ 0 ≤ g.minLen ∧
      (g.minLen = 0 ↔ Fits ts []) := by
  obtain ⟨g, hg, ⟨cs, h1, h2⟩, h3⟩ := shortest ts hok hlt
  refine ⟨g, hg, by omega, fun h => ?_, fun h => ?_⟩
  · rw [utf8_length_zero (cs := cs) (by omega)] at h1
    exact h1
  · have := h3 [] h
    simp [utf8] at this
    omega

theorem max_bound {ts : List Tok} {g : Glob} (hG : GlobOk ts g) (hs : ¬ HasStar ts)
    (ha : ∃ cs, Fits ts cs ∧ ((utf8 cs).length : Int) = g.maxLen) :
    ∀ cs, Fits ts cs → (utf8 cs).length ≤ g.maxLen := by
  rcases hG.max (Or.inl fun t ht alts e a hm hst => hs (Or.inr ⟨alts, a, e ▸ ht, hm, hst⟩)) with h | h
  · obtain ⟨cs, _, h2⟩ := ha
    omega
  · exact h

/-- Without a star `MaxLen` is the length of a longest text. -/
theorem longest (ts : List Tok) (hok : ∀ t ∈ ts, t.Ok) (hs : ¬ HasStar ts) :
    ∃ g, parseGlob (utf8 (renderGlob ts)) = .ok (.ok g) ∧
      (∃ cs, Fits ts cs ∧ ((utf8 cs).length : Int) = g.maxLen) ∧
      ∀ cs, Fits ts cs → (utf8 cs).length ≤ g.maxLen := by
  obtain ⟨g, hg, hG⟩ := parse_spec ts hok
  exact ⟨g, hg, max_attained hg hG hs, max_bound hG hs (max_attained hg hG hs)⟩

/-- The same for every accepted text. -/
theorem longest_text {s : List Char} {ts : List Tok} (hp : PlainText s)
    (h : GlobText false s ts) (hs : ¬ HasStar ts) :
    ∃ g, parseGlob (utf8 s) = .ok (.ok g) ∧
      (∃ cs, Fits ts cs ∧ ((utf8 cs).length : Int) = g.maxLen) ∧
      ∀ cs, Fits ts cs → (utf8 cs).length ≤ g.maxLen := by
  obtain ⟨g, hg, hG⟩ := parse_text hp h
  exact ⟨g, hg, max_attained hg hG hs, max_bound hG hs (max_attained hg hG hs)⟩

/-- Full statement (not true of the code): `MaxLen = -1` exactly if the texts of the glob have
unbounded length.  Missing: globs outside `MaxOk`, whose stars stand inside alternatives and end
none of them; see `unbounded_wrong`. -/
theorem unbounded_partial (ts : List Tok) (hok : ∀ t ∈ ts, t.Ok) (hmax : MaxOk ts) :
    ∃ g, parseGlob (utf8 (renderGlob ts)) = .ok (.ok g) ∧
      (g.maxLen = -1 ↔ ∀ n, ∃ cs, Fits ts cs ∧ n ≤ (utf8 cs).length) := by
  obtain ⟨g, hg, hG⟩ := parse_spec ts hok
  refine ⟨g, hg, fun h n => ?_, fun h => ?_⟩
  · by_cases hs : HasStar ts
    · obtain ⟨cs, h1, h2⟩ := toks_long (fun t ht => tok_stands (hok t ht)) hs n
      exact ⟨cs, h1, Nat.le_trans h2 (length_le_utf8 cs)⟩
    · obtain ⟨cs, _, h2⟩ := max_attained hg hG hs
      omega
  · rcases hG.max hmax with h' | h'
    · exact h'
    · obtain ⟨cs, h1, h2⟩ := h (g.maxLen.toNat + 1)
      have := h' cs h1
      omega

/-- The same for every accepted text.  Missing as in `unbounded_partial`. -/
theorem unbounded_text_partial {s : List Char} {ts : List Tok} (hp : PlainText s)
    (h : GlobText false s ts) (hmax : MaxOk ts) :
    ∃ g, parseGlob (utf8 s) = .ok (.ok g) ∧
      (g.maxLen = -1 ↔ ∀ n, ∃ cs, Fits ts cs ∧ n ≤ (utf8 cs).length) := by
  obtain ⟨g, hg, hG⟩ := parse_text hp h
  refine ⟨g, hg, fun h' n => ?_, fun h' => ?_⟩
  · by_cases hs : HasStar ts
    · obtain ⟨cs, h1, h2⟩ := toks_long (globText_stands h) hs n
      exact ⟨cs, h1, Nat.le_trans h2 (length_le_utf8 cs)⟩
    · obtain ⟨cs, _, h2⟩ := max_attained hg hG hs
      omega
  · rcases hG.max hmax with h2 | h2
    · exact h2
    · obtain ⟨cs, h1, h3⟩ := h' (g.maxLen.toNat + 1)
      have := h2 cs h1
      omega

/-- Lengths of texts are unbounded exactly if there is a star. -/
theorem star_unbounded (ts : List Tok) (hok : ∀ t ∈ ts, t.Ok) :
    HasStar ts ↔ ∀ n, ∃ cs, Fits ts cs ∧ n ≤ (utf8 cs).length := by
  constructor
  · intro hs n
    obtain ⟨cs, h1, h2⟩ := toks_long (fun t ht => tok_stands (hok t ht)) hs n
    exact ⟨cs, h1, Nat.le_trans h2 (length_le_utf8 cs)⟩
  · intro h
    refine Classical.byContradiction fun hs => ?_
    obtain ⟨g, _, _, h2⟩ := longest ts hok hs
    obtain ⟨cs, h3, h4⟩ := h (g.maxLen.toNat + 1)
    have := h2 cs h3
    omega

/-- `{a*b,c}` has texts of every length, but `MaxLen = 1`. -/
theorem unbounded_wrong : let ts : List Tok := [.alt [[.lit 'a', .star, .lit 'b'], [.lit 'c']]]
    (∀ t ∈ ts, t.Ok) ∧ (∀ n, ∃ cs, Fits ts cs ∧ n ≤ (utf8 cs).length) ∧
    ∃ g, parseGlob (utf8 (renderGlob ts)) = .ok (.ok g) ∧ g.maxLen = 1 := by
  intro ts
  have hok : ∀ t ∈ ts, t.Ok := by decide +kernel
  exact ⟨hok, (star_unbounded ts hok).1 (Or.inr ⟨_, _, List.mem_singleton.2 rfl, List.mem_cons_self .., by simp⟩),
    _, rfl, by decide +kernel⟩

/-! ## Examples -/

/-- `a?[б-я]{,cd?}`: shortest `axб`, longest `a𝄞яcd𝄞`. -/
def exTs : List Tok := [.sub (.lit 'a'), .sub .any, .sub (.cls [.range 'б' 'я']),
  .alt [[], [.lit 'c', .lit 'd', .any]]]

example : (∀ t ∈ exTs, t.Ok) ∧ (utf8 (renderGlob exTs)).length < 2 ^ 63 - 1 ∧ MaxOk exTs ∧
    Fits exTs "axб".toList ∧ Fits exTs "a𝄞яcd𝄞".toList := by decide +kernel
example : ¬ HasStar exTs := by simp [HasStar, exTs]
example : ∃ g, parseGlob (utf8 (renderGlob exTs)) = .ok (.ok g) ∧ g.minLen = 4 ∧ g.maxLen = 13 ∧
    (utf8 "axб".toList).length = 4 ∧ (utf8 "a𝄞яcd𝄞".toList).length = 13 :=
  ⟨_, rfl, by decide +kernel⟩

/-- `{,b}*`: the empty text fits. -/
def exStar : List Tok := [.alt [[], [.lit 'b']], .sub .star]

example : (∀ t ∈ exStar, t.Ok) ∧ (utf8 (renderGlob exStar)).length < 2 ^ 63 - 1 ∧ MaxOk exStar ∧
    Fits exStar [] := by decide +kernel
example : ∃ g, parseGlob (utf8 (renderGlob exStar)) = .ok (.ok g) ∧ g.minLen = 0 ∧ g.maxLen = -1 :=
  ⟨_, rfl, by decide +kernel⟩

-- `x[]{a*}[a-c-]{b[-],?}` has five to eight bytes
example : PlainText C01.exText ∧ GlobText false C01.exText C01.exTextTs ∧
    (utf8 C01.exText).length < 2 ^ 63 - 1 :=
  ⟨by unfold PlainText; decide +kernel, C01.exText_reads, by decide +kernel⟩
example : ¬ HasStar C01.exTextTs := by simp [HasStar, C01.exTextTs]
example : ∃ g, parseGlob (utf8 C01.exText) = .ok (.ok g) ∧ g.minLen = 5 ∧ g.maxLen = 8 :=
  ⟨_, rfl, by decide +kernel⟩

end C67
end GoMatcher
