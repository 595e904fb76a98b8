import Verif.Props.C06_Lengths
import Verif.Proofs.TextParse

/-! # C01, C02, C03, C06, C51: all glob texts

The theorems of `C01_C03_Match` start from tokens and their written form.  Here the text comes
first: `GlobText` says how any text is read (see `Spec/GlobText`), and a text without
reading is refused.  Texts with U+FFFD or NUL are left out. -/

namespace GoMatcher
namespace C51

/-- Full statement: for every text.  Missing: texts with U+FFFD or NUL, and byte strings that are
not UTF-8; `accepted_iff` in `C51_Accepted` covers them. -/
theorem accepted_iff_partial (g : List Char) (hp : ∀ c ∈ g, c.toNat ≠ 0xFFFD ∧ c.toNat ≠ 0) :
    (∃ gl, parseGlob (utf8 g) = .ok (.ok gl)) ↔ ∃ ts, GlobText true g ts := by
  constructor
  · rintro ⟨gl, h⟩
    exact parse_inv hp h
  · rintro ⟨ts, h⟩
    rcases parse_raw hp h with ⟨_, hl⟩ | ⟨l0, tm, l1, raws, _, _, _, h⟩
    · exact ⟨_, parse_plain hl⟩
    · exact ⟨_, h _ rfl⟩

/-- The same for texts without braces, where a reading is just a row of characters, `?`, `*` and
well-formed classes. -/
theorem accepted_noBraces_partial (g : List Char) (hp : ∀ c ∈ g, c.toNat ≠ 0xFFFD ∧ c.toNat ≠ 0)
    (hb : '{' ∉ g) :
    (∃ gl, parseGlob (utf8 g) = .ok (.ok gl)) ↔ ∃ ss, SubText g ss := by
  rw [accepted_iff_partial g hp]
  constructor
  · rintro ⟨ts, h⟩; exact h.subs hb
  · rintro ⟨ss, h⟩
    obtain ⟨ts, h1, _⟩ := h.glob
    exact ⟨ts, h1.loosen⟩

/-- A text has only one reading. -/
theorem reading_unique {loose : Bool} {g : List Char} {ts ts' : List Tok}
    (h : GlobText loose g ts) (h' : GlobText loose g ts') : ts = ts' := h.unique h'

/-- `{*,[}` is accepted, because nothing behind `*` is read; `{a,[}` is refused. -/
example : GlobText true ['{', '*', ',', '[', '}'] [.alt [[.star]]] :=
  .star (p := ['{', '*', ',', '[', '}']) (g := []) (parts := [['*'], ['[']])
    ⟨rfl, by decide, by decide⟩ (by decide) ⟨['['], by decide, by decide⟩ (by
      intro a ha
      rintro ⟨c, h1, h2⟩
      rcases List.mem_cons.1 ha with rfl | ha
      · injection h1 with h1; subst h1; exact absurd h2 (by decide)
      · rw [List.mem_singleton.1 ha] at h1
        injection h1 with h1; subst h1; exact absurd h2 (by decide)) .nil
example : (∃ g, parseGlob (b! "{*,[}") = .ok (.ok g) ∧ g.items = [.star 0]) ∧
    parseGlob (b! "{a,[}") = .ok (.error (.mismatch (b! "rune") (b! "["))) := by
  refine ⟨⟨_, rfl, ?_⟩, ?_⟩ <;> rfl
example : SubText ['a', '[', '-', ']'] [.lit 'a'] :=
  .cons (p := ['a']) (.lit (by decide)) <|
  .empty (p := ['[', '-', ']']) (g := [])
    ⟨['-'], rfl, by decide, .skip (.inl rfl) .nil, by decide⟩ .nil

end C51

namespace C01

/-- Full statement (not true of the code): for every text `g` that is read as `ts` and every
text `cs`.  Missing: readings outside `Shape true`/`MaxOk`, readings that describe just
the text `*`, alternatives of which empty classes leave nothing (`empty_class_wrong`) or just a
star (`GlobText true` instead of `GlobText false`), NUL, U+FFFD in the glob, and U+FFFD in `cs` if
the glob has a class. -/
theorem match_exact_text_partial (g : List Char) (hp : ∀ c ∈ g, c.toNat ≠ 0xFFFD ∧ c.toNat ≠ 0)
    (ts : List Tok) (h : GlobText false g ts) (hshape : Shape true .plain ts) (hmax : MaxOk ts)
    (hstar : ¬ ∀ cs, Fits ts cs ↔ cs = ['*'])
    (cs : List Char) (hcs : '[' ∉ g ∨ ∀ c ∈ cs, c.toNat ≠ 0xFFFD) :
    ∃ b, matchText (utf8 g) (utf8 cs) = .ok (.ok b) ∧ (b = true ↔ Fits ts cs) := by
  obtain ⟨gl, hg, hG⟩ := parse_text hp h
  obtain ⟨b, hb, h1, h2⟩ := matches_spec hG hshape hstar cs
  exact ⟨b, matchText_ok hg hb, h1, h2 rfl (parse_clean hg hcs) hmax⟩

theorem maxOk_subs (ss : List Sub) : MaxOk (ss.map Tok.sub) := by
  left
  intro t ht alts e
  obtain ⟨s, _, rfl⟩ := List.mem_map.1 ht
  cases e

/-- Every text without `{`: `Match` is exact, unless the text describes just `*`; then `Match`
accepts everything; or the text is refused.  Missing: braces, and U+FFFD in `cs` if the text has a
class. -/
theorem match_every_noBraces_partial (g : List Char) (hp : ∀ c ∈ g, c.toNat ≠ 0xFFFD ∧ c.toNat ≠ 0)
    (hb : '{' ∉ g) :
    (∃ ss, SubText g ss ∧
      ((∀ cs : List Char, ('[' ∉ g ∨ ∀ c ∈ cs, c.toNat ≠ 0xFFFD) →
        ∃ b, matchText (utf8 g) (utf8 cs) = .ok (.ok b) ∧ (b = true ↔ subsFit ss cs)) ∨
       ((∀ cs, subsFit ss cs ↔ cs = ['*']) ∧ ∀ s, matchText (utf8 g) s = .ok (.ok true)))) ∨
    ((¬ ∃ ss, SubText g ss) ∧ ∀ s, ∃ e, matchText (utf8 g) s = .ok (.error e)) := by
  by_cases hx : ∃ ss, SubText g ss
  · left
    obtain ⟨ss, hs⟩ := hx
    obtain ⟨gl, hg, hG⟩ := parse_noBraces hp hs
    refine ⟨ss, hs, ?_⟩
    have exact' : (gl.node = [42] → ¬ ∀ cs, Fits (ss.map Tok.sub) cs ↔ cs = ['*']) →
        ∀ cs : List Char, ('[' ∉ g ∨ ∀ c ∈ cs, c.toNat ≠ 0xFFFD) →
        ∃ b, matchText (utf8 g) (utf8 cs) = .ok (.ok b) ∧ (b = true ↔ subsFit ss cs) := by
      intro hst cs hcs
      obtain ⟨b, hb, h1, h2⟩ := matches_spec' hG (shape_subs_plain true ss) (fun _ => hst) cs
      have h3 := h2 rfl (parse_clean hg hcs) (maxOk_subs ss)
      rw [fits_subs] at h1 h3
      exact ⟨b, matchText_ok hg hb, h1, h3⟩
    by_cases hn : gl.node = [42]
    · by_cases hst : ∀ cs, subsFit ss cs ↔ cs = ['*']
      · refine .inr ⟨hst, fun s => matchText_ok hg ?_⟩
        unfold Glob.matches
        rw [if_pos hn]
      · refine .inl (exact' fun _ h => hst fun cs => ?_)
        rw [← fits_subs]
        exact h cs
    · exact .inl (exact' fun h => absurd h hn)
  · right
    refine ⟨hx, fun s => ?_⟩
    obtain ⟨r, hr⟩ := parseGlob_total (utf8 g)
    cases r with
    | ok gl => exact absurd ((C51.accepted_noBraces_partial g hp hb).1 ⟨gl, hr⟩) hx
    | error e =>
      refine ⟨e, ?_⟩
      unfold matchText
      rw [hr]
      rfl

/-- `x[]{a*}[a-c-]{b[-],?}`: an empty class, braces with one alternative (literal text), a class with a
dash at the end, an empty class in an alternative. -/
def exText : List Char :=
  ['x', '[', ']', '{', 'a', '*', '}', '[', 'a', '-', 'c', '-', ']', '{', 'b', '[', '-', ']',
    ',', '?', '}']

def exTextTs : List Tok := [.sub (.lit 'x'), .alt [[]], .alt [[.lit 'a', .lit '*']],
  .sub (.cls [.range 'a' 'c']), .alt [[.lit 'b'], [.any]]]

theorem exText_reads : GlobText false exText exTextTs :=
  .sub (p := ['x']) (.lit (by decide)) <|
  .empty (p := ['[', ']']) ⟨[], rfl, by decide, .nil, by decide⟩ <|
  .same (p := ['{', 'a', '*', '}']) (a := ['a', '*']) (parts := [['a', '*']])
    ⟨rfl, by decide, by decide⟩ (by decide) <|
  .sub (p := ['[', 'a', '-', 'c', '-', ']']) (.cls (body := ['a', '-', 'c', '-']) (es := [('a', 'c')])
    ⟨by decide, .range 0 (by decide) (by decide) (by decide) (.skip (.inl rfl) .nil), by decide⟩
    (by decide)) <|
  .alts (p := ['{', 'b', '[', '-', ']', ',', '?', '}']) (g := [])
    (parts := [['b', '[', '-', ']'], ['?']]) ⟨rfl, by decide, by decide⟩ (by decide)
    ⟨['b', '[', '-', ']'], by decide, ['?'], by decide, by decide⟩
    (.cons (.cons (p := ['b']) (.lit (by decide)) (.empty (p := ['[', '-', ']']) (g := [])
      ⟨['-'], rfl, by decide, .skip (.inl rfl) .nil, by decide⟩ .nil)) (by decide)
      (.cons (.cons (p := ['?']) .any .nil) (by decide) .nil))
    .nil

example : (∀ c ∈ exText, c.toNat ≠ 0xFFFD ∧ c.toNat ≠ 0) ∧ Shape true .plain exTextTs ∧
    MaxOk exTextTs ∧ Fits exTextTs "xa*cЯ".toList ∧ ¬ Fits exTextTs "xabcЯ".toList := by
  decide +kernel
example : ¬ ∀ cs, Fits exTextTs cs ↔ cs = ['*'] := fun h =>
  absurd ((h "xa*cЯ".toList).1 (by decide +kernel)) (by decide)
example : matchText (utf8 exText) (utf8 "xa*cЯ".toList) = .ok (.ok true) ∧
    matchText (utf8 exText) (utf8 "xabcЯ".toList) = .ok (.ok false) := by decide +kernel

/-- An alternative that consists of an empty class is not the empty alternative behind a star:
`*{[],a?}` refuses `xyz`, though everything fits its reading `*{,a?}`. -/
theorem empty_class_wrong : let ts : List Tok := [.sub .star, .alt [[], [.lit 'a', .any]]]
    GlobText true "*{[],a?}".toList ts ∧ Shape true .plain ts ∧ MaxOk ts ∧ Fits ts "xyz".toList ∧
    matchText (b! "*{[],a?}") (b! "xyz") = .ok (.ok false) ∧
    matchText (b! "*{,a?}") (b! "xyz") = .ok (.ok true) := by
  refine ⟨?_, by decide +kernel, by decide +kernel, by decide +kernel, by decide +kernel,
    by decide +kernel⟩
  exact .sub (p := ['*']) .star <|
    .alts (p := ['{', '[', ']', ',', 'a', '?', '}']) (g := []) (parts := [['[', ']'], ['a', '?']])
      ⟨rfl, by decide, by decide⟩ (by decide) ⟨['[', ']'], by decide, ['a', '?'], by decide, by decide⟩
      (.cons (.empty (p := ['[', ']']) (g := []) ⟨[], rfl, by decide, .nil, by decide⟩ .nil) (by decide)
        (.cons (.cons (p := ['a']) (.lit (by decide)) (.cons (p := ['?']) .any .nil)) (by decide) .nil))
      .nil

/-- The three cases of `match_every_noBraces_partial`. -/
example : SubText ['a', '[', ']', '*', '[', 'b', '-', ']'] [.lit 'a', .star, .cls [.range 'b' 'b']] :=
  .cons (p := ['a']) (.lit (by decide)) <|
  .empty (p := ['[', ']']) ⟨[], rfl, by decide, .nil, by decide⟩ <|
  .cons (p := ['*']) .star <|
  .cons (p := ['[', 'b', '-', ']']) (g := []) (.cls (body := ['b', '-']) (es := [('b', 'b')])
    ⟨by decide, .trailing 0 (by decide) (by decide), by decide⟩ (by decide)) .nil
example : matchText (b! "a[]*[b-]") (b! "axxb") = .ok (.ok true) ∧
    matchText (b! "a[]*[b-]") (b! "ax-") = .ok (.ok false) := by decide +kernel
example : matchText (b! "[*]") (b! "ab") = .ok (.ok true) := by decide +kernel
example : matchText (b! "a[c-b]") (b! "ab") = .ok (.error (.mismatch (b! "rune") (b! "[c-b]"))) ∧
    matchText (b! "a]") (b! "a]") = .ok (.error (.unclosed (b! "]"))) := by decide +kernel

end C01

namespace C02

/-- Full statement (not true of the code): for every text that is read as `ts`.  Missing: see
`C01.match_exact_text_partial`; `Shape false` is weaker than `Shape true`, and `MaxOk` is not
needed. -/
theorem match_sound_text_partial (g : List Char) (hp : ∀ c ∈ g, c.toNat ≠ 0xFFFD ∧ c.toNat ≠ 0)
    (ts : List Tok) (h : GlobText false g ts) (hshape : Shape false .plain ts)
    (hstar : ¬ ∀ cs, Fits ts cs ↔ cs = ['*'])
    (cs : List Char) (hm : matchText (utf8 g) (utf8 cs) = .ok (.ok true)) : Fits ts cs := by
  obtain ⟨gl, hg, hG⟩ := parse_text hp h
  obtain ⟨b, hb, h1, _⟩ := matches_spec hG hshape hstar cs
  rw [matchText_ok hg hb] at hm
  injection hm with hm
  injection hm with hm
  exact h1 hm

example : Shape false .plain C01.exTextTs := by decide +kernel

end C02

namespace C03

/-- Full statement (not true of the code): no accepted text panics, on any byte string.  Missing: readings
outside `Shape false`, alternatives of which empty classes leave nothing or just a star, globs with U+FFFD or NUL. -/
theorem match_no_panic_text_partial (g : List Char) (hp : ∀ c ∈ g, c.toNat ≠ 0xFFFD ∧ c.toNat ≠ 0)
    (ts : List Tok) (h : GlobText false g ts) (hshape : Shape false .plain ts) (s : Str) :
    ∃ b, matchText (utf8 g) s = .ok (.ok b) := by
  obtain ⟨gl, hg, hG⟩ := parse_text hp h
  obtain ⟨b, hb⟩ := matches_safe hG hshape s
  exact ⟨b, matchText_ok hg hb⟩

/-- No text without `{`, U+FFFD and NUL panics, whatever bytes are matched.
Missing: braces. -/
theorem no_panic_every_noBraces_partial (g : List Char) (hp : ∀ c ∈ g, c.toNat ≠ 0xFFFD ∧ c.toNat ≠ 0)
    (hb : '{' ∉ g) (s : Str) : ∃ r, matchText (utf8 g) s = .ok r := by
  obtain ⟨r, hr⟩ := parseGlob_total (utf8 g)
  cases r with
  | error e => exact ⟨.error e, by unfold matchText; rw [hr]; rfl⟩
  | ok gl =>
    obtain ⟨ss, hs⟩ := (C51.accepted_noBraces_partial g hp hb).1 ⟨gl, hr⟩
    obtain ⟨gl', hg, hG⟩ := parse_noBraces hp hs
    obtain ⟨b, hb⟩ := matches_safe hG (shape_subs_plain false ss) s
    exact ⟨_, matchText_ok hg hb⟩

example : Shape false .plain C01.exTextTs ∧
    matchText (utf8 C01.exText) [120, 97, 42, 0xff] = .ok (.ok false) := by decide +kernel
example : matchText (b! "[]*[b-]") [0xff, 98] = .ok (.ok true) := by decide +kernel

end C03

namespace C06

/-- Both bounds for every text with a reading.  Full statement (not true of the code): without
`MaxOk`.  Missing too: alternatives of which empty classes leave nothing or just a star, U+FFFD and NUL. -/
theorem lengths_text_partial (g : List Char) (hp : ∀ c ∈ g, c.toNat ≠ 0xFFFD ∧ c.toNat ≠ 0)
    (ts : List Tok) (h : GlobText false g ts) :
    ∃ gl, parseGlob (utf8 g) = .ok (.ok gl) ∧
      (∀ cs, Fits ts cs → gl.minLen ≤ (utf8 cs).length) ∧
      (MaxOk ts → gl.maxLen = -1 ∨ ∀ cs, Fits ts cs → (utf8 cs).length ≤ gl.maxLen) := by
  obtain ⟨gl, hg, hG⟩ := parse_text hp h
  exact ⟨gl, hg, hG.min, hG.max⟩

example : ∃ gl, parseGlob (utf8 C01.exText) = .ok (.ok gl) ∧ gl.minLen = 5 ∧ gl.maxLen = 8 :=
  ⟨_, rfl, by decide +kernel⟩

end C06
end GoMatcher
