import Verif.Props.C01_Text
import Verif.Proofs.NoPanic

/-! # C03: whole classes of globs that never panic

Every panic needs a star and, directly behind it, a `?` or U+FFFD.  The shapes of `C01_C03_Match`
allow both at the price of restrictions on braces.  Here braces are free. -/

namespace GoMatcher
namespace C03

/-- No glob without `*` panics: all byte strings, braces of any kind.  Full statement (not true of
the code): all globs. -/
theorem no_panic_without_star_partial (g s : Str) (hg : (42 : UInt8) ∉ g) : ∃ r, matchText g s = .ok r := by
  obtain ⟨r, hr⟩ := parseGlob_total g
  cases r with
  | error e => exact ⟨.error e, by unfold matchText; rw [hr]; rfl⟩
  | ok gl =>
    have hk := parse_kinds kind_noStar hr hg
    have hn : NoPan false gl.items := noPan_kinds (fun x rest hx h => by
      cases x <;> first
        | exact hx.elim
        | exact .any h
        | exact .lit (by simp [LitSafe]) h) (fun l rest h => .list h (by simp)) _ hk
    obtain ⟨b, hb⟩ := matches_of_noPan hn s
    exact ⟨_, matchText_ok hr hb⟩

/-- No glob without `?` and U+FFFD panics, whatever bytes are matched: braces of any kind.  Full
statement (not true of the code): all globs. -/
theorem no_panic_without_any_partial (g : List Char) (hg : ∀ c ∈ g, c ≠ '?' ∧ c ≠ '�') (s : Str) :
    ∃ r, matchText (utf8 g) s = .ok r := by
  obtain ⟨r, hr⟩ := parseGlob_total (utf8 g)
  cases r with
  | error e => exact ⟨.error e, by unfold matchText; rw [hr]; rfl⟩
  | ok gl =>
    have hu : NoAnyText (utf8 g) :=
      ⟨⟨g, rfl, fun c hc => (hg c hc).2⟩,
        not_mem_utf8 (x := '?') (by decide) (by decide) fun hm => (hg _ hm).1 rfl⟩
    have hk := parse_kinds kind_noAny hr hu
    have hn : NoPan true gl.items := noPan_kinds (fun x rest hx h => by
      cases x with
      | rune r => exact .lit (fun _ => hx) h.of_false
      | str w => exact .lit trivial h.of_false
      | byte b => exact .lit trivial h.of_false
      | ranges rs => exact .lit trivial h.of_false
      | star n => exact .star h
      | any n => exact hx.elim
      | list l => exact hx.elim
      | group v a b => exact hx.elim
      | chain v a b => exact hx.elim) (fun l rest h => .list h.of_false (fun _ _ => h)) _ hk
    obtain ⟨b, hb⟩ := matches_of_noPan hn.of_false s
    exact ⟨_, matchText_ok hr hb⟩

/-- `{?[],[b-]a,}x{a,<0xFF>}?`: outside the shapes, with an undecodable byte. -/
example : (42 : UInt8) ∉ [123, 63, 91, 93, 44, 91, 98, 45, 93, 97, 44, 125, 120, 123, 97, 44, 0xFF, 125, 63] ∧
    matchText [123, 63, 91, 93, 44, 91, 98, 45, 93, 97, 44, 125, 120, 123, 97, 44, 0xFF, 125, 63]
      [0xFF, 120, 0xFF, 98] = .ok (.ok true) := by decide +kernel
/-- `*{*a,b}*{b*,c}`: a group with stars behind a star, outside of `Shape true`. -/
example : let ts : List Tok := [.sub .star, .alt [[.star, .lit 'a'], [.lit 'b']], .sub .star,
      .alt [[.lit 'b', .star], [.lit 'c']]]
    ¬ Shape true .plain ts ∧ (∀ c ∈ renderGlob ts, c ≠ '?' ∧ c ≠ '�') ∧
    matchText (utf8 (renderGlob ts)) [98, 0xFF, 98] = .ok (.ok true) := by decide +kernel

end C03
end GoMatcher
