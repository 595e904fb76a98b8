import Verif.Proofs.ParseTotal

/-! # C05: `glob.Parse` answers on every input -/

namespace GoMatcher
namespace C05

/-- For every byte string (valid UTF-8 or not) `Parse` returns a glob or an error: no
slice is out of bounds, the "must be empty values in list" panic is unreachable
and the recursion ends. -/
theorem parse_total (s : Str) :
    (∃ e, parseGlob s = .ok (.error e)) ∨ ∃ g, parseGlob s = .ok (.ok g) := by
  obtain ⟨r, hr⟩ := parseGlob_total s
  cases r with
  | error e => exact Or.inl ⟨e, hr⟩
  | ok g => exact Or.inr ⟨g, hr⟩

/-- More recursion depth never changes a token: the budget used by the model is no
restriction. -/
theorem nextItem_total (s : Str) (fuel : Nat) (h : 2 * s.length + 1 ≤ fuel) :
    ∃ r, nextItem fuel s = .ok r ∧ ∀ it rest, r = .ok (it, rest) → rest.length < s.length :=
  (GoMatcher.parse_total fuel).1 s h

/-- `ParseMust` panics exactly when `Parse` reports an error. -/
theorem parseMust_panics_iff (s : Str) :
    parseMust s = .panic ↔ ∃ e, parseGlob s = .ok (.error e) := by
  unfold parseMust
  rcases parse_total s with ⟨e, h⟩ | ⟨g, h⟩
  · rw [h]; simp
  · rw [h]; simp

-- The guarded panic is approached here: a list with an empty alternative written last.
example : ∃ g, parseGlob (b!"x{b,a,}y*") = .ok (.ok g) ∧ g.node = b!"x{,a,b}y*" ∧
    g.items.length = 3 := ⟨_, rfl, by decide +kernel⟩

-- An error, and invalid UTF-8.
example : parseGlob (b!"a{b") = .ok (.error (.unclosed (b! "{b"))) := rfl
example : ∃ g, parseGlob [0xff, 42, 0xc3] = .ok (.ok g) ∧ g.pref = [0xff] ∧ g.suff = [0xc3] :=
  ⟨_, rfl, by decide +kernel⟩

end C05
end GoMatcher
