import Verif.Proofs.MatchMono

/-! # C04: single-glob matching terminates

`matchItems fuel` cuts the recursion of the Go function (loop rounds counted as calls) at
depth `fuel`, answering `timeout` when the cut is reached.  Termination means that
some depth is never reached, and then more fuel changes nothing. -/

namespace GoMatcher
namespace C04

/-- For every item sequence and every byte string, the depth `2 (|s| + size) + 1` is never
exceeded: the outcome is an answer or a panic, and it is the outcome for any larger
bound. -/
theorem matchItems_terminates (s : Str) (items : List Item) :
    ∃ r : R (Bool × Bool), r ≠ .timeout ∧
      ∀ fuel, 2 * (s.length + Item.size.sizeL items) + 1 ≤ fuel →
        matchItems fuel s items [] = r := by
  refine ⟨matchItems (2 * (s.length + Item.size.sizeL items) + 1) s items [], ?_, ?_⟩
  · have h := (match_done (2 * (s.length + Item.size.sizeL items) + 1)).1 s items []
      (by simp only [meas, sizeN]; omega)
    intro e
    rw [e] at h
    exact h rfl
  · intro fuel hf
    exact matchItems_fuel s items [] (by simp only [meas, sizeN]; omega) hf

/-- `Glob.Match` terminates for every `Glob` value, parsed or not. -/
theorem glob_match_terminates (g : Glob) (s : Str) : g.matches s ≠ .timeout := by
  have key : ∀ t, matchAll t g.items ≠ .timeout := by
    intro t
    obtain ⟨r, h1, h2⟩ := matchItems_terminates t g.items
    rw [matchAll_eq t g.items (Nat.le_refl _), h2 _ (Nat.le_refl _)]
    cases r <;> simp_all [fstR]
  unfold Glob.matches
  dsimp only
  repeat' split
  all_goals first | exact key _ | simp

/-- A pattern with nested choices, many stars and a long text. -/
example : 2 * ((b!"aaaaaaaaab").length + Item.size.sizeL
      [.star 0, .group [.chain [.byte 97, .star 0] 1 (-1), .byte 98] 1 (-1), .star 2, .byte 99]) + 1
    ≤ 60 ∧
    matchItems 60 (b!"aaaaaaaaab")
      [.star 0, .group [.chain [.byte 97, .star 0] 1 (-1), .byte 98] 1 (-1), .star 2, .byte 99] []
      = .ok (false, false) := by decide +kernel

/-- The depth bound matters: a smaller depth is exceeded. -/
example : matchItems 5 (b!"aaaaaaaaab") [.star 0, .byte 97, .byte 99] [] = .timeout := by
  decide +kernel

end C04
end GoMatcher
