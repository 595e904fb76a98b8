import Verif.Proofs.Wildcard
import Verif.Proofs.Utf8Inv
import Verif.Proofs.ClassSearch

/-! # C42, C43: list expansion and glob intersection -/

namespace GoMatcher

namespace C42

/-- The alternatives of `{body}`, as a user reads them: none for `{}`, otherwise the
texts between commas. -/
def alternatives (body : Str) : List Str :=
  if body = [] then [] else splitByte body 44

/-- `ListExpand` returns the written alternatives, strictly increasing (so without
duplicates). -/
theorem listExpand_spec (body : Str) :
    ∃ l, listExpand (b! "{" ++ body ++ b! "}") = some l ∧
      l.Pairwise (fun a b => strLt a b = true) ∧ ∀ x, x ∈ l ↔ x ∈ alternatives body := by
  have hb : b! "{" ++ body ++ b! "}" = 123 :: (body ++ [125]) := by simp
  rw [hb, listExpand_braces]
  unfold alternatives
  by_cases h : body = []
  · simp [h]
  · rw [if_neg h, if_neg h]
    have hne : sortBy strLe (splitByte body 44) ≠ [] := by
      intro h0
      have := (sortBy_perm strLe (splitByte body 44)).length_eq
      rw [h0] at this
      exact splitByte_ne_nil body 44 (List.length_eq_zero_iff.mp this.symm)
    obtain ⟨b, hb1, hb2, hb3⟩ := removeDuplicated_spec _ hne
    refine ⟨_, rfl, ?_, ?_⟩
    · rw [hb1]
      apply dedupAdj_sorted
      exact (sortBy_pairwise strLe strLe_total strLe_trans _).sublist hb2
    · intro x
      rw [hb1, mem_dedupAdj, hb3, mem_sortBy]

/-- Joining what lies between the commas gives the body back: nothing of the written
list is lost by the reading `alternatives`. -/
theorem alternatives_join (body : Str) (h : body ≠ []) :
    joinByte 44 (alternatives body) = body ∧ ∀ x ∈ alternatives body, (44 : UInt8) ∉ x := by
  simp only [alternatives, if_neg h]
  exact ⟨joinByte_splitByte body 44, splitByte_no_sep body 44⟩

/-- Text that is not enclosed in braces is refused. -/
theorem listExpand_refuses (s : Str) (h : ¬ ∃ body, s = b! "{" ++ body ++ b! "}") :
    listExpand s = none := by
  apply listExpand_none
  rintro ⟨body, rfl⟩
  exact h ⟨body, by simp⟩

example : listExpand (b! "{b,a,,b,a,b}") = some [[], b! "a", b! "b"] := by decide +kernel
example : listExpand (b! "{a,b") = none := by decide
example : ¬ ∃ body, b! "{a" = b! "{" ++ body ++ b! "}" := by
  rintro ⟨body, h⟩
  have := congrArg List.getLast? h
  rw [List.getLast?_append] at this
  simp at this

end C42

namespace C43

theorem encodeRune_noWild {r : Nat} (ho : RuneOk r) (h : stopRune r = false) :
    ∀ x ∈ encodeRune r, isWild x = false := by
  intro x hx
  by_cases h80 : r < 0x80
  · rw [encodeRune_ascii h80] at hx
    simp only [List.mem_singleton] at hx
    subst hx
    simp only [stopRune, Bool.or_eq_false_iff, decide_eq_false_iff_not] at h
    have : ∀ k : Nat, k < 128 → r ≠ k → UInt8.ofNat r ≠ UInt8.ofNat k := by
      intro k hk hne heq
      have := congrArg UInt8.toNat heq
      rw [ofNat_toNat_lt (by omega), ofNat_toNat_lt (by omega)] at this
      exact hne this
    simp only [isWild, Bool.or_eq_false_iff, decide_eq_false_iff_not]
    refine ⟨⟨⟨⟨⟨this 91 (by omega) (by omega), this 93 (by omega) (by omega)⟩,
      this 123 (by omega) (by omega)⟩, this 125 (by omega) (by omega)⟩,
      this 42 (by omega) (by omega)⟩, this 63 (by omega) (by omega)⟩
  · have := encodeRune_nonascii ho (by omega) x hx
    simp only [isWild, Bool.or_eq_false_iff, decide_eq_false_iff_not]
    refine ⟨⟨⟨⟨⟨?_, ?_⟩, ?_⟩, ?_⟩, ?_⟩, ?_⟩ <;> (rintro rfl; simp at this)

theorem intersectInner_false {g0 : Str} {pos c0 : Nat} {rest : List Str}
    (h : intersectInner g0 pos c0 rest = false) : ∀ g ∈ rest, pos < g.length := by
  induction rest with
  | nil => simp
  | cons g gs ih =>
    rw [intersectInner] at h
    split at h
    · cases h
    · rename_i h1
      simp only at h
      split at h
      · cases h
      · split at h
        · cases h
        · intro x hx
          rcases List.mem_cons.mp hx with rfl | hx
          · omega
          · exact ih h x hx

theorem intersectLoop_spec (g0 : Str) (rest : List Str) (fuel pos : Nat)
    (hf : g0.length < pos + fuel) (hp : pos ≤ g0.length)
    (hw : ∀ c ∈ g0.take pos, isWild c = false) (hl : ∀ g ∈ rest, pos ≤ g.length + 3) :
    ∃ n, intersectLoop g0 rest fuel pos = .ok (g0.take n) ∧ n ≤ g0.length ∧
      (∀ c ∈ g0.take n, isWild c = false) ∧ ∀ g ∈ rest, n ≤ g.length + 3 := by
  induction fuel generalizing pos with
  | zero => omega
  | succ fuel ih =>
    rw [intersectLoop]
    simp only [sliceFrom, hp, if_true, R.bind_ok, sliceTo]
    by_cases hs : stopRune (decodeRune (g0.drop pos)).1 = true
    · simp only [hs, if_true]; exact ⟨pos, rfl, hp, hw, hl⟩
    · simp only [hs]
      by_cases hi : intersectInner g0 pos (decodeRune (g0.drop pos)).1 rest = true
      · simp only [hi, if_true]; exact ⟨pos, rfl, hp, hw, hl⟩
      · simp only [hi]
        have hne : g0.drop pos ≠ [] := by
          intro h0; rw [h0] at hs; exact hs (by decide)
        have hin := intersectInner_false (by simpa using hi)
        rcases decodeRune_inv hne with h1 | ⟨r, t, ho, hsplit, hd⟩
        · rw [h1] at hs; exact absurd (by decide) hs
        · have hpos := encodeRune_pos r
          have hle := encodeRune_length_le r
          rw [hd] at hs ⊢
          have hlen := congrArg List.length hsplit
          simp only [List.length_drop, List.length_append] at hlen
          apply ih
          · simp only; omega
          · simp only; omega
          · intro c hc
            simp only at hc
            rw [List.take_add, hsplit] at hc
            simp only [List.take_left', List.mem_append] at hc
            rcases hc with hc | hc
            · exact hw c hc
            · exact encodeRune_noWild ho (by simpa using hs) c hc
          · intro g hg
            have := hin g hg
            simp only; omega

/-- What holds of C43: the result is a prefix of the *first* glob, free of wildcard
characters, and at most three bytes longer than any of the other globs; no panic,
no endless loop.  Missing: it need not be a prefix of the other globs
(`intersect_not_common`). -/
theorem intersect_partial (globs : List Str) :
    ∃ p, intersectGlobs globs = .ok p ∧ (∀ c ∈ p, isWild c = false) ∧
      (∀ g0 rest, globs = g0 :: rest → p <+: g0 ∧ ∀ g ∈ rest, p.length ≤ g.length + 3) := by
  cases globs with
  | nil => exact ⟨[], rfl, by simp, by simp⟩
  | cons g0 rest =>
    obtain ⟨n, h1, h2, h3, h4⟩ := intersectLoop_spec g0 rest (g0.length + 1) 0 (by omega) (by omega)
      (by simp) (fun g _ => by omega)
    refine ⟨_, h1, h3, ?_⟩
    rintro g0' rest' heq
    injection heq with e1 e2
    subst e1 e2
    refine ⟨List.take_prefix _ _, ?_⟩
    intro g hg
    have := h4 g hg
    simp; omega

/-- C43 fails: `IntersectGlobs(["abc*", "xyz"])` is `"abc"`, which is no prefix of `xyz`. -/
theorem intersect_not_common :
    intersectGlobs [b! "abc*", b! "xyz"] = .ok (b! "abc") ∧ ¬ (b! "abc" <+: b! "xyz") := by
  decide +kernel

example : intersectGlobs [b! "ab*", b! "abc"] = .ok (b! "ab") := by decide +kernel

end C43
end GoMatcher
