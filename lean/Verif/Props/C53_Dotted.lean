import Verif.Props.C11_C12_GGlob
import Verif.Props.C51_Accepted

/-! # C53: which byte strings are accepted as dotted globs -/

namespace GoMatcher

/-- `s` is made of the non-empty parts `ps`, with a dot between any two of them and at most two
dots at the end. -/
def Dotted (s : Str) (ps : List Str) : Prop :=
  ps ≠ [] ∧ (∀ p ∈ ps, p ≠ [] ∧ (46 : UInt8) ∉ p) ∧
    (s = joinByte 46 ps ∨ s = joinByte 46 ps ++ [46] ∨ s = joinByte 46 ps ++ [46, 46])

theorem joinByte_concat_nil {ps : List Str} (h : ps ≠ []) :
    joinByte 46 (ps ++ [[]]) = joinByte 46 ps ++ [46] := by
  induction ps with
  | nil => exact absurd rfl h
  | cons p ps ih =>
    cases ps with
    | nil => rfl
    | cons q r =>
      rw [List.cons_append, List.cons_append, joinByte_cons_cons, joinByte_cons_cons,
        ← List.cons_append, ih (by simp)]
      simp

theorem trimDot_eq (s : Str) : trimDot s = s ∨ s = trimDot s ++ [46] := by
  unfold trimDot
  split
  · rename_i h
    right
    obtain ⟨l, rfl⟩ := List.getLast?_eq_some_iff.1 h
    simp
  · exact .inl rfl

/-- The parts of a text that is cut at its dots. -/
theorem Dotted.split {s : Str} {ps : List Str} (h : Dotted s ps) :
    trimDot s ≠ [] ∧ dropEmptyEnd (splitByte (trimDot s) 46) = ps ∧
      (trimDot s = joinByte 46 ps ∨ trimDot s = joinByte 46 ps ++ [46]) := by
  obtain ⟨h1, h2, h3⟩ := h
  have hl : ps.getLast? ≠ some [] := fun h => (h2 _ (List.mem_of_getLast? h)).1 rfl
  have hn : ∀ p ∈ ps, (46 : UInt8) ∉ p := fun p hp => (h2 p hp).2
  have hj := joinByte_ne_nil h1 hl
  rcases h3 with rfl | rfl | rfl
  · rw [trimDot_joinByte h1 hn hl, splitByte_joinByte h1 hn, dropEmptyEnd_id hl]
    exact ⟨hj, rfl, .inl rfl⟩
  · rw [trimDot_concat, splitByte_joinByte h1 hn, dropEmptyEnd_id hl]
    exact ⟨hj, rfl, .inl rfl⟩
  · rw [show joinByte 46 ps ++ [46, 46] = (joinByte 46 ps ++ [46]) ++ [46] by simp, trimDot_concat,
      ← joinByte_concat_nil h1, splitByte_joinByte (by simp) (by
        intro p hp
        rcases List.mem_append.1 hp with hp | hp
        · exact hn p hp
        · rw [List.mem_singleton.1 hp]; simp)]
    refine ⟨by rw [joinByte_concat_nil h1]; simp, by simp [dropEmptyEnd], .inr rfl⟩

theorem dotted_of_split {s : Str} (h0 : trimDot s ≠ [])
    (h : ∀ p ∈ dropEmptyEnd (splitByte (trimDot s) 46), p ≠ []) :
    Dotted s (dropEmptyEnd (splitByte (trimDot s) 46)) := by
  have hne := splitByte_ne_nil (trimDot s) 46
  have hno := splitByte_no_sep (trimDot s) 46
  have hj := joinByte_splitByte (trimDot s) 46
  by_cases hl : (splitByte (trimDot s) 46).getLast? = some []
  · obtain ⟨l, hl'⟩ := List.getLast?_eq_some_iff.1 hl
    have he : dropEmptyEnd (splitByte (trimDot s) 46) = l := by
      unfold dropEmptyEnd
      rw [if_pos hl, hl']
      simp
    rw [he] at h ⊢
    have hlne : l ≠ [] := by
      rintro rfl
      rw [hl'] at hj
      exact h0 hj.symm
    rw [hl', joinByte_concat_nil hlne] at hj
    refine ⟨hlne, fun p hp => ⟨h p hp, hno p (by rw [hl']; simp [hp])⟩, ?_⟩
    rcases trimDot_eq s with e | e
    · rw [← e]
      exact .inr (.inl hj.symm)
    · right; right
      rw [e, ← hj]
      simp
  · have he : dropEmptyEnd (splitByte (trimDot s) 46) = splitByte (trimDot s) 46 := dropEmptyEnd_id hl
    rw [he] at h ⊢
    refine ⟨hne, fun p hp => ⟨h p hp, hno p hp⟩, ?_⟩
    rcases trimDot_eq s with e | e
    · left
      rw [hj, e]
    · right; left
      rw [hj]
      exact e

theorem parseGGlob_of_loop {s : Str} {gs : List Glob} (h : ggParseLoop (trimDot s) (trimDot s) = .ok (.ok gs)) :
    ∃ g, parseGGlob s = .ok (.ok g) ∧ g.parts = gs := by
  unfold parseGGlob
  rw [pathLevel_eq]
  dsimp only
  rw [h]
  exact ⟨_, rfl, rfl⟩

theorem parts_exist (ps : List Str) (h : ∀ p ∈ ps, p ≠ [] ∧ ∃ g, parseGlob p = .ok (.ok g)) :
    ∃ gs : List Glob, gs.length = ps.length ∧
      ∀ x ∈ gs.zip ps, x.2 ≠ [] ∧ parseGlob x.2 = .ok (.ok x.1) := by
  induction ps with
  | nil => exact ⟨[], rfl, by simp⟩
  | cons p ps ih =>
    obtain ⟨gs, h1, h2⟩ := ih (fun p hp => h p (by simp [hp]))
    obtain ⟨h3, g, hg⟩ := h p (by simp)
    refine ⟨g :: gs, by simp [h1], ?_⟩
    simp only [List.zip_cons_cons, List.forall_mem_cons]
    exact ⟨⟨h3, hg⟩, h2⟩

namespace C53

/-- `gglob.Parse` on every byte string.  Accepted are the empty string and the single dot (as
globs without parts), and the strings that are made of non-empty parts, each of them a glob that
`glob.Parse` accepts (C51), with single dots between them and at most two dots at the end.
Everything else is an error. -/
theorem accepted_iff (s : Str) :
    ((∃ g, parseGGlob s = .ok (.ok g)) ↔
      s = [] ∨ s = [46] ∨ ∃ ps, Dotted s ps ∧ ∀ p ∈ ps, Row GlobPiece p) ∧
    ((∃ e, parseGGlob s = .ok (.error e)) ↔
      ¬ (s = [] ∨ s = [46] ∨ ∃ ps, Dotted s ps ∧ ∀ p ∈ ps, Row GlobPiece p)) := by
  have key : (∃ g, parseGGlob s = .ok (.ok g)) ↔
      s = [] ∨ s = [46] ∨ ∃ ps, Dotted s ps ∧ ∀ p ∈ ps, Row GlobPiece p := by
    by_cases h0 : trimDot s = []
    · have hs : s = [] ∨ s = [46] := by
        rcases trimDot_eq s with e | e <;> rw [h0] at e
        · exact .inl e.symm
        · exact .inr e
      constructor
      · intro _
        rcases hs with h | h
        · exact .inl h
        · exact .inr (.inl h)
      · intro _
        obtain ⟨g, hg, _⟩ := parseGGlob_of_loop (s := s) (gs := []) (by rw [h0, ggParseLoop])
        exact ⟨g, hg⟩
    · constructor
      · rintro ⟨g, hg⟩
        obtain ⟨h1, _⟩ := parseGGlob_ok hg
        rw [ggParseLoop_ok _ _ _ h0] at h1
        have hp : ∀ p ∈ dropEmptyEnd (splitByte (trimDot s) 46),
            p ≠ [] ∧ ∃ g, parseGlob p = .ok (.ok g) := by
          intro p hp
          obtain ⟨i, hi, rfl⟩ := List.mem_iff_getElem.1 hp
          have := h1.2 (g.parts[i]'(by omega), (dropEmptyEnd (splitByte (trimDot s) 46))[i]) (by
            rw [List.mem_iff_getElem]
            exact ⟨i, by simp only [List.length_zip]; omega, by simp⟩)
          exact ⟨this.1, _, this.2⟩
        exact .inr (.inr ⟨_, dotted_of_split h0 (fun p h => (hp p h).1), fun p h =>
          ((C51.accepted_iff p).1).1 (hp p h).2⟩)
      · rintro (rfl | rfl | ⟨ps, h1, h2⟩)
        · exact absurd rfl h0
        · exact absurd rfl h0
        · obtain ⟨_, e, _⟩ := h1.split
          obtain ⟨gs, g1, g2⟩ := parts_exist ps (fun p hp =>
            ⟨(h1.2.1 p hp).1, ((C51.accepted_iff p).1).2 (h2 p hp)⟩)
          obtain ⟨g, hg, _⟩ := parseGGlob_of_loop (s := s) (gs := gs)
            ((ggParseLoop_ok _ _ _ h0).2 (by rw [e]; exact ⟨g1, g2⟩))
          exact ⟨g, hg⟩
  refine ⟨key, ?_⟩
  rw [← key]
  obtain ⟨r, hr⟩ := parseGGlob_total s
  cases r with
  | ok g => simp [hr]
  | error e => simp [hr]

/-- What an accepted text becomes: one glob per part, in order, the text and the normal form
joined by dots, and the two length bounds as sums (`-1`, no bound, as soon as one part has none). -/
theorem parsed (s : Str) (ps : List Str) (h : Dotted s ps) (g : GGlob)
    (hg : parseGGlob s = .ok (.ok g)) :
    g.parts.length = ps.length ∧ (∀ x ∈ g.parts.zip ps, parseGlob x.2 = .ok (.ok x.1)) ∧
      (g.glob = joinByte 46 ps ∨ g.glob = joinByte 46 ps ++ [46]) ∧
      g.node = joinByte 46 (g.parts.map Glob.node) ∧
      g.minLen = (g.parts.map Glob.minLen).sum ∧
      ((∃ p ∈ g.parts, p.maxLen = -1) → g.maxLen = -1) ∧
      ((∀ p ∈ g.parts, 0 ≤ p.maxLen) → g.maxLen = (g.parts.map Glob.maxLen).sum) := by
  obtain ⟨h1, h2, h3, h4, h5⟩ := parseGGlob_ok hg
  obtain ⟨s1, s2, s3⟩ := h.split
  rw [ggParseLoop_ok _ _ _ s1, s2] at h1
  refine ⟨h1.1, fun x hx => (h1.2 x hx).2, by rw [h2]; exact s3, h3, by rw [h4, foldl_min]; omega,
    fun hx => by rw [h5, foldl_max_inf _ _ (.inr hx)], fun hx => ?_⟩
  rw [h5]
  have : ∀ (gs : List Glob) (n : Int), 0 ≤ n → (∀ p ∈ gs, 0 ≤ p.maxLen) →
      gs.foldl (fun n g => addMaxLen n g.maxLen) n = n + (gs.map Glob.maxLen).sum := by
    intro gs
    induction gs with
    | nil => intro n _ _; simp
    | cons g gs ih =>
      intro n hn hp
      simp only [List.forall_mem_cons] at hp
      have e : addMaxLen n g.maxLen = n + g.maxLen := by
        unfold addMaxLen
        rw [if_pos (by omega)]
      rw [List.foldl_cons, e, ih _ (by omega) hp.2, List.map_cons, List.sum_cons]
      omega
  rw [this _ 0 (by omega) hx]
  omega

/-- The parts are determined by the text. -/
theorem parts_unique (s : Str) (ps qs : List Str) (h : Dotted s ps) (h' : Dotted s qs) : ps = qs := by
  rw [← h.split.2.1, ← h'.split.2.1]

/-- `gglob.ParseMust` panics exactly at the texts that `Parse` refuses, and otherwise returns its
glob. -/
theorem parseMust_spec (s : Str) :
    (parseGGlobMust s = .panic ↔
      ¬ (s = [] ∨ s = [46] ∨ ∃ ps, Dotted s ps ∧ ∀ p ∈ ps, Row GlobPiece p)) ∧
    ∀ g, parseGGlobMust s = .ok g ↔ parseGGlob s = .ok (.ok g) := by
  rw [← (accepted_iff s).2]
  obtain ⟨r, hr⟩ := parseGGlob_total s
  unfold parseGGlobMust
  cases r with
  | ok g => simp [hr]
  | error e => simp [hr]

example : (match parseGGlobMust (b! "a..b") with | .panic => true | _ => false) = true := by
  decide +kernel

/-- `a.{b,c*}.[x-z]..` with an undecodable byte in the first part. -/
example : Dotted ([97, 0xFF] ++ b! ".{b,c*}.[x-z]..") [[97, 0xFF], b! "{b,c*}", b! "[x-z]"] := by
  unfold Dotted
  decide +kernel
example : ∃ g, parseGGlob ([97, 0xFF] ++ b! ".{b,c*}.[x-z]..") = .ok (.ok g) ∧
    decide (g.parts.map Glob.glob = [[97, 0xFF], b! "{b,c*}", b! "[x-z]"] ∧ g.minLen = 4 ∧
      g.maxLen = -1) = true :=
  parsedWith_spec (by decide +kernel)

/-- The error of a refused text. -/
def refusal (s : Str) : Option GGErr :=
  match parseGGlob s with
  | .ok (.error e) => some e
  | _ => none

example : refusal (b! "a..b") = some (.nodeEmpty (b! "a..b")) ∧ refusal (b! "a...") = some (.nodeEmpty (b! "a..")) ∧
    refusal (b! "a.[z-x]") = some (.part (.mismatch (b! "rune") (b! "[z-x]"))) ∧ refusal (b! "a..") = none := by decide +kernel

end C53
end GoMatcher
