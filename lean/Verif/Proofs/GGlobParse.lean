import Verif.Proofs.GGlob
import Verif.Proofs.GlobExact
import Verif.Spec.Dotted

/-! # Parsing of written dotted globs -/

namespace GoMatcher

theorem dot_mem_utf8 (cs : List Char) : (46 : UInt8) ∈ utf8 cs ↔ '.' ∈ cs := by
  rw [mem_utf8_ascii (by decide)]
  constructor
  · rintro ⟨c, hc, e⟩
    have : c = '.' := by
      apply Char.ext
      apply UInt32.toNat_inj.1
      exact e
    rwa [← this]
  · intro h
    exact ⟨_, h, rfl⟩

theorem trimDot_joinByte {ps : List Str} (h1 : ps ≠ []) (h2 : ∀ p ∈ ps, (46 : UInt8) ∉ p)
    (h3 : ps.getLast? ≠ some []) : trimDot (joinByte 46 ps) = joinByte 46 ps := by
  unfold trimDot
  rw [if_neg]
  induction ps with
  | nil => exact absurd rfl h1
  | cons p ps ih =>
    cases ps with
    | nil =>
      intro h
      have : (46 : UInt8) ∈ p := List.mem_of_getLast? h
      exact h2 p (by simp) this
    | cons q r =>
      rw [joinByte_cons_cons, List.getLast?_append]
      have := ih (by simp) (fun p hp => h2 p (by simp [hp])) (by simpa using h3)
      intro h
      cases hj : joinByte 46 (q :: r) with
      | nil =>
        cases r with
        | nil =>
          rw [show q = [] from hj] at h3
          exact h3 rfl
        | cons r0 r => rw [joinByte_cons_cons] at hj; simp at hj
      | cons a l =>
        rw [hj] at h this
        rw [List.getLast?_cons_cons] at h
        cases hl : (a :: l).getLast? with
        | none => simp at hl
        | some z =>
          rw [hl] at h this
          exact this (by simpa using h)

theorem joinByte_ne_nil {ps : List Str} (h1 : ps ≠ []) (h3 : ps.getLast? ≠ some []) :
    joinByte 46 ps ≠ [] := by
  cases ps with
  | nil => exact absurd rfl h1
  | cons p ps =>
    cases ps with
    | nil => intro h; exact h3 (by simpa [joinByte] using h)
    | cons q r => rw [joinByte_cons_cons]; simp

theorem pathSplit_joinByte {ps : List Str} (h1 : ps ≠ []) (h2 : ∀ p ∈ ps, (46 : UInt8) ∉ p)
    (h3 : ps.getLast? ≠ some []) : pathSplit (joinByte 46 ps) = ps := by
  rw [pathSplit_eq, if_neg (joinByte_ne_nil h1 h3), trimDot_joinByte h1 h2 h3,
    splitByte_joinByte h1 h2]

theorem pathSplit_joinByte_dot {ps : List Str} (h1 : ps ≠ []) (h2 : ∀ p ∈ ps, (46 : UInt8) ∉ p) :
    pathSplit (joinByte 46 ps ++ [46]) = ps := by
  rw [pathSplit_eq, if_neg (by simp), trimDot_concat, splitByte_joinByte h1 h2]

theorem dropEmptyEnd_id {ps : List Str} (h : ps.getLast? ≠ some []) : dropEmptyEnd ps = ps := by
  unfold dropEmptyEnd
  rw [if_neg h]

/-- The parts of a parsed written dotted glob. -/
theorem dotted_parse (gts : List (List Tok)) (hne : gts ≠ []) (hok : ∀ ts ∈ gts, PartOk ts) :
    ∃ g, parseGGlob (dottedText gts) = .ok (.ok g) ∧ g.glob = dottedText gts ∧
      gts.length = g.parts.length ∧
      (∀ x ∈ gts.zip g.parts, GlobOk x.1 x.2) ∧
      g.node = joinByte 46 (g.parts.map Glob.node) ∧
      g.minLen = g.parts.foldl (fun n g => n + g.minLen) 0 ∧
      g.maxLen = g.parts.foldl (fun n g => addMaxLen n g.maxLen) 0 ∧
      ∀ x ∈ gts.zip g.parts, parseGlob (utf8 (renderGlob x.1)) = .ok (.ok x.2) := by
  let ps := gts.map fun ts => utf8 (renderGlob ts)
  have h1 : ps ≠ [] := by simpa [ps] using hne
  have h2 : ∀ p ∈ ps, (46 : UInt8) ∉ p := by
    intro p hp
    obtain ⟨ts, hts, rfl⟩ := List.mem_map.1 hp
    rw [dot_mem_utf8]
    exact (hok ts hts).2.2
  have h3 : ∀ p ∈ ps, p ≠ [] := by
    intro p hp
    obtain ⟨ts, hts, rfl⟩ := List.mem_map.1 hp
    simpa using (hok ts hts).2.1
  have h4 : ps.getLast? ≠ some [] := fun h => h3 _ (List.mem_of_getLast? h) rfl
  have key : ∀ gts : List (List Tok), (∀ ts ∈ gts, PartOk ts) → ∃ gs : List Glob,
      gts.length = gs.length ∧ (∀ x ∈ gts.zip gs, GlobOk x.1 x.2 ∧ parseGlob (utf8 (renderGlob x.1)) = .ok (.ok x.2)) ∧
      ∀ x ∈ gs.zip (gts.map fun ts => utf8 (renderGlob ts)),
        x.2 ≠ [] ∧ parseGlob x.2 = .ok (.ok x.1) := by
    intro gts
    induction gts with
    | nil => intro _; exact ⟨[], rfl, by simp, by simp⟩
    | cons ts gts ih =>
      intro h
      obtain ⟨gs, e1, e2, e3⟩ := ih (fun ts hts => h ts (by simp [hts]))
      obtain ⟨g, p1, p2⟩ := parse_spec ts (h ts (by simp)).1
      refine ⟨g :: gs, by simp [e1], ?_, ?_⟩
      · intro x hx
        rw [List.zip_cons_cons, List.mem_cons] at hx
        rcases hx with rfl | hx
        · exact ⟨p2, p1⟩
        · exact e2 x hx
      · intro x hx
        rw [List.map_cons, List.zip_cons_cons, List.mem_cons] at hx
        rcases hx with rfl | hx
        · exact ⟨by simpa using (h ts (by simp)).2.1, p1⟩
        · exact e3 x hx
  obtain ⟨gs, e1, e2, e3⟩ := key gts hok
  have hloop : ggParseLoop (dottedText gts) (dottedText gts) = .ok (.ok gs) := by
    rw [show dottedText gts = joinByte 46 ps from rfl,
      ggParseLoop_ok _ _ _ (joinByte_ne_nil h1 h4), splitByte_joinByte h1 h2, dropEmptyEnd_id h4]
    exact ⟨by simp [ps, e1], e3⟩
  have htrim : trimDot (dottedText gts) = dottedText gts := trimDot_joinByte h1 h2 h4
  have hp : ∃ g, parseGGlob (dottedText gts) = .ok (.ok g) := by
    unfold parseGGlob
    rw [pathLevel_eq, htrim]
    dsimp only
    rw [hloop]
    exact ⟨_, rfl⟩
  obtain ⟨g, hg⟩ := hp
  obtain ⟨q1, q2, q3, q4, q5⟩ := parseGGlob_ok hg
  rw [htrim] at q1 q2
  rw [hloop] at q1
  simp only [R.ok.injEq, Except.ok.injEq] at q1
  subst q1
  exact ⟨g, hg, q2, e1, fun x hx => (e2 x hx).1, q3, q4, q5, fun x hx => (e2 x hx).2⟩

theorem foldl_min (gs : List Glob) (n : Int) :
    gs.foldl (fun n g => n + g.minLen) n = n + (gs.map Glob.minLen).sum := by
  induction gs generalizing n with
  | nil => simp
  | cons g gs ih => rw [List.foldl_cons, ih, List.map_cons, List.sum_cons]; omega

theorem addMaxLen_neg (a : Int) : addMaxLen (-1) a = -1 := by simp [addMaxLen]

theorem foldl_max_inf (gs : List Glob) (m : Int) (h : m = -1 ∨ ∃ g ∈ gs, g.maxLen = -1) :
    gs.foldl (fun n g => addMaxLen n g.maxLen) m = -1 := by
  induction gs generalizing m with
  | nil => rcases h with rfl | ⟨g, hg, _⟩ <;> simp_all
  | cons g gs ih =>
    rw [List.foldl_cons]
    apply ih
    rcases h with rfl | ⟨x, hx, e⟩
    · left; exact addMaxLen_neg _
    · rcases List.mem_cons.1 hx with rfl | hx
      · left; simp [addMaxLen, e]
      · right; exact ⟨x, hx, e⟩

theorem joinByte_length_ge (ps : List Str) : (ps.map List.length).sum ≤ (joinByte 46 ps).length := by
  induction ps with
  | nil => simp [joinByte]
  | cons p ps ih =>
    cases ps with
    | nil => simp [joinByte]
    | cons q r =>
      rw [joinByte_cons_cons, List.map_cons, List.sum_cons, List.length_append, List.length_cons]
      omega

end GoMatcher
