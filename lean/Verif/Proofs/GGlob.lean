import Verif.Model.GGlob
import Verif.Proofs.Path
import Verif.Proofs.ParseTotal

/-! # Dotted globs: the loops of `Match` and `Parse` in terms of split parts -/

namespace GoMatcher

/-- The loop of `GGlob.Match` over the parts of the path. -/
def ggSplit : List Glob → List Str → R Bool
  | g :: gs, p :: ps =>
    if p = [] then .ok false
    else do
      let m ← g.matches p
      if m then ggSplit gs ps else .ok false
  | [], [] => .ok true
  | _, _ => .ok false

theorem ggLoop_split (gs : List Glob) (s : Str) (h : (splitByte s 46).length = gs.length) :
    ggLoop gs s = ggSplit gs (splitByte s 46) := by
  induction gs generalizing s with
  | nil =>
    exact absurd (List.length_eq_zero_iff.1 h) (splitByte_ne_nil _ _)
  | cons g gs ih =>
    obtain ⟨h1, h2⟩ := splitByte_cut s
    rw [h1] at h ⊢
    rw [ggLoop, ggSplit]
    by_cases hp : (cutDot s).1 = []
    · rw [if_pos hp, if_pos hp]
    · rw [if_neg hp, if_neg hp]
      congr 1
      funext m
      cases m with
      | false => rfl
      | true =>
        simp only [if_true]
        by_cases hf : (cutDot s).2.2 = true
        · rw [if_pos hf] at h ⊢
          exact ih _ (by simpa using h)
        · rw [if_neg hf] at h ⊢
          have h3 := h2 (by simpa using hf)
          have : gs = [] := by simpa using h.symm
          subst this
          rw [h3]
          simp [ggLoop, ggSplit]

theorem ggSplit_true (gs : List Glob) (ps : List Str) :
    ggSplit gs ps = .ok true ↔ gs.length = ps.length ∧
      ∀ x ∈ gs.zip ps, x.2 ≠ [] ∧ x.1.matches x.2 = .ok true := by
  induction gs generalizing ps with
  | nil => cases ps <;> simp [ggSplit]
  | cons g gs ih =>
    cases ps with
    | nil => simp [ggSplit]
    | cons p ps =>
      rw [ggSplit]
      by_cases hp : p = []
      · simp [hp]
      · rw [if_neg hp]
        simp only [List.length_cons, Nat.add_right_cancel_iff, List.zip_cons_cons,
          List.forall_mem_cons]
        cases hm : g.matches p with
        | ok m =>
          simp only [R.bind_ok]
          cases m with
          | false => simp
          | true =>
            simp only [if_true]
            rw [ih]
            exact ⟨fun h => ⟨h.1, ⟨hp, trivial⟩, h.2⟩, fun h => ⟨h.1, h.2.2⟩⟩
        | panic => simp
        | timeout => simp

theorem ggSplit_ok (gs : List Glob) (ps : List Str)
    (h : ∀ g ∈ gs, ∀ p ∈ ps, p ≠ [] → ∃ b, g.matches p = .ok b) : ∃ b, ggSplit gs ps = .ok b := by
  induction gs generalizing ps with
  | nil => cases ps <;> exact ⟨_, rfl⟩
  | cons g gs ih =>
    cases ps with
    | nil => exact ⟨_, rfl⟩
    | cons p ps =>
      rw [ggSplit]
      by_cases hp : p = []
      · rw [if_pos hp]; exact ⟨_, rfl⟩
      · rw [if_neg hp]
        obtain ⟨b, hb⟩ := h g (by simp) p (by simp) hp
        rw [hb, R.bind_ok]
        cases b with
        | false => exact ⟨_, rfl⟩
        | true => exact ih ps (fun g hg p hp => h g (by simp [hg]) p (by simp [hp]))

theorem ggSplit_parts (gs : List Glob) (ps : List Str) (hl : gs.length = ps.length)
    (h : ∀ p ∈ ps, p ≠ []) : ggSplit gs ps = ggPartsLoop gs ps := by
  induction gs generalizing ps with
  | nil =>
    have : ps = [] := by simpa using hl.symm
    subst this; rfl
  | cons g gs ih =>
    cases ps with
    | nil => simp at hl
    | cons p ps =>
      rw [ggSplit, ggPartsLoop, if_neg (h p (by simp))]
      congr 1
      funext m
      rw [ih ps (by simpa using hl) (fun p hp => h p (by simp [hp]))]

/-- `GGlob.Match` in terms of the split path. -/
theorem gg_matches_eq (g : GGlob) (path : Str) :
    g.matches path =
      if path ≠ [] ∧ g.parts.length = (pathSplit path).length ∧
          g.minLen ≤ ((pathLevel path).1.length : Int) ∧
          (g.maxLen ≤ 0 ∨ ((pathLevel path).1.length : Int) ≤ g.maxLen)
      then ggSplit g.parts (pathSplit path) else .ok false := by
  unfold GGlob.matches
  rw [pathLevel_eq]
  dsimp only
  by_cases h0 : path = []
  · rw [if_pos h0, if_neg (by simp [h0])]
  rw [if_neg h0]
  by_cases h1 : g.parts.length = (pathSplit path).length
  · rw [if_neg (by simpa using h1)]
    by_cases h2 : ((trimDot path).length : Int) < g.minLen
    · rw [if_pos h2, if_neg (by omega)]
    rw [if_neg h2]
    by_cases h3 : g.maxLen > 0 ∧ ((trimDot path).length : Int) > g.maxLen
    · rw [if_pos h3, if_neg (by omega)]
    rw [if_neg h3, if_pos ⟨h0, h1, by omega, by omega⟩]
    rw [pathSplit_eq, if_neg h0] at h1 ⊢
    exact ggLoop_split _ _ h1.symm
  · rw [if_pos h1, if_neg (by intro h; exact h1 h.2.1)]

theorem gg_byParts_eq (g : GGlob) (ps : List Str) (length : Int) :
    g.matchByParts ps length =
      if ps ≠ [] ∧ g.parts.length = ps.length ∧
          (0 < length → g.minLen ≤ length ∧ (g.maxLen ≤ 0 ∨ length ≤ g.maxLen))
      then ggPartsLoop g.parts ps else .ok false := by
  unfold GGlob.matchByParts
  by_cases h0 : ps = []
  · rw [if_pos (by simp [h0]), if_neg (by simp [h0])]
  rw [if_neg (by simpa using h0)]
  by_cases h1 : g.parts.length = ps.length
  · rw [if_neg (by simpa using h1)]
    by_cases h2 : length > 0 ∧ length < g.minLen
    · rw [if_pos h2, if_neg (by intro h; have := h.2.2 h2.1; omega)]
    rw [if_neg h2]
    by_cases h3 : length > 0 ∧ g.maxLen > 0 ∧ length > g.maxLen
    · rw [if_pos h3, if_neg (by intro h; have := h.2.2 h3.1; omega)]
    rw [if_neg h3, if_pos ⟨h0, h1, by omega⟩]
  · rw [if_pos h1, if_neg (by intro h; exact h1 h.2.1)]

/-! ## Parsing -/

theorem joinNodes_eq (gs : List Glob) : joinNodes gs = joinByte 46 (gs.map Glob.node) := by
  induction gs with
  | nil => rfl
  | cons g gs ih =>
    cases gs with
    | nil => rfl
    | cons h gs => rw [joinNodes, ih]; rfl; simp

theorem ggParseLoop_total (w s : Str) : ∃ r, ggParseLoop w s = .ok r := by
  fun_induction ggParseLoop w s with
  | case1 => exact ⟨_, rfl⟩
  | case2 => exact ⟨_, rfl⟩
  | case3 c t r h ih =>
    obtain ⟨g, hg⟩ := parseGlob_total r.1
    rw [hg, R.bind_ok]
    cases g with
    | error e => exact ⟨_, rfl⟩
    | ok g =>
      dsimp only
      obtain ⟨gs, hgs⟩ := ih
      rw [hgs, R.bind_ok]
      cases gs with
      | error e => exact ⟨_, rfl⟩
      | ok gs => exact ⟨_, rfl⟩

/-- `gglob.Parse` answers on every input. -/
theorem parseGGlob_total (s : Str) : ∃ r, parseGGlob s = .ok r := by
  unfold parseGGlob
  obtain ⟨r, hr⟩ := ggParseLoop_total (pathLevel s).1 (pathLevel s).1
  dsimp only
  rw [hr, R.bind_ok]
  cases r with
  | error e => exact ⟨_, rfl⟩
  | ok gs => exact ⟨_, rfl⟩

theorem parseGGlob_ok {s : Str} {g : GGlob} (h : parseGGlob s = .ok (.ok g)) :
    ggParseLoop (trimDot s) (trimDot s) = .ok (.ok g.parts) ∧ g.glob = trimDot s ∧
    g.node = joinByte 46 (g.parts.map Glob.node) ∧
    g.minLen = g.parts.foldl (fun n g => n + g.minLen) 0 ∧
    g.maxLen = g.parts.foldl (fun n g => addMaxLen n g.maxLen) 0 := by
  unfold parseGGlob at h
  rw [pathLevel_eq] at h
  dsimp only at h
  obtain ⟨r, hr⟩ := ggParseLoop_total (trimDot s) (trimDot s)
  rw [hr, R.bind_ok] at h
  cases r with
  | error e => simp at h
  | ok gs =>
    simp only [R.ok.injEq, Except.ok.injEq] at h
    subst h
    exact ⟨hr, rfl, joinNodes_eq gs, rfl, rfl⟩

/-- The loop of `Parse`: the text parts without a trailing empty one, all non-empty, each
parsed. -/
theorem ggParseLoop_ok (w s : Str) (gs : List Glob) (hs : s ≠ []) :
    ggParseLoop w s = .ok (.ok gs) ↔ gs.length = (dropEmptyEnd (splitByte s 46)).length ∧
      ∀ x ∈ gs.zip (dropEmptyEnd (splitByte s 46)), x.2 ≠ [] ∧ parseGlob x.2 = .ok (.ok x.1) := by
  fun_induction ggParseLoop w s generalizing gs with
  | case1 => exact absurd rfl hs
  | case2 c t r h =>
    obtain ⟨h1, _⟩ := splitByte_cut (c :: t)
    have hr : r = cutDot (c :: t) := rfl
    have hf : r.2.2 = true := by
      rw [hr]
      rw [hr, cutDot] at h
      rw [cutDot]
      by_cases hc : c = 46
      · simp [hc]
      · simp [hc] at h
    rw [h1, ← hr, h, if_pos hf, dropEmptyEnd_cons _ _ (splitByte_ne_nil _ _)]
    constructor
    · simp
    · rintro ⟨e1, e2⟩
      cases gs with
      | nil => simp at e1
      | cons g gs =>
        exact absurd rfl (e2 (g, []) (by simp)).1
  | case3 c t r h ih =>
    obtain ⟨h1, h2⟩ := splitByte_cut (c :: t)
    have hr : r = cutDot (c :: t) := rfl
    rw [← hr] at h1 h2
    have key : ∃ q, dropEmptyEnd (splitByte (c :: t) 46) = r.1 :: q ∧
        ∀ gs, ggParseLoop w r.2.1 = .ok (.ok gs) ↔ gs.length = q.length ∧
          ∀ x ∈ gs.zip q, x.2 ≠ [] ∧ parseGlob x.2 = .ok (.ok x.1) := by
      by_cases hf : r.2.2 = true
      · rw [if_pos hf] at h1
        rw [h1, dropEmptyEnd_cons _ _ (splitByte_ne_nil _ _)]
        refine ⟨_, rfl, fun gs => ?_⟩
        by_cases hz : r.2.1 = []
        · rw [hz]
          simp [ggParseLoop, splitByte, dropEmptyEnd, eq_comm (a := ([] : List Glob))]
        · exact ih gs hz
      · rw [if_neg hf] at h1
        refine ⟨[], by rw [h1]; simp [dropEmptyEnd, h], fun gs => ?_⟩
        rw [h2 (by simpa using hf)]
        simp [ggParseLoop, eq_comm (a := ([] : List Glob))]
    obtain ⟨q, hq, hk⟩ := key
    rw [hq]
    obtain ⟨g, hg⟩ := parseGlob_total r.1
    rw [hg, R.bind_ok]
    cases g with
    | error e =>
      dsimp only
      constructor
      · simp
      · rintro ⟨e1, e2⟩
        cases gs with
        | nil => simp at e1
        | cons g gs =>
          have := (e2 (g, r.1) (by simp)).2
          simp [hg] at this
    | ok g =>
      dsimp only
      obtain ⟨gs', hgs⟩ := ggParseLoop_total w r.2.1
      rw [hgs, R.bind_ok]
      cases gs' with
      | error e =>
        dsimp only
        constructor
        · simp
        · rintro ⟨e1, e2⟩
          cases gs with
          | nil => simp at e1
          | cons g' gs =>
            have := (hk gs).2 ⟨by simpa using e1, fun x hx => e2 x (by simp [hx])⟩
            rw [hgs] at this
            simp at this
      | ok gs' =>
        dsimp only
        obtain ⟨k1, k2⟩ := (hk gs').1 hgs
        constructor
        · intro e
          simp only [R.ok.injEq, Except.ok.injEq] at e
          subst e
          refine ⟨by simp [k1], ?_⟩
          intro x hx
          rw [List.zip_cons_cons, List.mem_cons] at hx
          rcases hx with rfl | hx
          · exact ⟨h, hg⟩
          · exact k2 x hx
        · rintro ⟨e1, e2⟩
          cases gs with
          | nil => simp at e1
          | cons g' gs =>
            have e3 := (e2 (g', r.1) (by simp)).2
            dsimp only at e3
            rw [hg] at e3
            simp only [R.ok.injEq, Except.ok.injEq] at e3
            have := (hk gs).2 ⟨by simpa using e1, fun x hx => e2 x (by simp [hx])⟩
            rw [hgs] at this
            simp only [R.ok.injEq, Except.ok.injEq] at this
            rw [e3, this]

end GoMatcher
