import Verif.Proofs.GGlobParse
import Verif.Props.C01_C03_Match

/-! # C11, C12: `GGlob.Match` and `GGlob.MatchByParts` -/

namespace GoMatcher

/-- `gglob.Parse(glob)` followed by `Match(path)`. -/
def ggMatchText (glob path : Str) : R (Except GGErr Bool) := do
  match ← parseGGlob glob with
  | .error e => .ok (.error e)
  | .ok g => do
    let b ← g.matches path
    .ok (.ok b)

/-- A parsed glob with a decidable property. -/
def parsedWith (glob : Str) (p : GGlob → Bool) : Bool :=
  match parseGGlob glob with
  | .ok (.ok g) => p g
  | _ => false

theorem parsedWith_spec {glob : Str} {p : GGlob → Bool} (h : parsedWith glob p = true) :
    ∃ g, parseGGlob glob = .ok (.ok g) ∧ p g = true := by
  unfold parsedWith at h
  split at h
  · exact ⟨_, by assumption, h⟩
  · simp at h

instance (gts : List (List Tok)) (ps : List (List Char)) : Decidable (DFits gts ps) := by
  unfold DFits; infer_instance
instance (ts : List Tok) : Decidable (PartOk ts) := by unfold PartOk; infer_instance
instance (ps : List (List Char)) : Decidable (PathOk ps) := by unfold PathOk; infer_instance

theorem zip_mem_of {α β γ : Type} {as : List α} {bs : List β} {cs : List γ}
    (h1 : as.length = bs.length) {P : α → β → Prop}
    {Q : β → γ → Prop} {T : α → γ → Prop} (hP : ∀ x ∈ as.zip bs, P x.1 x.2)
    (h : ∀ a ∈ as, ∀ b, P a b → ∀ c ∈ cs, Q b c → T a c) (hQ : ∀ x ∈ bs.zip cs, Q x.1 x.2) :
    ∀ x ∈ as.zip cs, T x.1 x.2 := by
  induction as generalizing bs cs with
  | nil => simp
  | cons a as ih =>
    cases bs with
    | nil => simp at h1
    | cons b bs =>
      cases cs with
      | nil => simp
      | cons c cs =>
        simp only [List.zip_cons_cons, List.forall_mem_cons] at hP hQ ⊢
        exact ⟨h a (by simp) b hP.1 c (by simp) hQ.1, ih (by simpa using h1) hP.2
          (fun a ha b p c hc => h a (by simp [ha]) b p c (by simp [hc])) hQ.2⟩

theorem zip_mem_of' {α β γ : Type} {as : List α} {bs : List β} {cs : List γ}
    (h1 : as.length = bs.length) {P : α → β → Prop}
    {Q : β → γ → Prop} {T : α → γ → Prop} (hP : ∀ x ∈ as.zip bs, P x.1 x.2)
    (h : ∀ a ∈ as, ∀ b, P a b → ∀ c ∈ cs, T a c → Q b c) (hT : ∀ x ∈ as.zip cs, T x.1 x.2) :
    ∀ x ∈ bs.zip cs, Q x.1 x.2 := by
  induction as generalizing bs cs with
  | nil =>
    have : bs = [] := by simpa using h1.symm
    subst this; simp
  | cons a as ih =>
    cases bs with
    | nil => simp
    | cons b bs =>
      cases cs with
      | nil => simp
      | cons c cs =>
        simp only [List.zip_cons_cons, List.forall_mem_cons] at hP hT ⊢
        exact ⟨h a (by simp) b hP.1 c (by simp) hT.1, ih (by simpa using h1) hP.2
          (fun a ha b p c hc => h a (by simp [ha]) b p c (by simp [hc])) hT.2⟩

namespace C11

/-- `Match` for every `GGlob` value and every path (any bytes): the path (without one
trailing dot) has as many parts as the glob, no part is empty, every part is matched, and
the length of the path passes the two length tests. -/
theorem match_iff (g : GGlob) (path : Str) :
    g.matches path = .ok true ↔
      path ≠ [] ∧ g.parts.length = (pathSplit path).length ∧
      (∀ x ∈ g.parts.zip (pathSplit path), x.2 ≠ [] ∧ x.1.matches x.2 = .ok true) ∧
      g.minLen ≤ ((pathLevel path).1.length : Int) ∧
      (g.maxLen ≤ 0 ∨ ((pathLevel path).1.length : Int) ≤ g.maxLen) := by
  rw [gg_matches_eq]
  split
  · rename_i h
    rw [ggSplit_true]
    exact ⟨fun k => ⟨h.1, k.1, k.2, h.2.2.1, h.2.2.2⟩, fun k => ⟨k.2.1, k.2.2.1⟩⟩
  · rename_i h
    constructor
    · intro k; simp at k
    · intro k
      exact absurd ⟨k.1, k.2.1, k.2.2.2.1, k.2.2.2.2⟩ h

/-- `Match` panics or does not return only if a part glob does so on a non-empty part. -/
theorem match_ok (g : GGlob) (path : Str)
    (h : ∀ a ∈ g.parts, ∀ p ∈ pathSplit path, p ≠ [] → ∃ b, a.matches p = .ok b) :
    ∃ b, g.matches path = .ok b := by
  rw [gg_matches_eq]
  split
  · exact ggSplit_ok _ _ h
  · exact ⟨_, rfl⟩

/-- `Parse` on every byte string: an error, or the parts (one trailing dot and then one
trailing empty part dropped) are not empty and are parsed one by one. -/
theorem parse_parts (s : Str) (h : (pathLevel s).1 ≠ []) :
    ∃ r, parseGGlob s = .ok r ∧ ∀ g, r = .ok g →
      g.parts.length = (dropEmptyEnd (pathSplit s)).length ∧
      (∀ x ∈ g.parts.zip (dropEmptyEnd (pathSplit s)),
        x.2 ≠ [] ∧ parseGlob x.2 = .ok (.ok x.1)) ∧
      g.node = joinByte 46 (g.parts.map Glob.node) := by
  obtain ⟨r, hr⟩ := parseGGlob_total s
  refine ⟨r, hr, ?_⟩
  rintro g rfl
  obtain ⟨h1, _, h3, _⟩ := parseGGlob_ok hr
  rw [pathLevel_eq] at h
  dsimp only at h
  have hs : s ≠ [] := by rintro rfl; exact h rfl
  rw [ggParseLoop_ok _ _ _ h] at h1
  rw [pathSplit_eq, if_neg hs]
  exact ⟨h1.1, h1.2, h3⟩

/-- Paths handed to `Match`: with or without a trailing dot. -/
theorem path_split {ps : List (List Char)} (hps : PathOk ps) {path : Str}
    (hpath : path = dottedPath ps ∨ path = dottedPath ps ++ b!".") :
    path ≠ [] ∧ pathSplit path = ps.map utf8 ∧ (pathLevel path).1 = dottedPath ps := by
  obtain ⟨h1, h2, h3⟩ := hps
  have g1 : ps.map utf8 ≠ [] := by simpa using h1
  have g2 : ∀ p ∈ ps.map utf8, (46 : UInt8) ∉ p := by
    intro p hp
    obtain ⟨q, hq, rfl⟩ := List.mem_map.1 hp
    rw [dot_mem_utf8]
    exact h2 q hq
  have g3 : (ps.map utf8).getLast? ≠ some [] := by
    rw [List.getLast?_map]
    cases hl : ps.getLast? with
    | none => simp
    | some z =>
      rw [hl] at h3
      simpa using h3
  rcases hpath with rfl | rfl
  · refine ⟨joinByte_ne_nil g1 g3, pathSplit_joinByte g1 g2 g3, ?_⟩
    rw [pathLevel_eq]
    exact trimDot_joinByte g1 g2 g3
  · refine ⟨by simp, pathSplit_joinByte_dot g1 g2, ?_⟩
    rw [pathLevel_eq]
    exact trimDot_concat _

/-- Soundness of the dotted matcher: a matched path fits part by part. -/
theorem match_sound_partial {ex : Bool} (gts : List (List Tok)) (hne : gts ≠ [])
    (hok : ∀ ts ∈ gts, PartOk ts) (hshape : ∀ ts ∈ gts, Shape ex .plain ts)
    (hclass : ∀ ts ∈ gts, ∀ t ∈ ts, t.noStarClass)
    (ps : List (List Char)) (hps : PathOk ps)
    (path : Str) (hpath : path = dottedPath ps ∨ path = dottedPath ps ++ b!".") :
    ∃ b, ggMatchText (dottedText gts) path = .ok (.ok b) ∧ (b = true → DFits gts ps) := by
  obtain ⟨g, hg, _, hl, hG, _⟩ := dotted_parse gts hne hok
  obtain ⟨p1, p2, p3⟩ := path_split hps hpath
  have hsafe : ∃ b, g.matches path = .ok b := by
    apply match_ok
    intro a ha p _ _
    obtain ⟨i, hi, rfl⟩ := List.mem_iff_getElem.1 ha
    have := hG (gts[i], g.parts[i]) (by
      rw [List.mem_iff_getElem]
      exact ⟨i, by simp [hl, hi], by simp⟩)
    exact matches_safe this (hshape _ (List.getElem_mem _)) p
  obtain ⟨b, hb⟩ := hsafe
  refine ⟨b, by unfold ggMatchText; rw [hg]; simp only [R.bind_ok]; rw [hb]; rfl, ?_⟩
  rintro rfl
  rw [match_iff] at hb
  obtain ⟨_, b2, b3, _⟩ := hb
  rw [p2] at b2 b3
  refine ⟨by rw [hl, b2]; simp, ?_⟩
  have := zip_mem_of (Q := fun (g : Glob) (p : Str) => p ≠ [] ∧ g.matches p = .ok true)
    (T := fun ts (p : Str) => ∀ q ∈ ps, p = utf8 q → q ≠ [] ∧ Fits ts q) hl hG
    (fun ts hts g hg p hp hq q hq' e => by
      subst e
      refine ⟨by intro h; exact hq.1 (by simp [h]), ?_⟩
      obtain ⟨b, hb, hs, _⟩ := matches_spec hg (hshape ts hts)
        (not_onlyStar ts (hok ts hts).1 (hclass ts hts)) q
      rw [hb] at hq
      exact hs (by simpa using hq.2)) b3
  intro x hx
  have hm : (x.1, utf8 x.2) ∈ gts.zip (ps.map utf8) := by
    rw [List.zip_map_right, List.mem_map]
    exact ⟨x, hx, rfl⟩
  exact this _ hm x.2 (List.of_mem_zip hx).2 rfl

/-- Full statement (not true of the code): `Match` answers `true` iff the path fits part by
part.  Missing, besides the restrictions of C01: when the glob has several parts and
every part bounds the length, the length test forgets the dots and refuses long paths, see
`dots_not_counted`. -/
theorem match_exact_partial (gts : List (List Tok)) (hne : gts ≠ []) (hok : ∀ ts ∈ gts, PartOk ts)
    (hshape : ∀ ts ∈ gts, Shape true .plain ts) (hmax : ∀ ts ∈ gts, MaxOk ts)
    (hclass : ∀ ts ∈ gts, ∀ t ∈ ts, t.noStarClass)
    (hlen : gts.length = 1 ∨ ∃ ts ∈ gts, Unbounded ts)
    (ps : List (List Char)) (hps : PathOk ps)
    (hff : ∀ x ∈ gts.zip ps, '[' ∉ renderGlob x.1 ∨ ∀ c ∈ x.2, c.toNat ≠ 0xFFFD)
    (path : Str) (hpath : path = dottedPath ps ∨ path = dottedPath ps ++ b!".") :
    ∃ b, ggMatchText (dottedText gts) path = .ok (.ok b) ∧ (b = true ↔ DFits gts ps) := by
  obtain ⟨b, hb, hs⟩ := match_sound_partial gts hne hok hshape hclass ps hps path hpath
  refine ⟨b, hb, hs, ?_⟩
  intro hD
  obtain ⟨g, hg, _, hl, hG, _, hmn, hmx, hP⟩ := dotted_parse gts hne hok
  obtain ⟨p1, p2, p3⟩ := path_split hps hpath
  unfold ggMatchText at hb
  rw [hg] at hb
  simp only [R.bind_ok] at hb
  suffices h : g.matches path = .ok true by
    rw [h] at hb
    simpa using hb.symm
  rw [match_iff]
  obtain ⟨d1, d2⟩ := hD
  have hlp : g.parts.length = ps.length := by rw [← hl, d1]
  have hmin : ∀ x ∈ g.parts.zip ps, x.1.minLen ≤ ((utf8 x.2).length : Int) :=
    zip_mem_of' (Q := fun g p => g.minLen ≤ ((utf8 p).length : Int))
      (T := fun ts p => p ≠ [] ∧ Fits ts p) hl hG
      (fun ts _ g hg p _ h => hg.min p h.2) d2
  have hsum : ∀ (gs : List Glob) (ps : List (List Char)), gs.length = ps.length →
      (∀ x ∈ gs.zip ps, x.1.minLen ≤ ((utf8 x.2).length : Int)) →
      (gs.map Glob.minLen).sum ≤ (((ps.map utf8).map List.length).sum : Int) := by
    intro gs
    induction gs with
    | nil => intro ps h _; cases ps <;> simp_all
    | cons g gs ih =>
      intro ps h hx
      cases ps with
      | nil => simp at h
      | cons p ps =>
        simp only [List.zip_cons_cons, List.forall_mem_cons] at hx
        have := ih ps (by simpa using h) hx.2
        simp only [List.map_cons, List.sum_cons] at this ⊢
        omega
  have hpl : (((ps.map utf8).map List.length).sum : Int) ≤ ((dottedPath ps).length : Int) := by
    have := joinByte_length_ge (ps.map utf8)
    unfold dottedPath
    omega
  refine ⟨p1, by rw [p2]; simpa using hlp, ?_, ?_, ?_⟩
  · rw [p2]
    have := zip_mem_of' (Q := fun (g : Glob) (p : List Char) => utf8 p ≠ [] ∧ g.matches (utf8 p) = .ok true)
      (P := fun ts g => GlobOk ts g ∧ parseGlob (utf8 (renderGlob ts)) = .ok (.ok g))
      (T := fun ts p => (p ≠ [] ∧ Fits ts p) ∧ ('[' ∉ renderGlob ts ∨ ∀ c ∈ p, c.toNat ≠ 0xFFFD))
      hl (fun x hx => ⟨hG x hx, hP x hx⟩) (fun ts hts g hg p _ h => by
        refine ⟨by simpa using h.1.1, ?_⟩
        obtain ⟨b, hb, _, he⟩ := matches_spec hg.1 (hshape ts hts)
          (not_onlyStar ts (hok ts hts).1 (hclass ts hts)) p
        rw [hb, he rfl (parse_clean hg.2 h.2) (hmax ts hts) h.1.2]) (fun x hx => ⟨d2 x hx, hff x hx⟩)
    intro x hx
    rw [List.zip_map_right, List.mem_map] at hx
    obtain ⟨y, hy, rfl⟩ := hx
    exact this y hy
  · rw [p3, hmn, foldl_min]
    have := hsum g.parts ps hlp hmin
    omega
  · rw [p3, hmx]
    rcases hlen with h1 | ⟨ts, hts, hu⟩
    · match gts, hG, hl, hlp, d2, hmax, h1 with
      | [ts], hG, hl, hlp, d2, hmax, _ =>
        match hgp : g.parts, ps with
        | [], _ => rw [hgp] at hl; simp at hl
        | _ :: _ :: _, _ => rw [hgp] at hl; simp at hl
        | [a], [] => rw [hgp] at hlp; simp at hlp
        | [a], _ :: _ :: _ => rw [hgp] at hlp; simp at hlp
        | [a], [p] =>
          rw [hgp] at hG
          simp only [List.zip_cons_cons, List.zip_nil_right, List.forall_mem_cons] at hG d2
          simp only [List.foldl_cons, List.foldl_nil, dottedPath, List.map_cons, List.map_nil,
            joinByte]
          rcases hG.1.max (hmax ts (by simp)) with h | h
          · left; simp [addMaxLen, h]
          · right
            have := h p d2.1.2
            unfold addMaxLen
            split <;> omega
    · left
      rw [foldl_max_inf]
      · simp
      · right
        obtain ⟨i, hi, rfl⟩ := List.mem_iff_getElem.1 hts
        have hi' : i < g.parts.length := by omega
        refine ⟨g.parts[i], List.getElem_mem _, ?_⟩
        have := hG (gts[i], g.parts[i]) (by
          rw [List.mem_iff_getElem]
          exact ⟨i, by simp only [List.length_zip]; omega, by simp⟩)
        rcases this.max (hmax _ hts) with h | h
        · exact h
        · obtain ⟨cs, hf, hn⟩ := hu g.parts[i].maxLen.toNat
          have := h cs hf
          dsimp only at this
          omega

/-- `web*.{cpu,mem}.p[0-9]?` and `*` as parts. -/
def exGts : List (List Tok) :=
  [[.sub (.lit 'w'), .sub (.lit 'e'), .sub (.lit 'b'), .sub .star],
   [.alt [['c', 'p', 'u'].map .lit, ['m', 'e', 'm'].map .lit]],
   [.sub (.lit 'p'), .sub (.cls [.range '0' '9']), .sub .any]]

example : exGts ≠ [] ∧ (∀ ts ∈ exGts, PartOk ts) ∧ (∀ ts ∈ exGts, Shape true .plain ts) ∧
    (∀ ts ∈ exGts, MaxOk ts) ∧ (∀ ts ∈ exGts, ∀ t ∈ ts, t.noStarClass) := by decide +kernel
example : dottedText exGts = b!"web*.{cpu,mem}.p[0-9]?" := by decide +kernel
example : Unbounded exGts.head! := by
  intro n
  refine ⟨['w', 'e', 'b'] ++ List.replicate n 'x', ?_, ?_⟩
  · exact ⟨['w'], _, rfl, rfl, ['e'], _, rfl, rfl, ['b'], List.replicate n 'x', rfl, rfl,
      List.replicate n 'x', [], by simp, trivial, rfl⟩
  · have : ∀ n, (utf8 (List.replicate n 'x')).length = n := by
      intro n
      induction n with
      | zero => rfl
      | succ n ih => 
        rw [List.replicate_succ, utf8_cons, List.length_append, ih,
          show (encodeRune 'x'.toNat).length = 1 by decide]
        omega
    rw [utf8_append, List.length_append, this]
    have : (utf8 ['w', 'e', 'b']).length = 3 := by decide
    omega
example : DFits exGts ["web01".toList, "mem".toList, "p5я".toList] := by decide +kernel
example : ggMatchText (dottedText exGts) (b!"web01.mem.p5я.") = .ok (.ok true) := by decide +kernel

/-- The code violates the claim: `a.b` is not matched by the glob `a.b`, because the maximal
length is the sum over the parts without the dot. -/
theorem dots_not_counted : ggMatchText (b!"a.b") (b!"a.b") = .ok (.ok false) ∧
    DFits [[.sub (.lit 'a')], [.sub (.lit 'b')]] [['a'], ['b']] := by decide +kernel

/-- In general: a dotted glob of several written parts that all bound the length refuses every
path that is longer than the sum of the bounds, dots included. -/
theorem long_path_refused (g : GGlob) (path : Str) (h : 0 < g.maxLen)
    (hl : g.maxLen < ((pathLevel path).1.length : Int)) : g.matches path = .ok false := by
  rw [gg_matches_eq, if_neg]
  omega

/-- `Parse` accepts two trailing dots. -/
theorem two_dots_accepted : ∃ g, parseGGlob (b!"a*..") = .ok (.ok g) ∧ g.parts.length = 1 ∧
    g.node = b!"a*" := by
  obtain ⟨g, h1, h2⟩ := parsedWith_spec (glob := b!"a*..")
    (p := fun g => decide (g.parts.length = 1 ∧ g.node = b!"a*")) (by decide +kernel)
  exact ⟨g, h1, of_decide_eq_true h2⟩

end C11

namespace C12

/-- The two matchers agree on every path without empty parts, when `MatchByParts` is given the
length of the path without its trailing dot. -/
theorem match_eq_byParts (g : GGlob) (path : Str) (h : ∀ p ∈ pathSplit path, p ≠ []) :
    g.matches path = g.matchByParts (pathSplit path) (pathLevel path).1.length := by
  rw [gg_matches_eq, gg_byParts_eq]
  by_cases h0 : path = []
  · subst h0
    rw [if_neg (by simp), if_neg (by simp [pathSplit])]
  · have hne : pathSplit path ≠ [] := by
      rw [pathSplit_eq, if_neg h0]; exact splitByte_ne_nil _ _
    have hpos : 0 < ((pathLevel path).1.length : Int) := by
      rw [pathLevel_eq]
      dsimp only
      cases hp : pathSplit path with
      | nil => exact absurd hp hne
      | cons p ps =>
        have h1 := h p (by rw [hp]; simp)
        rw [pathSplit_eq, if_neg h0] at hp
        have : trimDot path ≠ [] := by
          intro e
          rw [e] at hp
          simp [splitByte] at hp
          exact h1 hp.1
        have := List.length_pos_iff.2 this
        omega
    by_cases hc : g.parts.length = (pathSplit path).length ∧
        g.minLen ≤ ((pathLevel path).1.length : Int) ∧
          (g.maxLen ≤ 0 ∨ ((pathLevel path).1.length : Int) ≤ g.maxLen)
    · rw [if_pos ⟨h0, hc.1, hc.2⟩, if_pos ⟨hne, hc.1, fun _ => hc.2⟩]
      exact ggSplit_parts _ _ hc.1 h
    · rw [if_neg (fun k => hc k.2), if_neg (fun k => hc ⟨k.2.1, k.2.2 hpos⟩)]

/-- Without a trailing dot this is the length of the path. -/
theorem match_eq_byParts_len (g : GGlob) (path : Str) (h : ∀ p ∈ pathSplit path, p ≠ [])
    (hd : path.getLast? ≠ some 46) :
    g.matches path = g.matchByParts (pathSplit path) path.length := by
  have : (pathLevel path).1 = path := by
    rw [pathLevel_eq]
    exact if_neg hd
  have h2 := match_eq_byParts g path h
  rwa [this] at h2

example : (∀ p ∈ pathSplit (b!"web.cpu"), p ≠ []) ∧ (b!"web.cpu").getLast? ≠ some 46 ∧
    ∃ g, parseGGlob (b!"w*.c?u") = .ok (.ok g) ∧ g.matches (b!"web.cpu") = .ok true := by
  obtain ⟨g, h1, h2⟩ := parsedWith_spec (glob := b!"w*.c?u")
    (p := fun g => decide (g.matches (b!"web.cpu") = .ok true)) (by decide +kernel)
  exact ⟨by decide, by decide, g, h1, of_decide_eq_true h2⟩

/-- With a trailing dot and the full length the answers differ. -/
theorem trailing_dot_wrong : ∃ g, parseGGlob (b!"a") = .ok (.ok g) ∧
    g.matches (b!"a.") = .ok true ∧
    g.matchByParts (pathSplit (b!"a.")) (b!"a.").length = .ok false := by
  obtain ⟨g, h1, h2⟩ := parsedWith_spec (glob := b!"a")
    (p := fun g => decide (g.matches (b!"a.") = .ok true ∧
      g.matchByParts (pathSplit (b!"a.")) (b!"a.").length = .ok false)) (by decide +kernel)
  exact ⟨g, h1, of_decide_eq_true h2⟩

/-- With an empty part the answers differ. -/
theorem empty_part_wrong : ∃ g, parseGGlob (b!"a.*") = .ok (.ok g) ∧
    g.matches (b!"a..") = .ok false ∧
    g.matchByParts (pathSplit (b!"a..")) 2 = .ok true := by
  obtain ⟨g, h1, h2⟩ := parsedWith_spec (glob := b!"a.*")
    (p := fun g => decide (g.matches (b!"a..") = .ok false ∧
      g.matchByParts (pathSplit (b!"a..")) 2 = .ok true)) (by decide +kernel)
  exact ⟨g, h1, of_decide_eq_true h2⟩

end C12
end GoMatcher
