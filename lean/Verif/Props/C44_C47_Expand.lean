import Verif.Props.C30_C34_Expand
import Verif.Props.C01_C03_Match

/-! # C44: expansion preserves the language; C47: the depth of expansion -/

namespace GoMatcher

/-- `Expand` in terms of one expression per token, when it returns. -/
theorem expandGlob_outs {ts : List Tok} (hok : ∀ t ∈ ts, t.Ok) {m depth : Int} {r : List Str}
    (h : expandGlob (utf8 (renderGlob ts)) m depth = .ok r) :
    r = outs (canon ts) 0 m (if depth > 0 then depth + 1 else depth) := by
  rcases Classical.em (onlyVoid ts) with hv | hv
  · exfalso
    have := (parseExpr_panic_toks ts hok).2 hv
    unfold expandGlob at h
    rw [this] at h
    cases h
  · have hne' : ts = [] ∨ ∃ t ∈ ts, t ≠ .alt [[]] := by
      apply Classical.byContradiction
      intro h
      apply hv
      refine ⟨fun h' => h (.inl h'), fun t ht => Classical.byContradiction fun h' => h (.inr ⟨t, ht, h'⟩)⟩
    rw [expandGlob_canon _ hok hne'] at h
    by_cases hc : capOk (capCount 1 (canon ts)) = true
    · rw [if_pos hc] at h
      cases h
      rfl
    · rw [if_neg hc] at h
      cases h

namespace C44

/-- Full statement: a text fits the glob exactly when it fits one of the globs returned, for every
limit and depth.  Missing: classes that contain a special character, U+FFFD or a surrogate
(`special_member_wrong`), and calls that panic (C33).  The results are again globs, given by
tokens. -/
theorem language_partial (ts : List Tok) (hok : ∀ t ∈ ts, t.Ok) (hg : ∀ t ∈ ts, t.noGap)
    (hp : ∀ t ∈ ts, t.plainMembers) (max depth : Int) (r : List Str)
    (h : expandGlob (utf8 (renderGlob ts)) max depth = .ok r) :
    ∃ O : List (List Tok), r = O.map (fun o => utf8 (renderGlob o)) ∧ (∀ o ∈ O, ∀ t ∈ o, t.Ok) ∧
      ∀ cs, Fits ts cs ↔ ∃ o ∈ O, Fits o cs := by
  rw [expandGlob_outs hok h]
  obtain ⟨pre, rest, rfl, hs, hr⟩ := split_simple ts
  obtain ⟨O, h1, h2, h3⟩ := outs_lang pre rest (fun t ht => hok t (by simp [ht])) hs
    (fun t ht => hg t (by simp [ht])) (fun t ht => hp t (by simp [ht])) hr 0 max (if depth > 0 then depth + 1 else depth)
  refine ⟨O.map fun o => o ++ rest, ?_, ?_, ?_⟩
  · rw [h1, List.map_map]
    rfl
  · intro o ho t ht
    obtain ⟨o, hO, rfl⟩ := List.mem_map.1 ho
    rcases List.mem_append.1 ht with ht | ht
    · exact (h2 o hO t ht).ok
    · exact hok t (by simp [ht])
  · intro cs
    rw [fits_append]
    constructor
    · rintro ⟨u, v, rfl, hu, hv⟩
      obtain ⟨o, ho, hf⟩ := (h3 u).1 hu
      exact ⟨_, List.mem_map.2 ⟨o, ho, rfl⟩, (fits_append _ _ _).2 ⟨u, v, rfl, hf, hv⟩⟩
    · rintro ⟨o, ho, hf⟩
      obtain ⟨o, hO, rfl⟩ := List.mem_map.1 ho
      obtain ⟨u, v, rfl, hu, hv⟩ := (fits_append _ _ _).1 hf
      exact ⟨u, v, rfl, (h3 u).2 ⟨o, hO, hu⟩, hv⟩

/-- The same for the matcher of the package `glob` itself: `Match` of the glob answers `true`
exactly when `Match` of one of the expanded globs does.  The further restrictions are those of
`C01.match_exact_partial`, on the unexpanded glob. -/
theorem match_partial (ts : List Tok) (hok : ∀ t ∈ ts, t.Ok) (hg : ∀ t ∈ ts, t.noGap)
    (hp : ∀ t ∈ ts, t.plainMembers) (hshape : Shape true .plain ts) (hmax : MaxOk ts)
    (hclass : ∀ t ∈ ts, t.noStarClass) (max depth : Int) (r : List Str)
    (h : expandGlob (utf8 (renderGlob ts)) max depth = .ok r)
    (cs : List Char) (hcs : ∀ c ∈ cs, c.toNat ≠ 0xFFFD) :
    ∃ b, matchText (utf8 (renderGlob ts)) (utf8 cs) = .ok (.ok b) ∧
      (b = true ↔ ∃ g ∈ r, matchText g (utf8 cs) = .ok (.ok true)) := by
  obtain ⟨b, hb, hbf⟩ := C01.match_exact_partial ts hok hshape hmax hclass cs (.inr hcs)
  refine ⟨b, hb, ?_⟩
  rw [hbf, expandGlob_outs hok h]
  obtain ⟨pre, rest, rfl, hs, hr⟩ := split_simple ts
  obtain ⟨O, h1, h2, h3⟩ := outs_lang pre rest (fun t ht => hok t (by simp [ht])) hs
    (fun t ht => hg t (by simp [ht])) (fun t ht => hp t (by simp [ht])) hr 0 max (if depth > 0 then depth + 1 else depth)
  rw [shape_plain true pre rest hs] at hshape
  rw [maxOk_plain pre rest hs] at hmax
  have hO : ∀ o ∈ O, (matchText (utf8 (renderGlob (o ++ rest))) (utf8 cs) = .ok (.ok true) ↔ Fits (o ++ rest) cs) := by
    intro o ho
    have hos : ∀ t ∈ o, t.simple = true := fun t ht => (h2 o ho t ht).simple
    obtain ⟨b', hb', hf'⟩ := C01.match_exact_partial (o ++ rest) (by
        intro t ht
        rcases List.mem_append.1 ht with ht | ht
        · exact (h2 o ho t ht).ok
        · exact hok t (by simp [ht])) ((shape_plain true o rest hos).2 hshape) ((maxOk_plain o rest hos).2 hmax) (by
        intro t ht
        rcases List.mem_append.1 ht with ht | ht
        · exact (h2 o ho t ht).star
        · exact hclass t (by simp [ht])) cs (.inr hcs)
    rw [hb', ← hf']
    constructor
    · intro h; cases h; rfl
    · intro h; rw [h]
  rw [h1, fits_append]
  constructor
  · rintro ⟨u, v, rfl, hu, hv⟩
    obtain ⟨o, ho, hf⟩ := (h3 u).1 hu
    exact ⟨_, List.mem_map.2 ⟨o, ho, rfl⟩, (hO o ho).2 ((fits_append _ _ _).2 ⟨u, v, rfl, hf, hv⟩)⟩
  · rintro ⟨g, hg', hm⟩
    obtain ⟨o, ho, rfl⟩ := List.mem_map.1 hg'
    obtain ⟨u, v, rfl, hu, hv⟩ := (fits_append _ _ _).1 ((hO o ho).1 hm)
    exact ⟨u, v, rfl, (h3 u).2 ⟨o, ho, hu⟩, hv⟩

/-- `x{1,23}[c-e]y*{p,q?}` -/
def exTs : List Tok := [.sub (.lit 'x'), .alt [[.lit '1'], [.lit '2', .lit '3']], .sub (.cls [.range 'c' 'e']), .sub (.lit 'y'),
  .sub .star, .alt [[.lit 'p'], [.lit 'q', .any]]]
example : renderGlob exTs = "x{1,23}[c-e]y*{p,q?}".toList := by decide +kernel
example : (∀ t ∈ exTs, t.Ok) ∧ (∀ t ∈ exTs, t.noStarClass) := by decide +kernel
example : Shape true .plain exTs ∧ MaxOk exTs := by decide +kernel
example : ∀ t ∈ exTs, t.noGap ∧ t.plainMembers := by
  intro t ht
  simp only [exTs, List.mem_cons, List.not_mem_nil, or_false] at ht
  rcases ht with rfl | rfl | rfl | rfl | rfl | rfl
  · exact ⟨trivial, trivial⟩
  · exact ⟨trivial, trivial⟩
  · constructor
    · rw [noGap_iff]
      · intro e he
        simp only [List.mem_singleton] at he
        subst he
        decide
      · decide +kernel
    · rintro c ⟨e, he, hm⟩
      simp only [List.mem_singleton] at he
      subst he
      simp only [ClassElt.Mem] at hm
      have h1 : 'c'.toNat = 99 := rfl
      have h2 : 'e'.toNat = 101 := rfl
      have : ∀ d : Char, isSpecial d = true → d.toNat ∈ [42, 63, 91, 93, 123, 125] := by
        intro d hd
        simp only [isSpecial, Bool.or_eq_true, decide_eq_true_eq] at hd
        rcases hd with ((((rfl | rfl) | rfl) | rfl) | rfl) | rfl <;> decide
      cases hsp : isSpecial c with
      | false => rfl
      | true =>
        have := this c hsp
        simp only [List.mem_cons, List.not_mem_nil, or_false] at this
        omega
  · exact ⟨trivial, trivial⟩
  · exact ⟨trivial, trivial⟩
  · exact ⟨trivial, trivial⟩
example : expandGlob (utf8 (renderGlob exTs)) 4 0 =
    .ok (["x1[c-e]y*{p,q?}", "x23[c-e]y*{p,q?}"].map fun s => utf8 s.toList) := by decide +kernel

/-- Full statement refuted: the class `[)-+]` contains `*`, which matches anything once it is expanded. -/
theorem special_member_wrong : matchText (utf8 "[)-+]".toList) (utf8 "abc".toList) = .ok (.ok false) ∧
    expandGlob (utf8 "[)-+]".toList) (-1) 0 = .ok [utf8 [')'], utf8 ['*'], utf8 ['+']] ∧
    matchText (utf8 ['*']) (utf8 "abc".toList) = .ok (.ok true) := by decide +kernel

end C44

/-- Dots that separate nodes. -/
def dotCount (ts : List Tok) : Nat := ts.countP (· = .sub (.lit '.'))

/-- No dot within brackets. -/
def Tok.noInnerDot (t : Tok) : Prop := t = .sub (.lit '.') ∨ '.' ∉ t.render

theorem dots_utf8 (cs : List Char) : dots (utf8 cs) = cs.countP (· = '.') := by
  induction cs with
  | nil => rfl
  | cons c cs ih =>
    have e : utf8 (c :: cs) = utf8 [c] ++ utf8 cs := utf8_append [c] cs
    rw [e, dots_append, ih, List.countP_cons]
    by_cases hc : c = '.'
    · subst hc
      have : dots (utf8 ['.']) = 1 := by decide
      rw [this]
      simp [Nat.add_comm]
    · have : dots (utf8 [c]) = 0 := by
        unfold dots
        rw [List.countP_eq_zero]
        intro b hb hb'
        simp only [decide_eq_true_eq] at hb'
        subst hb'
        rw [mem_utf8_ascii (by decide)] at hb
        obtain ⟨d, hd, e'⟩ := hb
        simp only [List.mem_singleton] at hd
        subst hd
        exact hc (Char.toNat_val_inj (by rw [e']; rfl))
      rw [this]
      simp [hc]

theorem kept_noDot {t : Tok} (h : '.' ∉ t.render) : '.' ∉ renderGlob t.kept := by
  unfold Tok.kept
  split
  · rename_i a
    rw [renderGlob_subs]
    intro h'
    apply h
    simp [Tok.render, renderAlts, h']
  · rename_i c
    split
    · rw [renderGlob_single]
      intro h'
      apply h
      simp only [Tok.render, Sub.render, List.mem_singleton] at h'
      subst h'
      simp [Tok.render, Sub.render, ClassElt.render]
    · rw [renderGlob_single]; exact h
  · rw [renderGlob_single]; exact h

theorem strDots_canon (pre : List Tok) (hok : ∀ t ∈ pre, t.Ok) (hs : ∀ t ∈ pre, t.simple = true)
    (hd : ∀ t ∈ pre, t.noInnerDot) : strDots (pre.map canonTok) = dotCount pre := by
  induction pre with
  | nil => rfl
  | cons t pre ih =>
    have ih := ih (fun x hx => hok x (by simp [hx])) (fun x hx => hs x (by simp [hx])) (fun x hx => hd x (by simp [hx]))
    rw [List.map_cons, strDots, ih]
    unfold dotCount
    rw [List.countP_cons]
    rcases hd t (by simp) with rfl | h
    · have : (canonTok (.sub (.lit '.'))).typ = .str := rfl
      rw [if_pos (.inl this)]
      have : dots (canonTok (.sub (.lit '.'))).body = 1 := by decide
      rw [this]
      simp [Nat.add_comm]
    · have hne : t ≠ .sub (.lit '.') := by
        rintro rfl
        exact h (by simp [Tok.render, Sub.render])
      have h0 : dots (canonTok t).body = 0 := by
        rw [(canonTok_body (hok t (by simp)) (hs t (by simp))).1, dots_utf8, List.countP_eq_zero]
        intro c hc hc'
        simp only [decide_eq_true_eq] at hc'
        subst hc'
        exact kept_noDot h hc
      rw [h0]
      simp [hne]

namespace C47

/-- The full statement: with depth `d > 0`, lists and classes are expanded only in the first `d` nodes.
`near` is the first `d` nodes, `far` what follows the dot behind them.  Missing: dots within brackets
(which the code counts only if the brackets hold a single choice, see `inner_dot_wrong`), the
classes excluded in C30, and calls that panic (C33).  Brackets around a single choice are
removed in `far` as well (C32). -/
theorem near_expanded_partial (near far : List Tok) (d : Nat) (hd : 0 < d)
    (hok : ∀ t ∈ near ++ .sub (.lit '.') :: far, t.Ok) (hs : ∀ t ∈ near, t.simple = true) (hg : ∀ t ∈ near, t.noGap)
    (hin : ∀ t ∈ near, t.noInnerDot) (hdots : dotCount near = d - 1)
    (Ls : List (List (List Char))) (hL : AllChoices near Ls) (r : List Str)
    (h : expandGlob (utf8 (renderGlob (near ++ .sub (.lit '.') :: far))) (-1) d = .ok r) :
    r = (product Ls).map fun a => utf8 (a ++ '.' :: renderGlob (keptGlob far)) := by
  rw [expandGlob_outs hok h, canon_append _ _ hs]
  have hokn : ∀ t ∈ near, t.Ok := fun t ht => hok t (by simp [ht])
  have hsd := strDots_canon near hokn hs hin
  obtain ⟨Ls', h1, h2, _⟩ := allChoices_of near hokn hs hg
  have := allChoices_unique hL h1
  subst this
  have hd' : (d : Int) > 0 := by omega
  rw [if_pos hd', outs_expand _ _ _ _ (.inr (by rw [hsd, hdots]; omega)), if_pos (by omega), hsd, hdots]
  have hcan : canon (.sub (.lit '.') :: far) = { body := utf8 ['.'] } :: canon far := rfl
  have htwo : (d : Int) + 1 - ((d - 1 : Nat) : Int) = 2 := by omega
  rw [htwo, hcan]
  have hm : nextMax { body := utf8 ['.'] } 0 (-1) 2 = 0 := by decide +kernel
  rw [outs, if_pos hm, hm, outs_zero, bodies_canon far (fun t ht => hok t (by simp [ht]))]
  have h3 := h2 ['.' :: renderGlob (keptGlob far)]
  simp only [List.map_cons, List.map_nil] at h3 ⊢
  have e : utf8 ('.' :: renderGlob (keptGlob far)) = utf8 ['.'] ++ utf8 (renderGlob (keptGlob far)) :=
    utf8_append ['.'] _
  rw [← e, h3, List.map_flatMap]
  simp [← List.map_eq_flatMap]

/-- With fewer dots than the depth, all is expanded. -/
theorem all_expanded_partial (pre rest : List Tok) (d : Nat) (hd : 0 < d) (hok : ∀ t ∈ pre ++ rest, t.Ok)
    (hs : ∀ t ∈ pre, t.simple = true) (hg : ∀ t ∈ pre, t.noGap)
    (hr : rest = [] ∨ ∃ t ts, rest = t :: ts ∧ t.simple = false)
    (hin : ∀ t ∈ pre, t.noInnerDot) (hdots : dotCount pre < d)
    (Ls : List (List (List Char))) (hL : AllChoices pre Ls) (r : List Str)
    (h : expandGlob (utf8 (renderGlob (pre ++ rest))) (-1) d = .ok r) :
    r = (product Ls).map fun a => utf8 (a ++ renderGlob rest) := by
  rw [expandGlob_outs hok h, canon_append _ _ hs]
  have hokn : ∀ t ∈ pre, t.Ok := fun t ht => hok t (by simp [ht])
  have hsd := strDots_canon pre hokn hs hin
  obtain ⟨Ls', h1, h2, _⟩ := allChoices_of pre hokn hs hg
  have := allChoices_unique hL h1
  subst this
  have hd' : (d : Int) > 0 := by omega
  rw [if_pos hd', outs_expand _ _ _ _ (.inr (by rw [hsd]; omega)), (canon_tail hr).2.1]
  have h3 := h2 [renderGlob rest]
  simp only [List.map_cons, List.map_nil] at h3
  rw [h3, List.map_flatMap]
  simp [← List.map_eq_flatMap]

/-- `a{b,c}.[de]` and `{f,g}{h}` around a dot -/
def exNear : List Tok := [.sub (.lit 'a'), .alt [[.lit 'b'], [.lit 'c']], .sub (.lit '.'), .sub (.cls [.one 'd', .one 'e'])]
def exFar : List Tok := [.alt [[.lit 'f'], [.lit 'g']], .alt [[.lit 'h']]]
example : renderGlob (exNear ++ .sub (.lit '.') :: exFar) = "a{b,c}.[de].{f,g}{h}".toList := by decide +kernel
example : (∀ t ∈ exNear ++ .sub (.lit '.') :: exFar, t.Ok) ∧ (∀ t ∈ exNear, t.simple = true) ∧ dotCount exNear = 2 - 1 := by
  decide +kernel
example : ∀ t ∈ exNear, t.noInnerDot := by
  intro t ht
  unfold Tok.noInnerDot
  revert t
  decide +kernel
example : expandGlob (utf8 (renderGlob (exNear ++ .sub (.lit '.') :: exFar))) (-1) (2 : Nat) =
    .ok (["ab.d.{f,g}h", "ab.e.{f,g}h", "ac.d.{f,g}h", "ac.e.{f,g}h"].map fun s => utf8 s.toList) := by
  decide +kernel

/-- Full statement refuted for dots within lists: they do not count, so with depth 1 the list behind
`{a.b,c.d}` (in the second node of every result) is expanded. -/
theorem inner_dot_wrong : expandGlob (utf8 "{a.b,c.d}{e,f}".toList) (-1) 1 =
    .ok (["a.be", "a.bf", "c.de", "c.df"].map fun s => utf8 s.toList) := by decide +kernel

end C47

end GoMatcher
