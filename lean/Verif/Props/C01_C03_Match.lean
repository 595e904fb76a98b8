import Verif.Proofs.NoPanic
import Verif.Proofs.GlobDec

/-! # C01, C02, C03: what `Glob.Match` answers

A glob is given by its tokens `ts`; `renderGlob ts` is the text handed to `Parse` and
`Fits ts cs` is the meaning (see `Spec/GlobLang`).  The full statements would hold
for all tokens and all texts; the code violates them for some shapes, see the counter-examples
at the end.  The theorems hold under the restrictions `Shape`, `MaxOk` and
`noStarClass`; texts with U+FFFD are left out of C01 when the glob has a class. -/

namespace GoMatcher

/-- `Parse(glob)` followed by `Match(s)`. -/
def matchText (glob s : Str) : R (Except GErr Bool) := do
  match ← parseGlob glob with
  | .error e => .ok (.error e)
  | .ok g => do
    let b ← g.matches s
    .ok (.ok b)

theorem matchText_ok {glob s : Str} {g : Glob} {b : Bool} (h : parseGlob glob = .ok (.ok g))
    (hb : g.matches s = .ok b) : matchText glob s = .ok (.ok b) := by
  unfold matchText
  rw [h]
  simp only [R.bind_ok]
  rw [hb]
  rfl

deriving instance DecidableEq for Except

/-! ## Globs that describe more than the text `*` -/

theorem subsFit_other (ss : List Sub) (hok : ∀ s ∈ ss, ∃ b, s.Ok b)
    (hn : ∀ s ∈ ss, s.noStarClass) (cs : List Char) (hc : ∀ c ∈ cs, c = '*')
    (h : subsFit ss cs) : subsFit ss (cs.map fun _ => 'a') := by
  induction ss generalizing cs with
  | nil => rw [show cs = [] from h]; rfl
  | cons s ss ih =>
    obtain ⟨x, y, rfl, hx, hy⟩ := h
    rw [List.map_append]
    refine ⟨_, _, rfl, ?_, ih (fun s hs => hok s (by simp [hs])) (fun s hs => hn s (by simp [hs]))
      y (fun c hc' => hc c (by simp [hc'])) hy⟩
    obtain ⟨b, hsok⟩ := hok s (by simp)
    have hsn := hn s (by simp)
    cases s with
    | lit c =>
      rw [show x = [c] from hx] at hc
      have := hc c (by simp)
      subst this
      exact absurd hsok.1 (by decide)
    | any => simpa [Sub.Fits] using hx
    | star => trivial
    | cls es =>
      obtain ⟨c, rfl, hm⟩ := hx
      have := hc c (by simp)
      subst this
      exact absurd hm hsn

theorem fits_other (ts : List Tok) (hok : ∀ t ∈ ts, t.Ok) (hn : ∀ t ∈ ts, t.noStarClass)
    (cs : List Char) (hc : ∀ c ∈ cs, c = '*') (h : Fits ts cs) :
    Fits ts (cs.map fun _ => 'a') := by
  induction ts generalizing cs with
  | nil => rw [show cs = [] from h]; rfl
  | cons t ts ih =>
    obtain ⟨x, y, rfl, hx, hy⟩ := h
    rw [List.map_append]
    refine ⟨_, _, rfl, ?_, ih (fun s hs => hok s (by simp [hs])) (fun s hs => hn s (by simp [hs]))
      y (fun c hc' => hc c (by simp [hc'])) hy⟩
    have hx' : ∀ c ∈ x, c = '*' := fun c hc' => hc c (by simp [hc'])
    have htok := hok t (by simp)
    have htn := hn t (by simp)
    cases t with
    | sub s =>
      have := subsFit_other [s] (fun y hy => ⟨false, by
          rw [List.mem_singleton.1 hy]; exact htok⟩) (fun y hy => by
          rw [List.mem_singleton.1 hy]; exact htn) x hx'
        ((subsFit_single s x).2 hx)
      exact (subsFit_single s _).1 this
    | alt alts =>
      obtain ⟨a, ha, hf⟩ := hx
      exact ⟨a, ha, subsFit_other a (fun s hs => ⟨true, htok.2.1 a ha s hs⟩)
        (htn a ha) x hx' hf⟩

theorem not_onlyStar (ts : List Tok) (hok : ∀ t ∈ ts, t.Ok) (hn : ∀ t ∈ ts, t.noStarClass) :
    ¬ ∀ cs, Fits ts cs ↔ cs = ['*'] := by
  intro h
  have := fits_other ts hok hn ['*'] (by simp) ((h _).2 rfl)
  rw [h] at this
  exact absurd this (by decide)

theorem shape_subs_plain (ex : Bool) (ss : List Sub) : Shape ex .plain (ss.map Tok.sub) := by
  have := shape_subs ex .plain ss []
  rw [List.append_nil] at this
  rw [this]
  have key : ∀ (ss : List Sub) (p : Pos), p ≠ .behind → subsShape ex p ss (fun q => Shape ex q []) := by
    intro ss
    induction ss with
    | nil => intro p _; trivial
    | cons s ss ih =>
      intro p hp
      cases s with
      | lit c => exact ih .plain (by decide)
      | any => exact ⟨hp, ih p hp⟩
      | star =>
        refine ⟨fun h => absurd h hp, ?_⟩
        rw [if_neg hp]
        exact ih .after (by decide)
      | cls es => exact ih .plain (by decide)
  exact key ss .plain (by decide)

theorem mem_renderAlts {c : Char} {alts : List (List Sub)} (h : c ∈ renderAlts alts) :
    c = ',' ∨ ∃ a ∈ alts, c ∈ renderSubs a := by
  induction alts with
  | nil => cases h
  | cons a l ih =>
    cases l with
    | nil => exact .inr ⟨a, by simp, h⟩
    | cons b l =>
      simp only [renderAlts, List.mem_append, List.mem_cons] at h
      rcases h with h | h | h
      · exact .inr ⟨a, by simp, h⟩
      · exact .inl h
      · rcases ih h with h | ⟨x, hx, h⟩
        · exact .inl h
        · exact .inr ⟨x, List.mem_cons_of_mem _ hx, h⟩

namespace C01

/-- Full statement (not true of the code): for all tokens `ts` that can be written and all
texts `cs`, `Match` answers `true` iff `cs` fits.  Missing here: globs outside
`Shape true`/`MaxOk`, classes that contain `*`, and texts with U+FFFD if the glob has a class; each of
these is a real disagreement, see the counter-examples below. -/
theorem match_exact_partial (ts : List Tok) (hok : ∀ t ∈ ts, t.Ok) (hshape : Shape true .plain ts)
    (hmax : MaxOk ts) (hclass : ∀ t ∈ ts, t.noStarClass)
    (cs : List Char) (hcs : '[' ∉ renderGlob ts ∨ ∀ c ∈ cs, c.toNat ≠ 0xFFFD) :
    ∃ b, matchText (utf8 (renderGlob ts)) (utf8 cs) = .ok (.ok b) ∧ (b = true ↔ Fits ts cs) := by
  obtain ⟨g, hg, hG⟩ := parse_spec ts hok
  obtain ⟨b, hb, h1, h2⟩ := matches_spec hG hshape (not_onlyStar ts hok hclass) cs
  exact ⟨b, matchText_ok hg hb, h1, h2 rfl (parse_clean hg hcs) hmax⟩

/-- Globs without braces: literals, `?`, `*` and classes in any number and order.  The only
restrictions left are the class with `*`, and U+FFFD together with a class.  Missing: braces. -/
theorem match_exact_noBraces_partial (ss : List Sub) (hok : ∀ s ∈ ss, s.Ok false)
    (hclass : ∀ s ∈ ss, s.noStarClass) (cs : List Char)
    (hcs : '[' ∉ renderSubs ss ∨ ∀ c ∈ cs, c.toNat ≠ 0xFFFD) :
    ∃ b, matchText (utf8 (renderSubs ss)) (utf8 cs) = .ok (.ok b) ∧
      (b = true ↔ subsFit ss cs) := by
  have hok' : ∀ t ∈ ss.map Tok.sub, t.Ok := by
    intro t ht
    obtain ⟨s, hs, rfl⟩ := List.mem_map.1 ht
    exact hok s hs
  have := match_exact_partial (ss.map Tok.sub) hok' (shape_subs_plain true ss) (by
      left
      intro t ht alts e
      obtain ⟨s, _, rfl⟩ := List.mem_map.1 ht
      cases e) (by
      intro t ht
      obtain ⟨s, hs, rfl⟩ := List.mem_map.1 ht
      exact hclass s hs) cs (by rwa [renderGlob_subs])
  rw [renderGlob_subs] at this
  simpa only [fits_subs] using this

/-- Lists of plain words, directly after a literal or at the start: `{ab,c}` and the like,
followed by any brace-free glob.  Missing: other globs. -/
theorem match_exact_list_partial (pre : List Char) (alts : List (List Char)) (ss : List Sub)
    (halts : alts ≠ []) (hpre : ∀ c ∈ pre, isSpecial c = false ∧ isFF c = false)
    (hlits : ∀ a ∈ alts, ∀ c ∈ a, isSpecial c = false ∧ isFF c = false ∧ c ≠ ',')
    (hok : ∀ s ∈ ss, s.Ok false) (hclass : ∀ s ∈ ss, s.noStarClass)
    (cs : List Char) (hcs : '[' ∉ renderSubs ss ∨ ∀ c ∈ cs, c.toNat ≠ 0xFFFD) :
    let ts := pre.map (fun c => Tok.sub (.lit c)) ++
      .alt (alts.map fun a => a.map Sub.lit) :: ss.map Tok.sub
    ∃ b, matchText (utf8 (renderGlob ts)) (utf8 cs) = .ok (.ok b) ∧
      (b = true ↔ ∃ a ∈ alts, ∃ r, cs = pre ++ a ++ r ∧ subsFit ss r) := by
  intro ts
  have hplain : plainAlts (alts.map fun a => a.map Sub.lit) = true := by
    rw [plainAlts_iff]
    intro a ha
    obtain ⟨w, _, rfl⟩ := List.mem_map.1 ha
    exact ⟨w, rfl⟩
  have hsh : ∀ (pre : List Char), Shape true .plain (pre.map (fun c => Tok.sub (.lit c)) ++
      .alt (alts.map fun a => a.map Sub.lit) :: ss.map Tok.sub) := by
    intro pre
    induction pre with
    | nil =>
      rw [List.map_nil, List.nil_append]
      unfold Shape
      rw [if_pos hplain]
      exact ⟨shape_subs_plain true ss, fun h => absurd rfl h⟩
    | cons c pre ih => exact ih
  have htok : ∀ t ∈ ts, t.Ok ∧ t.noStarClass := by
    intro t ht
    rcases List.mem_append.1 ht with h | h
    · obtain ⟨c, hc, rfl⟩ := List.mem_map.1 h
      exact ⟨⟨(hpre c hc).1, (hpre c hc).2, by simp⟩, trivial⟩
    · rcases List.mem_cons.1 h with rfl | h
      · constructor
        · refine ⟨by simpa using halts, ?_, Or.inl hplain⟩
          intro a ha s hs
          obtain ⟨w, hw, rfl⟩ := List.mem_map.1 ha
          obtain ⟨c, hc, rfl⟩ := List.mem_map.1 hs
          exact ⟨(hlits w hw c hc).1, (hlits w hw c hc).2.1, fun _ => (hlits w hw c hc).2.2⟩
        · intro a ha s hs
          obtain ⟨w, hw, rfl⟩ := List.mem_map.1 ha
          obtain ⟨c, hc, rfl⟩ := List.mem_map.1 hs
          trivial
      · obtain ⟨s, hs, rfl⟩ := List.mem_map.1 h
        exact ⟨hok s hs, hclass s hs⟩
  obtain ⟨b, h1, h2⟩ := match_exact_partial ts (fun t ht => (htok t ht).1) (hsh pre) (by
      left
      intro t ht al e a ha
      subst e
      rcases List.mem_append.1 ht with h | h
      · obtain ⟨c, _, e⟩ := List.mem_map.1 h; cases e
      · rcases List.mem_cons.1 h with e | h
        · injection e with e
          subst e
          obtain ⟨w, _, rfl⟩ := List.mem_map.1 ha
          simp
        · obtain ⟨s, _, e⟩ := List.mem_map.1 h; cases e) (fun t ht => (htok t ht).2) cs (by
      refine hcs.imp (fun hcs hm => hcs ?_) id
      obtain ⟨t, ht, hm⟩ := List.mem_flatMap.1 hm
      rcases List.mem_append.1 ht with ht | ht
      · obtain ⟨c, hc, rfl⟩ := List.mem_map.1 ht
        rw [← List.mem_singleton.1 hm] at hc
        exact absurd (hpre _ hc).1 (by decide)
      · rcases List.mem_cons.1 ht with rfl | ht
        · simp only [Tok.render, List.cons_append, List.mem_cons, List.mem_append] at hm
          rcases hm with hm | hm | hm | hm
          · exact absurd hm (by decide)
          · rcases mem_renderAlts hm with hm | ⟨a, ha, hm⟩
            · exact absurd hm (by decide)
            · obtain ⟨w, hw, rfl⟩ := List.mem_map.1 ha
              obtain ⟨s, hs, hm⟩ := List.mem_flatMap.1 hm
              obtain ⟨c, hc, rfl⟩ := List.mem_map.1 hs
              rw [← List.mem_singleton.1 hm] at hc
              exact absurd (hlits w hw _ hc).1 (by decide)
          · exact absurd hm (by decide)
          · cases hm
        · obtain ⟨s, hs, rfl⟩ := List.mem_map.1 ht
          exact List.mem_flatMap.2 ⟨s, hs, hm⟩)
  refine ⟨b, h1, ?_⟩
  rw [h2]
  have hp : pre.map (fun c => Tok.sub (.lit c)) = (pre.map Sub.lit).map Tok.sub := by simp
  show Fits (_ ++ _) _ ↔ _
  rw [hp, fits_append]
  constructor
  · rintro ⟨u, v, rfl, hu, a, r, rfl, ⟨w, hw, ha⟩, hr⟩
    rw [fits_lits] at hu
    subst hu
    obtain ⟨w', hw', rfl⟩ := List.mem_map.1 hw
    rw [subsFit_lits] at ha
    subst ha
    exact ⟨a, hw', r, by simp, (fits_subs _ _).1 hr⟩
  · rintro ⟨a, ha, r, rfl, hr⟩
    exact ⟨pre, a ++ r, by simp, (fits_lits _ _).2 rfl, a, r, rfl,
      ⟨a.map Sub.lit, List.mem_map.2 ⟨a, ha, rfl⟩, (subsFit_lits _ _).2 rfl⟩, (fits_subs _ _).2 hr⟩

/-! ### Examples: the hypotheses are met -/

/-- `ab{c,de}?*[x-z]f{g*,h?}` -/
def exTs : List Tok :=
  [.sub (.lit 'a'), .sub (.lit 'b'), .alt [[.lit 'c'], [.lit 'd', .lit 'e']], .sub .any, .sub .star,
   .sub (.cls [.range 'x' 'z', .one 'é']), .sub (.lit 'f'),
   .alt [[.lit 'g', .star], [.lit 'h', .any]]]

example : renderGlob exTs = "ab{c,de}?*[x-zé]f{g*,h?}".toList := by decide +kernel
example : (∀ t ∈ exTs, t.Ok) ∧ Shape true .plain exTs ∧ MaxOk exTs := by decide +kernel
example : ∀ t ∈ exTs, t.noStarClass := by decide +kernel
example : Fits exTs "abdeЯ__éfh1".toList ∧ ¬ Fits exTs "abde__éfh".toList := by decide +kernel
example : matchText (utf8 (renderGlob exTs)) (utf8 "abdeЯ__éfh1".toList) = .ok (.ok true) := by
  decide +kernel

/-- U+FFFD in the text: `?*{a,b}` has no class. -/
example : let ts : List Tok := [.sub .any, .sub .star, .alt [[.lit 'a'], [.lit 'b']]]
    (∀ t ∈ ts, t.Ok) ∧ Shape true .plain ts ∧ MaxOk ts ∧ '[' ∉ renderGlob ts ∧
    Fits ts ['�', '�', 'b'] ∧
    matchText (utf8 (renderGlob ts)) (utf8 ['�', '�', 'b']) = .ok (.ok true) := by decide +kernel

/-! ### The restrictions are needed: counter-examples

Each glob can be written, and the answer of `Match` differs from the meaning. -/

/-- `[*]` is the literal `*`, but `Match` accepts everything. -/
theorem class_star_wrong : let ts : List Tok := [.sub (.cls [.one '*'])]
    (∀ t ∈ ts, t.Ok) ∧ Shape true .plain ts ∧ MaxOk ts ∧ ¬ Fits ts ['a', 'b'] ∧
    matchText (utf8 (renderGlob ts)) (utf8 ['a', 'b']) = .ok (.ok true) := by decide +kernel

/-- `{a*b,c}` gets the maximal length 1: `axxb` is refused (`MaxOk` fails). -/
theorem max_len_wrong : let ts : List Tok := [.alt [[.lit 'a', .star, .lit 'b'], [.lit 'c']]]
    (∀ t ∈ ts, t.Ok) ∧ Shape true .plain ts ∧ ¬ MaxOk ts ∧ Fits ts "axxb".toList ∧
    matchText (utf8 (renderGlob ts)) (utf8 "axxb".toList) = .ok (.ok false) := by decide +kernel

/-- `*{a,b}c*` misses `aacb` and `*{a,b}?` misses `aab` (a list of words between a star and
something else). -/
theorem star_list_wrong :
    (let ts : List Tok := [.sub .star, .alt [[.lit 'a'], [.lit 'b']], .sub (.lit 'c'), .sub .star]
    (∀ t ∈ ts, t.Ok) ∧ ¬ Shape true .plain ts ∧ MaxOk ts ∧ Fits ts "aacb".toList ∧
    matchText (utf8 (renderGlob ts)) (utf8 "aacb".toList) = .ok (.ok false)) ∧
    (let ts : List Tok := [.sub .star, .alt [[.lit 'a'], [.lit 'b']], .sub .any]
    (∀ t ∈ ts, t.Ok) ∧ ¬ Shape true .plain ts ∧ MaxOk ts ∧ Fits ts "aab".toList ∧
    matchText (utf8 (renderGlob ts)) (utf8 "aab".toList) = .ok (.ok false)) := by decide +kernel

/-- `*{*a,b}` misses `a` (a star behind a star, across a brace). -/
theorem star_group_star_wrong :
    let ts : List Tok := [.sub .star, .alt [[.star, .lit 'a'], [.lit 'b']]]
    (∀ t ∈ ts, t.Ok) ∧ ¬ Shape true .plain ts ∧ MaxOk ts ∧ Fits ts ['a'] ∧
    matchText (utf8 (renderGlob ts)) (utf8 ['a']) = .ok (.ok false) := by decide +kernel

/-- `*[а-я]` misses `�я`: the class search stops at U+FFFD. -/
theorem replacement_char_wrong :
    let ts : List Tok := [.sub .star, .sub (.cls [.range 'а' 'я'])]
    (∀ t ∈ ts, t.Ok) ∧ Shape true .plain ts ∧ MaxOk ts ∧ Fits ts ['�', 'я'] ∧
    matchText (utf8 (renderGlob ts)) (utf8 ['�', 'я']) = .ok (.ok false) := by decide +kernel

/-- Outside the token language of the specification: `{a*}` is the literal text `a*`. -/
theorem single_alternative_wrong :
    matchText (b!"{a*}") (b!"ab") = .ok (.ok false) ∧
    matchText (b!"{a*}") (b!"a*") = .ok (.ok true) := by decide +kernel

end C01

namespace C02

/-- Full statement (not true of the code): whenever `Match` answers `true`, the text fits.
Missing here: globs outside `Shape false` (which is much weaker than `Shape true`) and classes that
contain `*`; see the counter-examples. -/
theorem match_sound_partial (ts : List Tok) (hok : ∀ t ∈ ts, t.Ok)
    (hshape : Shape false .plain ts) (hclass : ∀ t ∈ ts, t.noStarClass)
    (cs : List Char) (h : matchText (utf8 (renderGlob ts)) (utf8 cs) = .ok (.ok true)) : Fits ts cs := by
  obtain ⟨g, hg, hG⟩ := parse_spec ts hok
  obtain ⟨b, hb, h1, _⟩ := matches_spec hG hshape (not_onlyStar ts hok hclass) cs
  rw [matchText_ok hg hb] at h
  injection h with h
  injection h with h
  exact h1 h

/-- Allowed here but not in C01: lists of words after a star, stars behind stars across a
brace, stars inside alternatives. -/
def exTs : List Tok :=
  [.sub .star, .alt [[.lit 'a'], [.lit 'b']], .sub (.lit 'c'), .sub .star,
   .alt [[.star, .lit 'a'], [.lit 'b', .cls [.range '0' '9']]], .alt [[.lit 'x', .star, .lit 'y'], [.lit 'z']]]

example : renderGlob exTs = "*{a,b}c*{*a,b[0-9]}{x*y,z}".toList := by decide +kernel
example : (∀ t ∈ exTs, t.Ok) ∧ Shape false .plain exTs ∧ ¬ Shape true .plain exTs := by
  decide +kernel
example : matchText (utf8 (renderGlob exTs)) (utf8 "acЯb7z".toList) = .ok (.ok true) ∧
    Fits exTs "acЯb7z".toList := by decide +kernel

/-- U+FFFD in the text, in front of what the class finds and as a member of the class. -/
example : matchText (b!"[b-x]*?") (utf8 ['c', '�', '�']) = .ok (.ok true) ∧
    matchText (utf8 ['*', '[', '\u1000', '-', '\uFFFF', ']']) (utf8 ['�']) = .ok (.ok false) := by decide +kernel

/-- `*{*??,x}` accepts the single character `я` (a star behind a star, followed by `?`). -/
theorem star_group_any_wrong :
    let ts : List Tok := [.sub .star, .alt [[.star, .any, .any], [.lit 'x']]]
    (∀ t ∈ ts, t.Ok) ∧ ¬ Shape false .plain ts ∧ ¬ Fits ts ['я'] ∧
    matchText (utf8 (renderGlob ts)) (utf8 ['я']) = .ok (.ok true) := by decide +kernel

/-- `[*]` accepts everything. -/
theorem class_star_wrong : let ts : List Tok := [.sub (.cls [.one '*'])]
    (∀ t ∈ ts, t.Ok) ∧ Shape false .plain ts ∧ ¬ Fits ts ['a', 'b'] ∧
    matchText (utf8 (renderGlob ts)) (utf8 ['a', 'b']) = .ok (.ok true) := by decide +kernel

end C02

namespace C03

/-- Full statement (not true of the code): no glob accepted by `Parse` panics on any byte
string.  Here for all written globs of shape `Shape false`, and for all byte strings,
valid UTF-8 or not. -/
theorem match_no_panic_partial (ts : List Tok) (hok : ∀ t ∈ ts, t.Ok)
    (hshape : Shape false .plain ts) (s : Str) :
    ∃ b, matchText (utf8 (renderGlob ts)) s = .ok (.ok b) := by
  obtain ⟨g, hg, hG⟩ := parse_spec ts hok
  obtain ⟨b, hb⟩ := matches_safe hG hshape s
  exact ⟨b, matchText_ok hg hb⟩

/-- No restriction but U+FFFD for globs without braces.  Missing: braces. -/
theorem match_no_panic_noBraces_partial (ss : List Sub) (hok : ∀ s ∈ ss, s.Ok false) (s : Str) :
    ∃ b, matchText (utf8 (renderSubs ss)) s = .ok (.ok b) := by
  have := match_no_panic_partial (ss.map Tok.sub) (by
    intro t ht
    obtain ⟨x, hx, rfl⟩ := List.mem_map.1 ht
    exact hok x hx) (shape_subs_plain false ss) s
  rw [renderGlob_subs] at this
  exact this

example : (∀ t ∈ C02.exTs, t.Ok) ∧ Shape false .plain C02.exTs ∧
    matchText (utf8 (renderGlob C02.exTs)) [97, 99, 0xff, 0xc3, 97, 122] = .ok (.ok true) := by
  decide +kernel

/-- `*{?,b}` panics on `b`, `{a*,b}?` panics on `ac`: `?` behind a star across a brace. -/
theorem any_behind_star_panics :
    (let ts : List Tok := [.sub .star, .alt [[.any], [.lit 'b']]]
    (∀ t ∈ ts, t.Ok) ∧ ¬ Shape false .plain ts ∧
    matchText (utf8 (renderGlob ts)) (b!"b") = .panic) ∧
    (let ts : List Tok := [.alt [[.lit 'a', .star], [.lit 'b']], .sub .any]
    (∀ t ∈ ts, t.Ok) ∧ ¬ Shape false .plain ts ∧
    matchText (utf8 (renderGlob ts)) (b!"ac") = .panic) := by decide +kernel

/-- `*�*` panics on the undecodable text `aa\xff` (slice out of range). -/
theorem replacement_char_panics :
    matchText (utf8 ['*', '�', '*']) [97, 97, 0xff] = .panic := by decide +kernel

end C03
end GoMatcher
