import Verif.Proofs.StarEnd
import Verif.Proofs.TreeOnceWords
import Verif.Props.C08_C09_GlobTree
import Verif.Props.C71_Steps
import Verif.Props.C72_Room

/-! # C73: how often `GlobTree.Match` reports a glob -/

namespace GoMatcher.C73

/-- How often the index is passed to `Store`. -/
def stored (i : Int) (r : Ev) : Nat := (r.1.filter fun e => e.2 = i).length

theorem stored_reps (i : Int) (r : Ev) : stored i r = reps i r.1 := by
  unfold stored reps
  rw [List.countP_eq_length_filter]

/-! ## One star: at most once -/

theorem steps_solid {g : Glob} (h : ∀ x ∈ g.items, Solid x) : ∀ p ∈ g.steps, Solid p.1 := by
  intro p hp
  unfold Glob.steps at hp
  rw [List.mem_append, List.mem_append] at hp
  rcases hp with hp | hp | hp
  · split at hp
    · rename_i hs
      rw [List.mem_singleton.1 hp]
      exact hs
    · simp at hp
  · split at hp
    · rename_i hs
      rw [List.mem_singleton.1 hp]
      exact hs
    · simp at hp
  · obtain ⟨x, hx, rfl⟩ := List.mem_map.1 hp
    exact h x hx

theorem steps_firm {g : Glob} (h : ∀ x ∈ g.items, Firm x) : ∀ p ∈ g.steps, Firm p.1 := by
  intro p hp
  unfold Glob.steps at hp
  rw [List.mem_append, List.mem_append] at hp
  rcases hp with hp | hp | hp
  · split at hp
    · rename_i hs
      rw [List.mem_singleton.1 hp]
      exact firm_solid (b := .str g.suff) hs
    · simp at hp
  · split at hp
    · rename_i hs
      rw [List.mem_singleton.1 hp]
      exact firm_solid (b := .str g.pref) hs
    · simp at hp
  · obtain ⟨x, hx, rfl⟩ := List.mem_map.1 hp
    exact h x hx

/-- Prefix and items. -/
def front (g : Glob) : List (Item × Bool) :=
  (if g.pref ≠ [] then [(.str g.pref, false)] else []) ++ g.items.map (fun i => (i, false))

theorem front_forward (g : Glob) : ∀ p ∈ front g, p.2 = false := by
  intro p hp
  unfold front at hp
  rcases List.mem_append.1 hp with hp | hp
  · split at hp
    · rw [List.mem_singleton.1 hp]
    · simp at hp
  · obtain ⟨x, _, rfl⟩ := List.mem_map.1 hp
    rfl

theorem bare_str {a : Item} {w : Str} (h : a.bare = (Item.str w).bare) : a = .str w := by
  cases a <;> simp only [Item.bare, reduceCtorEq] at h
  rw [h]

/-- If the path of prefix and items stores at most once, so does `Match`. -/
theorem once_of {i : Int} {ops : List GlobOp} {t : GlobTree} {L : List (Glob × Int)}
    (h : runGlobTree ops = .ok (t, L)) {g : Glob} (hg : (g, i) ∈ L) (hs : ∀ x ∈ g.items, Firm x)
    (A : Str → Prop) (hA : ∀ u, A (u ++ g.suff) → A u)
    (hm : ∀ fuel s (c : Tree) ps, A s → c.OnPath i ps →
      (c.item :: its ps).map Item.bare = (its (front g)).map Item.bare →
      AtMost i 1 (Tree.matchT fuel c s))
    {s : Str} (hA' : A s) {r : Ev} (hr : t.Returns s r) : stored i r ≤ 1 := by
  obtain ⟨fuel, hr⟩ := hr
  obtain ⟨qs, hq, hb⟩ := placed_run ops t L h g hg (steps_firm hs)
  have hnext : ∀ (c : Tree) ps s, A s → c.OnPath i ps → ps.map bareStep = (front g).map bareStep →
      AtMost i 1 (c.next (Tree.matchT fuel) s) := by
    intro c ps s ha hc e
    refine atMost_next (fun c hc => quiet_matchT fuel hc s) hc (fun _ _ => Nat.le_refl _) ?_
    rintro c' ps' rfl hc'
    exact hm fuel s c' ps' ha hc' (its_bareStep e)
  rw [stored_reps]
  have hst : g.steps = (if g.suff ≠ [] then [(.str g.suff, true)] else []) ++ front g := rfl
  refine once_root fuel hq ?_ ?_ r hr
  · rintro c ps rfl hc
    by_cases hsu : g.suff = []
    · rw [hst, if_neg (by simpa using hsu), List.nil_append] at hb
      exact hm fuel s c ps hA' hc (its_bareStep hb)
    · rw [hst, if_pos hsu] at hb
      simp [bareStep] at hb
  · rintro c ps rfl hc
    by_cases hsu : g.suff = []
    · rw [hst, if_neg (by simpa using hsu), List.nil_append] at hb
      have : bareStep (c.item, true) ∈ (front g).map bareStep := by rw [← hb]; simp
      obtain ⟨p, hp, e⟩ := List.mem_map.1 this
      have e2 := congrArg Prod.snd e
      simp only [bareStep, front_forward g p hp] at e2
      cases e2
    · rw [hst, if_pos hsu] at hb
      simp only [List.map_cons, List.cons_append, List.nil_append, List.cons.injEq] at hb
      have hit : c.item = .str g.suff := bare_str (congrArg Prod.fst hb.1)
      refine atMost_rev hit fun u hu => hnext c ps u (hA u ?_) hc hb.2
      rw [← hu]
      exact hA'

/-- A glob without braces whose stars all stand in one run of `*` and `?`, in a tree built by any
calls of `Add` and `AddGlob`, on UTF-8 text: `Match` passes its index to `Store` at most once. -/
theorem once_partial {ops : List GlobOp} {t : GlobTree} {L : List (Glob × Int)}
    (h : runGlobTree ops = .ok (t, L)) {g : Glob} {i : Int} (hg : (g, i) ∈ L) {ss : List Sub}
    (hok : ∀ s ∈ ss, (Tok.sub s).Ok) (hp : parseGlob (utf8 (renderGlob (ss.map Tok.sub))) = .ok (.ok g))
    (hb : (123 : UInt8) ∉ utf8 (renderGlob (ss.map Tok.sub))) (hst : starRuns false ss ≤ 1)
    {cs : List Char} {r : Ev} (hr : t.Returns (utf8 cs) r) : stored i r ≤ 1 := by
  have hgo : GlobOk (ss.map Tok.sub) g := globOk_of_glob hp (by
    intro t ht
    obtain ⟨s, hs, rfl⟩ := List.mem_map.1 ht
    exact hok s hs) (parseGlob_glob hp)
  have hcalm := (parse_calm hb hp).1
  have hsol := calm_solid hcalm
  have hlone : Lone (its (front g)) := by
    have h1 : Lone g.items := lone_of_good (hgo.fine true (shape_run true ss .plain (by simp))).1 hcalm
      (Nat.le_trans (nStars_items hgo) hst)
    have e : its (g.items.map fun i => (i, false)) = g.items := by
      unfold its
      simp [List.map_map, Function.comp_def]
    unfold front
    split
    · rename_i hpr
      have hne : g.items ≠ [] := fun hc => hpr (hgo.bare hc).1
      obtain ⟨P, S, e1, _⟩ := hgo.wild hne
      rw [e1]
      show Lone (.str (utf8 P) :: its (g.items.map fun i => (i, false)))
      rw [e]
      exact .cons (findItem_str P).toDoneItem h1
    · rw [List.nil_append, e]
      exact h1
  have hfs : ∀ y ∈ its (front g), Solid y := by
    intro y hy
    obtain ⟨p, hp, rfl⟩ := List.mem_map.1 hy
    refine steps_solid hsol p ?_
    show p ∈ _ ++ front g
    simp [hp]
  have hsuf : ∃ S, g.suff = utf8 S := by
    by_cases hi : g.items = []
    · exact ⟨[], (hgo.bare hi).2⟩
    · obtain ⟨_, S, _, e, _⟩ := hgo.wild hi
      exact ⟨S, e⟩
  obtain ⟨S, hS⟩ := hsuf
  refine once_of h hg (fun x hx => firm_solid (hsol x hx)) (fun s => ∃ ds, s = utf8 ds) ?_ ?_ ⟨cs, rfl⟩ hr
  · rintro u ⟨ds, hu⟩
    rw [hS] at hu
    have : hasSuffix (utf8 ds) (utf8 S) = true := by
      unfold hasSuffix
      rw [List.isSuffixOf_iff_suffix, ← hu]
      exact ⟨u, rfl⟩
    obtain ⟨q, rfl⟩ := (hasSuffix_utf8_iff ds S).1 this
    rw [utf8_append] at hu
    exact ⟨q, List.append_cancel_right hu⟩
  · rintro fuel s c ps ⟨ds, rfl⟩ hc e
    exact once_lone fuel ds c ps hc (bare_lone e hfs hlone)

/-- A glob without braces of which only the last byte may be a star, any bytes, in a tree built by
any calls, on any bytes: at most once. -/
theorem once_bytes_partial {ops : List GlobOp} {t : GlobTree} {L : List (Glob × Int)}
    (h : runGlobTree ops = .ok (t, L)) {g : Glob} {i : Int} (hg : (g, i) ∈ L) {glob : Str}
    (hp : parseGlob glob = .ok (.ok g)) (hb : (123 : UInt8) ∉ glob) (hst : (42 : UInt8) ∉ glob.dropLast)
    {s : Str} {r : Ev} (hr : t.Returns s r) : stored i r ≤ 1 := by
  have hsol := calm_solid (parse_calm hb hp).1
  have hit : EndStar g.items := endStar_of hsol (parse_tame hb hst hp)
  have hend : EndStar (its (front g)) := by
    have e : its (g.items.map fun i => (i, false)) = g.items := by
      unfold its
      simp [List.map_map, Function.comp_def]
    unfold front
    split
    · rename_i hpr
      show EndStar (.str g.pref :: its (g.items.map fun i => (i, false)))
      rw [e]
      cases hi : g.items with
      | nil => exact hpr
      | cons x l =>
        rw [hi] at hit
        exact ⟨hpr, by simp, hit⟩
    · rw [List.nil_append, e]
      exact hit
  exact once_of h hg (fun x hx => firm_solid (hsol x hx)) (fun _ => True) (fun _ _ => trivial)
    (fun fuel s c ps _ hc e => once_starLast fuel s c ps hc (bare_endStar e hend)) trivial hr

/-- A glob whose braces hold only words, of which none is the beginning of another word of the same
braces, with no star; the last token may be a star or braces with any words.  In a tree built by any
calls, on any bytes: at most once. -/
theorem once_words_partial {ops : List GlobOp} {t : GlobTree} {L : List (Glob × Int)}
    (h : runGlobTree ops = .ok (t, L)) {g : Glob} {i : Int} (hg : (g, i) ∈ L) {ts : List Tok}
    (hok : ∀ t ∈ ts, t.Ok) (hp : parseGlob (utf8 (renderGlob ts)) = .ok (.ok g))
    (hb : ∀ t ∈ ts, t.Wordy) (hw : ∀ t ∈ ts.dropLast, t.OneWay) {s : Str} {r : Ev} (hr : t.Returns s r) :
    stored i r ≤ 1 := by
  obtain ⟨g', hp', hgo, hng⟩ := parse_spec_words ts hok
  rw [hp] at hp'
  simp only [R.ok.injEq, Except.ok.injEq] at hp'
  subst hp'
  have hit : OneWays g.items := globOk_ways hgo (hng fun alts ha => hb _ ha) hw hb
  have hfr : OneWays (its (front g)) := by
    have e : its (g.items.map fun i => (i, false)) = g.items := by
      unfold its
      simp [List.map_map, Function.comp_def]
    unfold front
    split
    · rename_i hpr
      show OneWays (.str g.pref :: its (g.items.map fun i => (i, false)))
      rw [e]
      cases hi : g.items with
      | nil => exact .inr hpr
      | cons x l =>
        rw [hi] at hit
        exact ⟨⟨hpr, rfl⟩, hit⟩
    · rw [List.nil_append, e]
      exact hit
  exact once_of h hg (firm_ways hit) (fun _ => True) (fun _ _ => trivial)
    (fun fuel s c ps _ hc e => once_words fuel s c ps hc (bare_oneWays e hfr)) trivial hr

/-! ## Many stars: exponentially often -/

/-- The glob `*`, then `k` times `a*`. -/
def starA (k : Nat) : Str := b!"*" ++ (List.replicate k (b!"a*")).flatten

/-- Its items. -/
def starAItems (k : Nat) : List Item :=
  .star 0 :: (List.replicate k [Item.byte 97, Item.star 0]).flatten

theorem starA_length (k : Nat) : (starA k).length = 2 * k + 1 := by
  have : ∀ n, ((List.replicate n (b!"a*")).flatten).length = 2 * n := by
    intro n
    induction n with
    | zero => rfl
    | succ n ih => rw [List.replicate_succ, List.flatten_cons, List.length_append, ih]; simp; omega
  unfold starA
  rw [List.length_append, this]
  simp
  omega

theorem next_a (fuel : Nat) (t : Str) :
    nextItem (fuel + 1) (97 :: 42 :: t) = .ok (.ok (some (.byte 97), 42 :: t)) := by
  rw [nextItem]
  dsimp only
  rw [if_neg (by decide), if_neg (by decide), if_neg (by decide), if_neg (by decide),
    if_neg (by decide)]
  have : indexWildcard (97 :: 42 :: t) = some 1 := by
    simp [indexWildcard, indexP, isWild]
  rw [this]
  simp [sliceTo, sliceFrom, literalItem, decodeRune]

theorem skip_one (k : Nat) : skipStars (42 :: (List.replicate k (b!"a*")).flatten) =
    .ok (List.replicate k (b!"a*")).flatten := by
  cases k with
  | zero => decide
  | succ k =>
    rw [List.replicate_succ, List.flatten_cons]
    generalize (List.replicate k (b!"a*")).flatten = t
    show skipStars (42 :: 97 :: 42 :: t) = .ok (97 :: 42 :: t)
    have h : (rangeStr (42 :: 97 :: 42 :: t)).find? (fun p => p.2 ≠ 42) = some (1, 97) := by
      unfold rangeStr
      simp [rangeStr.go, decodeRune]
    unfold skipStars
    rw [h]
    simp [sliceFrom]

theorem next_star (fuel k : Nat) :
    nextItem (fuel + 1) (42 :: (List.replicate k (b!"a*")).flatten) =
      .ok (.ok (some (.star 0), (List.replicate k (b!"a*")).flatten)) := by
  rw [nextItem]
  dsimp only
  rw [if_neg (by decide), if_neg (by decide), if_pos rfl, skip_one, R.bind_ok]

theorem loop_starA (k fuel : Nat) (hf : 2 * k + 2 ≤ fuel) (st : ParseSt) (l : List Item)
    (hl : st.inners = l ++ [.star 0]) :
    ∃ st', parseLoop fuel (List.replicate k (b!"a*")).flatten st = .ok (.ok st') ∧
      st'.inners = l ++ starAItems k ∧ st'.pref = st.pref := by
  induction k generalizing fuel st l with
  | zero =>
    obtain ⟨f, rfl⟩ : ∃ f, fuel = f + 1 := ⟨fuel - 1, by omega⟩
    exact ⟨st, by simp [parseLoop], hl, rfl⟩
  | succ k ih =>
    obtain ⟨f, rfl⟩ : ∃ f, fuel = (f + 1) + 1 + 1 := ⟨fuel - 3, by omega⟩
    have hs1 : (st.step (.byte 97)).inners = l ++ [.star 0, .byte 97] ∧
        (st.step (.byte 97)).pref = st.pref := by
      unfold ParseSt.step
      dsimp only
      rw [hl]
      simp [appendItem, mergeItem]
    have hs2 : ((st.step (.byte 97)).step (.star 0)).inners = (l ++ [.star 0, .byte 97]) ++ [.star 0] ∧
        ((st.step (.byte 97)).step (.star 0)).pref = st.pref := by
      rw [← hs1.2]
      replace hs1 := hs1.1
      generalize st.step (.byte 97) = st1 at hs1
      unfold ParseSt.step
      dsimp only
      rw [hs1]
      simp [appendItem, mergeItem, List.getLast?_cons]
    obtain ⟨st', e, i1, i2⟩ := ih (f + 1) (by omega) _ _ hs2.1
    refine ⟨st', ?_, ?_, i2.trans hs2.2⟩
    · rw [List.replicate_succ, List.flatten_cons]
      show parseLoop (f + 1 + 1 + 1) (97 :: 42 :: (List.replicate k (b!"a*")).flatten) st = _
      rw [parseLoop, next_a, R.bind_ok]
      dsimp only
      rw [parseLoop, next_star, R.bind_ok]
      exact e
    · rw [i1]
      simp [starAItems, List.replicate_succ]

theorem starA_last (k : Nat) : ∃ i, starA k = i ++ [42] := by
  unfold starA
  cases k with
  | zero => exact ⟨[], rfl⟩
  | succ k =>
    refine ⟨b!"*" ++ ((List.replicate k (b!"a*")).flatten ++ [97]), ?_⟩
    rw [List.replicate_succ', List.flatten_append]
    simp

theorem finish_affix {g : Glob} (h : g.items ≠ []) :
    (finishGlob g).pref = g.pref ∧ (finishGlob g).suff = g.suff := by
  unfold finishGlob
  rw [if_neg (by simpa using h)]
  dsimp only
  (repeat' split) <;> exact ⟨rfl, rfl⟩

theorem parse_starA (k : Nat) : ∃ g, parseGlob (starA (k + 1)) = .ok (.ok g) ∧
    g.items = starAItems (k + 1) ∧ g.pref = [] ∧ g.suff = [] := by
  obtain ⟨i, hi⟩ := starA_last (k + 1)
  have h1 : indexWildcard (starA (k + 1)) = some 0 := rfl
  have h2 : indexLastWildcard (starA (k + 1)) = some i.length :=
    (C72.last_iff _ _).2 ⟨i, 42, [], hi, rfl, by unfold C72.Special; decide, by simp⟩
  have hlen : (starA (k + 1)).length = i.length + 1 := by rw [hi]; simp
  have hlen2 := starA_length (k + 1)
  obtain ⟨f, hf⟩ : ∃ f, parseFuel (starA (k + 1)).length = f + 1 + 1 :=
    ⟨parseFuel (starA (k + 1)).length - 2, by unfold parseFuel; omega⟩
  have hs : (({ minLen := 0, maxLen := 0, pref := [] } : ParseSt).step (.star 0)).inners =
      [] ++ [.star 0] := rfl
  obtain ⟨st', e, i1, i2⟩ := loop_starA (k + 1) (f + 1)
    (by unfold parseFuel at hf; omega) _ _ hs
  have hb : starA (k + 1) = 42 :: (List.replicate (k + 1) (b!"a*")).flatten := rfl
  have htake : takeSuffix st'.inners [] = (st'.inners, []) := by
    rw [i1]
    unfold takeSuffix
    split
    · unfold starAItems
      rw [List.replicate_succ', List.flatten_append]
      simp [List.getLast?_cons, List.getLast?_append]
    · rfl
  refine ⟨finishGlob { glob := starA (k + 1), minLen := st'.minLen, maxLen := st'.maxLen,
                       pref := st'.pref, items := st'.inners, suff := [] }, ?_, ?_, ?_, ?_⟩
  · unfold parseGlob
    rw [h1]
    dsimp only
    rw [sliceTo, if_pos (Nat.zero_le _), R.bind_ok, sliceFrom, if_pos (Nat.zero_le _), R.bind_ok,
      List.take_zero, List.drop_zero, h2, hb]
    dsimp only
    rw [if_neg (by omega), ← hb]
    rw [if_neg (by rw [hlen]; omega), R.bind_ok]
    dsimp only
    rw [if_neg (by rw [hb]; simp [List.replicate_succ]), if_neg (by rw [hb]; simp)]
    simp only [List.length_nil, Int.natCast_zero, Int.add_zero]
    rw [hf]
    conv => lhs; rw [hb, parseLoop, next_star, R.bind_ok]
    dsimp only
    rw [e, R.bind_ok]
    dsimp only
    rw [htake, hb]
  · rw [finishGlob_sameItems]
    exact i1
  · rw [(finish_affix (by dsimp only; rw [i1]; simp [starAItems])).1]
    exact i2
  · rw [(finish_affix (by dsimp only; rw [i1]; simp [starAItems])).2]

/-- In how many ways `k` of `n` places can be chosen. -/
def ways : Nat → Nat → Nat
  | 0, _ => 1
  | _ + 1, 0 => 0
  | k + 1, n + 1 => ways k n + ways (k + 1) n

theorem ways_mono (k n : Nat) : ways k n ≤ ways k (n + 1) := by
  cases k with
  | zero => simp only [ways, Nat.le_refl]
  | succ k => rw [ways]; exact Nat.le_add_left _ _

theorem ways_pow (k : Nat) : 2 ^ k ≤ ways k (2 * k) := by
  induction k with
  | zero => decide
  | succ k ih =>
    have h := ways_mono k (2 * k)
    have e : ways (k + 1) (2 * (k + 1)) =
        ways k (2 * k + 1) + (ways k (2 * k) + ways (k + 1) (2 * k)) := by
      rw [Nat.mul_add, ways, ways]
    rw [e, Nat.pow_succ]
    omega

/-- The nodes of the glob. -/
def starChain (e : Str × Int) : Nat → Tree
  | 0 => .node (.star 0) false (some e) []
  | k + 1 => .node (.star 0) false none [.node (.byte 97) false none [starChain e k]]

theorem insert_starChain (e : Str × Int) (k : Nat) :
    Tree.insert (((List.replicate k [Item.byte 97, Item.star 0]).flatten).map fun i => (i, false)) e
      (.node (.star 0) false none []) = starChain e k := by
  induction k with
  | zero => rfl
  | succ k ih =>
    rw [List.replicate_succ, List.flatten_cons, List.map_append]
    show Tree.node (.star 0) false none [.node (.byte 97) false none [Tree.insert
      (((List.replicate k [Item.byte 97, Item.star 0]).flatten).map fun i => (i, false)) e
      (.node (.star 0) false none [])]] = _
    rw [ih]
    rfl

/-- What `n` calls of `Store` leave. -/
def timesEv (e : Str × Int) (n : Nat) : Ev := (List.replicate n e, n)

theorem addEv_times (e : Str × Int) (a b : Nat) :
    addEv (timesEv e a) (timesEv e b) = timesEv e (a + b) := by
  unfold addEv timesEv
  rw [List.replicate_append_replicate]

theorem addR_times (e : Str × Int) (a b : Nat) :
    addR (.ok (timesEv e a)) (.ok (timesEv e b)) = .ok (timesEv e (a + b)) := by
  rw [← addEv_times]
  rfl

theorem count_chain (e : Str × Int) (fuel : Nat) :
    (∀ k n, 2 * k + n + 1 ≤ fuel →
      Tree.matchT fuel (starChain e k) (List.replicate n 97) = .ok (timesEv e (ways k n))) ∧
    (∀ k n, 2 * k + n + 2 ≤ fuel →
      Tree.starT fuel true (.node (.byte 97) false none [starChain e k]) (List.replicate n 97) =
        .ok (timesEv e (ways (k + 1) n))) := by
  induction fuel with
  | zero => exact ⟨fun k n h => by omega, fun k n h => by omega⟩
  | succ fuel ih =>
    refine ⟨fun k n h => ?_, fun k n h => ?_⟩
    · cases k with
      | zero =>
        rw [ways, Tree.matchT]
        unfold Tree.matchStep
        rw [if_neg (by show ¬ ((List.length _ : Nat) : Int) < 0; omega)]
        rfl
      | succ k =>
        have := ih.2 k n (by omega)
        rw [Tree.matchT]
        unfold Tree.matchStep
        rw [if_neg (by show ¬ ((List.length _ : Nat) : Int) < 0; omega)]
        show addR (Tree.starT fuel true (.node (.byte 97) false none [starChain e k])
          (List.replicate n 97)) (.ok (timesEv e 0)) = _
        rw [this, addR_times]
        rfl
    · cases n with
      | zero => rfl
      | succ n =>
        have h1 := ih.1 k n (by omega)
        have h2 := ih.2 k n (by omega)
        rw [Tree.starT]
        show Tree.starStep _ _ _ _ true (.node (.byte 97) false none [starChain e k])
          (97 :: List.replicate n 97) = _
        have hf : (Item.byte 97).find (97 :: List.replicate n 97) = .ok (some (0, 1), .done) := rfl
        unfold Tree.starStep
        rw [if_neg (by show ¬ ((List.length _ : Nat) : Int) < 1; simp; omega)]
        simp only [Tree.item]
        rw [hf, R.bind_ok]
        dsimp only
        rw [sliceFrom, if_pos (Nat.zero_le _), R.bind_ok, List.drop_zero]
        unfold Tree.starFlag
        dsimp only
        rw [sliceFromInt, if_pos (by simp; omega), R.bind_ok, if_neg (by simp [Tree.childs])]
        show addR (addR (Tree.matchT fuel (starChain e k) (List.replicate n 97)) (.ok (timesEv e 0)))
          (Tree.starT fuel true (.node (.byte 97) false none [starChain e k]) (List.replicate n 97)) = _
        rw [h1, h2, addR_times, addR_times]
        rfl

/-- The tree with the one glob `*a*a…*`, on a text of `a`s: `Store` is called once for every choice of
the `a`s that the literals of the glob may stand for. -/
theorem stars_exact (k n : Nat) : ∃ g t, runGlobTree [.add (starA (k + 1)) 0] = .ok (t, [(g, 0)]) ∧
    t.Returns (List.replicate n 97)
      (List.replicate (ways (k + 1) n) (g.node, 0), ways (k + 1) n) := by
  obtain ⟨g, h, h1, h2, h3⟩ := parse_starA k
  have hadd : ∃ t r, GlobTree.add {} (starA (k + 1)) 0 = .ok (t, r) ∧ r.err = none ∧
      t.root = .node (.any 0) false none [starChain (g.node, 0) (k + 1)] := by
    unfold GlobTree.add
    rw [if_neg (by simp [starA]), if_neg (by decide)]
    simp only [GoMap.get]
    rw [h, R.bind_ok]
    refine ⟨_, _, rfl, rfl, ?_⟩
    show Tree.insert g.steps (g.node, 0) (.node (.any 0) false none []) = _
    unfold Glob.steps
    rw [h1, h2, h3, ← insert_starChain]
    rfl
  obtain ⟨t, r, e1, e2, e3⟩ := hadd
  refine ⟨g, t, ?_, 2 * (k + 1) + n + 1, ?_⟩
  · show R.bind (GlobTree.add {} (starA (k + 1)) 0) _ = _
    rw [e1]
    show R.ok (t, [] ++ GlobOp.accepted r (.add (starA (k + 1)) 0)) = _
    simp only [GlobOp.accepted]
    rw [if_neg (by rw [e2]; simp [starA]), h]
    rfl
  · unfold GlobTree.matches Tree.matches
    rw [e3]
    show addR (Tree.matchT _ (starChain (g.node, 0) (k + 1)) _) (.ok (timesEv (g.node, 0) 0)) = _
    rw [(count_chain _ _).1 _ _ (Nat.le_refl _), addR_times]
    rfl

/-- `Match` passes the only glob of a tree to `Store` more often than any given number of times, and
exponentially often in the length of the glob. -/
theorem stored_exponential (k : Nat) : ∃ g t r, runGlobTree [.add (starA (k + 1)) 0] = .ok (t, [(g, 0)]) ∧
    t.Returns (List.replicate (2 * (k + 1)) 97) r ∧ 2 ^ (k + 1) ≤ stored 0 r := by
  obtain ⟨g, t, h1, h2⟩ := stars_exact k (2 * (k + 1))
  refine ⟨g, t, _, h1, h2, ?_⟩
  have : stored 0 (List.replicate (ways (k + 1) (2 * (k + 1))) (g.node, 0), ways (k + 1) (2 * (k + 1))) =
      ways (k + 1) (2 * (k + 1)) := by
    unfold stored
    simp
  rw [this]
  exact ways_pow (k + 1)

/-- The claim "each glob is stored at most once" is false, and no polynomial in the lengths of glob and
text bounds the number of calls of `Store`, though the tree holds one glob and no braces. -/
theorem no_polynomial (c d : Nat) : ∃ glob s g t r, (123 : UInt8) ∉ glob ∧
    runGlobTree [.add glob 0] = .ok (t, [(g, 0)]) ∧ t.Returns s r ∧
    c * (glob.length + s.length + 1) ^ d < stored 0 r := by
  obtain ⟨k, hk⟩ := pow_beats c d
  obtain ⟨g, t, r, h1, h2, h3⟩ := stored_exponential k
  refine ⟨starA (k + 1), _, g, t, r, ?_, h1, h2, ?_⟩
  · unfold starA
    simp
  · have hl := starA_length (k + 1)
    refine Nat.lt_of_lt_of_le (Nat.lt_of_le_of_lt (Nat.mul_le_mul_left c (Nat.pow_le_pow_left ?_ d)) hk)
      (Nat.le_trans (Nat.pow_le_pow_right (by decide) (Nat.le_succ k)) h3)
    rw [hl, List.length_replicate]
    omega

/-! ## Examples -/

/-- The number of calls of `Store` with index 0 when the tree holds the one glob. -/
def times (glob s : Str) : Option Nat :=
  match runGlobTree [.add glob 0] with
  | .ok (t, _) =>
    match t.matches 60 s with
    | .ok r => some (stored 0 r)
    | _ => none
  | _ => none

/-- Two stars apart. -/
theorem two_stars : times (b!"*a*a*") (b!"aaaa") = some 6 := by decide +kernel

/-- Braces without a star: alternatives one of which begins with the other, and a group with two
alternatives that match the same text. -/
theorem braces_twice : times (b!"{a,ab}{b,bb}") (b!"abb") = some 2 ∧ times (b!"{a?,?b}") (b!"ab") = some 2 := by
  decide +kernel

/-- One star and a text that is not UTF-8. -/
theorem bytes_twice : times [42, 0xe2, 0x82, 63] [0xe2, 0x82, 0xe2, 0x82, 0xac] = some 2 := by
  decide +kernel

example : times (b!"*{a,ab}") (b!"ab") = some 1 ∧ times (b!"{a,b,a}") (b!"a") = some 1 ∧
    times (b!"a?*c") (b!"abcc") = some 1 := by
  decide +kernel

/-- `x*?[a-c]?z`. -/
def exSs : List Sub := [.lit 'x', .star, .any, .cls [.range 'a' 'c'], .any, .lit 'z']

/-- The hypotheses of `once_partial`. -/
example : (∀ s ∈ exSs, (Tok.sub s).Ok) ∧ utf8 (renderGlob (exSs.map Tok.sub)) = b!"x*?[a-c]?z" ∧
    starRuns false exSs = 1 ∧ starRuns false [.star, .lit 'a', .star] = 2 := by
  decide +kernel

/-- `{ab,b}x{a,b}[a-c]{a,ab,}`. -/
def exTs : List Tok := [.alt [[.lit 'a', .lit 'b'], [.lit 'b']], .sub (.lit 'x'), .alt [[.lit 'a'], [.lit 'b']],
  .sub (.cls [.range 'a' 'c']), .alt [[.lit 'a'], [.lit 'a', .lit 'b'], []]]

/-- The hypotheses of `once_words_partial`; braces whose words begin one another must come last
(`braces_twice`). -/
example : (∀ t ∈ exTs, t.Ok) ∧ utf8 (renderGlob exTs) = b!"{ab,b}x{a,b}[a-c]{a,ab,}" ∧
    (∀ t ∈ exTs, t.Wordy) ∧ (∀ t ∈ exTs.dropLast, t.OneWay) ∧
    ¬ (Tok.alt [[.lit 'a'], [.lit 'a', .lit 'b']]).OneWay ∧
    times (b!"{ab,b}x{a,b}[a-c]{a,ab,}") (b!"abxbcab") = some 1 := by
  decide +kernel

/-- `x*[a-c]?z` and `x[ab]*`, with other globs in the tree. -/
example : (match runGlobTree [.add (b!"*a*a*") 3, .add (b!"x*[a-c]?z") 0, .add (b!"x[ab]*") 1,
      .add (b!"x*{a,b}*") 2] with
    | .ok (t, _) =>
      match t.matches 60 (b!"xaabaz") with
      | .ok r => (stored 0 r, stored 1 r, stored 2 r, stored 3 r)
      | _ => (9, 9, 9, 9)
    | _ => (9, 9, 9, 9)) = (1, 1, 3, 3) := by
  decide +kernel

end GoMatcher.C73
