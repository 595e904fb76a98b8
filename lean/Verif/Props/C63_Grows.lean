import Verif.Proofs.TagGrown
import Verif.Proofs.GTreeExact
import Verif.Props.C13_C15_GTree
import Verif.Props.C26_C29_TagTree
import Verif.Props.C56_Only

/-! # C63: adding a query changes the reports only by that query

The batch matchers for dotted globs and for tag queries.  (For the batch matcher for single globs this
is false: `C08.star_prefix_wrong`.) -/

namespace GoMatcher

namespace C63

/-! ## Dotted globs -/

theorem gglob_insert {t t' : GGlobTree} {L : List (GGlob × Int)} (h : ExactInv t L) {g : GGlob} {i : Int}
    (hp : ∃ s, parseGGlob s = .ok (.ok g)) (hn : t.globs.get g.node = none)
    (hr : t'.root = addGGlob t.root g i) :
    (∀ n, t'.at n = if g.parts.length = n then (t.at n).insert g.parts (g.node, i) else t.at n) ∧
      ∀ n, GTree.find (g.parts.map GTree.key) (t.at n) = none := by
  constructor
  · intro n
    unfold GGlobTree.at
    rw [hr, addGGlob, GoMap.get_set]
    by_cases hl : g.parts.length = n
    · subst hl
      rw [if_pos rfl, if_pos rfl]; rfl
    · rw [if_neg hl, if_neg hl]
  · intro n
    cases hf : GTree.find (g.parts.map GTree.key) (t.at n) with
    | none => rfl
    | some e =>
      obtain ⟨x, hx, hkx⟩ := h.find n _ _ hf
      obtain ⟨s, hs⟩ := hp
      obtain ⟨s', hs'⟩ := h.parsed x hx
      have e1 := (parseGGlob_ok hs).2.2.1
      have e2 := (parseGGlob_ok hs').2.2.1
      have : g.parts.map Glob.node = x.1.parts.map Glob.node := by
        have := congrArg (List.map Prod.snd) hkx
        simpa [Function.comp_def, GTree.key] using this
      have hknown := h.known x hx
      rw [e2, ← this, ← e1, hn] at hknown
      simp at hknown

/-- Any history of calls on a tree of dotted globs, then one more call of `Add` or `AddGlob`.  Wherever
matching returns afterwards, it returned before; and it makes the same calls of `Store` in the same
order with the same count, or, if the call was accepted, these with one call for the new glob somewhere
among them, and one more is counted.  The same for `MatchByParts`. -/
theorem gglob_add (ops : List GOp) (hp : ∀ op ∈ ops, op.Parsed) (t : GGlobTree) (L : List (GGlob × Int))
    (hr : runTree ops = .ok (t, L)) (op : GOp) (hop : op.Parsed) (t' : GGlobTree) (res : AddRes)
    (h : op.apply t = .ok (t', res)) :
    (∀ path r', t'.matches path = .ok r' → ∃ r, t.matches path = .ok r ∧
      (r' = r ∨ ∃ g i l₁ l₂, op.accepted res = [(g, i)] ∧ r.1 = l₁ ++ l₂ ∧
        r'.1 = l₁ ++ (g.node, i) :: l₂ ∧ r'.2 = r.2 + 1)) ∧
    ∀ ps r', t'.matchByParts ps = .ok r' → ∃ r, t.matchByParts ps = .ok r ∧
      (r' = r ∨ ∃ g i l₁ l₂, op.accepted res = [(g, i)] ∧ r.1 = l₁ ++ l₂ ∧
        r'.1 = l₁ ++ (g.node, i) :: l₂ ∧ r'.2 = r.2 + 1) := by
  obtain ⟨t0, L0, hr0, hI⟩ := runOps_exact ops hp {} [] exactInv_empty
  have hr1 : runOps {} [] ops = .ok (t, L) := hr
  rw [hr0] at hr1
  cases hr1
  obtain ⟨t1, r1, h1, h2⟩ := apply_cases t op hop
  rw [h] at h1
  cases h1
  rcases h2 with ⟨rfl, _⟩ | ⟨g, i, ha, hpg, hn, hroot, _, _⟩
  · exact ⟨fun path r' hm => ⟨r', hm, .inl rfl⟩, fun path r' hm => ⟨r', hm, .inl rfl⟩⟩
  obtain ⟨hat, hfresh⟩ := gglob_insert hI hpg hn hroot
  have conv : ∀ r r' : Events × Nat, Grown (g.node, i) r r' → (r' = r ∨ ∃ g i l₁ l₂,
      op.accepted res = [(g, i)] ∧ r.1 = l₁ ++ l₂ ∧ r'.1 = l₁ ++ (g.node, i) :: l₂ ∧ r'.2 = r.2 + 1) := by
    rintro r r' (h | ⟨l₁, l₂, h1, h2, h3⟩)
    · exact .inl h
    · exact .inr ⟨g, i, l₁, l₂, ha, h1, h2, h3⟩
  constructor
  · intro path r' hm
    by_cases h0 : path = []
    · subst h0
      cases hm
      exact ⟨_, rfl, .inl rfl⟩
    rw [matches_at t' path h0, hat] at hm
    rw [matches_at t path h0]
    split at hm
    · obtain ⟨r, h1, h2⟩ := matchItems_insert _ _ _ (hfresh _) _ r' hm
      exact ⟨r, h1, conv r r' h2⟩
    · exact ⟨r', hm, .inl rfl⟩
  · intro ps r' hm
    by_cases h0 : ps = []
    · subst h0
      cases hm
      exact ⟨_, rfl, .inl rfl⟩
    rw [byParts_at t' ps h0, hat] at hm
    rw [byParts_at t ps h0]
    split at hm
    · obtain ⟨r, h1, h2⟩ := matchByParts_insert _ _ _ (hfresh _) _ h0 r' hm
      exact ⟨r, h1, conv r r' h2⟩
    · exact ⟨r', hm, .inl rfl⟩

theorem sublist_of_grown {e : Str × Int} {r r' : Events × Nat}
    (h : r' = r ∨ ∃ l₁ l₂, r.1 = l₁ ++ l₂ ∧ r'.1 = l₁ ++ e :: l₂ ∧ r'.2 = r.2 + 1) :
    r.1.Sublist r'.1 ∧ r.2 ≤ r'.2 := by
  rcases h with rfl | ⟨l₁, l₂, h1, h2, h3⟩
  · exact ⟨List.Sublist.refl _, Nat.le_refl _⟩
  · rw [h1, h2, h3]
    exact ⟨List.Sublist.append_left (List.sublist_cons_self _ _) _, by omega⟩

theorem runOps_append (a b : List GOp) (t : GGlobTree) (L : List (GGlob × Int)) :
    runOps t L (a ++ b) = runOps t L a >>= fun x => runOps x.1 x.2 b := by
  induction a generalizing t L with
  | nil => rfl
  | cons op a ih =>
    rw [List.cons_append, runOps, runOps]
    cases op.apply t with
    | ok r => rw [R.bind_ok, R.bind_ok, ih]
    | panic => rfl
    | timeout => rfl

/-- No number of further calls takes a report away or changes the order of the old ones. -/
theorem gglob_later (ops more : List GOp) (hp : ∀ op ∈ ops ++ more, op.Parsed) :
    ∃ t L t' L', runTree ops = .ok (t, L) ∧ runTree (ops ++ more) = .ok (t', L') ∧
      (∀ path r', t'.matches path = .ok r' → ∃ r, t.matches path = .ok r ∧ r.1.Sublist r'.1 ∧ r.2 ≤ r'.2) ∧
      ∀ ps r', t'.matchByParts ps = .ok r' → ∃ r, t.matchByParts ps = .ok r ∧ r.1.Sublist r'.1 ∧ r.2 ≤ r'.2 := by
  have hp1 : ∀ op ∈ ops, op.Parsed := fun op h => hp op (by simp [h])
  obtain ⟨t, L, hr, _⟩ := runOps_exact ops hp1 {} [] exactInv_empty
  have key : ∀ more : List GOp, (∀ op ∈ more, op.Parsed) → ∀ ops : List GOp, (∀ op ∈ ops, op.Parsed) →
      ∀ t L, runTree ops = .ok (t, L) → ∃ t' L', runTree (ops ++ more) = .ok (t', L') ∧
      (∀ path r', t'.matches path = .ok r' → ∃ r, t.matches path = .ok r ∧ r.1.Sublist r'.1 ∧ r.2 ≤ r'.2) ∧
      ∀ ps r', t'.matchByParts ps = .ok r' → ∃ r, t.matchByParts ps = .ok r ∧ r.1.Sublist r'.1 ∧ r.2 ≤ r'.2 := by
    intro more
    induction more with
    | nil =>
      intro _ ops _ t L hr
      refine ⟨t, L, by rw [List.append_nil]; exact hr, ?_, ?_⟩
      · exact fun path r' h => ⟨r', h, List.Sublist.refl _, Nat.le_refl _⟩
      · exact fun path r' h => ⟨r', h, List.Sublist.refl _, Nat.le_refl _⟩
    | cons op more ih =>
      intro hm ops ho t L hr
      obtain ⟨t1, r1, h1, _⟩ := apply_cases t op (hm op (by simp))
      obtain ⟨a1, a2⟩ := gglob_add ops ho t L hr op (hm op (by simp)) t1 r1 h1
      have hr1 : runTree (ops ++ [op]) = .ok (t1, L ++ op.accepted r1) := by
        unfold runTree at hr ⊢
        rw [runOps_append, hr, R.bind_ok, runOps, h1, R.bind_ok, runOps]
      obtain ⟨t', L', h2, b1, b2⟩ := ih (fun o ho => hm o (by simp [ho])) (ops ++ [op]) (by
        intro o ho'
        rcases List.mem_append.1 ho' with h | h
        · exact ho o h
        · simp only [List.mem_singleton] at h; subst h; exact hm _ (by simp)) t1 _ hr1
      refine ⟨t', L', by simpa using h2, ?_, ?_⟩
      · intro path r' h
        obtain ⟨r2, c1, c2, c3⟩ := b1 path r' h
        obtain ⟨r, d1, d2⟩ := a1 path r2 c1
        have d3 : r.1.Sublist r2.1 ∧ r.2 ≤ r2.2 := by
          rcases d2 with d2 | ⟨g, i, l₁, l₂, _, d2⟩
          · exact sublist_of_grown (e := ([], 0)) (.inl d2)
          · exact sublist_of_grown (.inr ⟨l₁, l₂, d2⟩)
        exact ⟨r, d1, d3.1.trans c2, by omega⟩
      · intro path r' h
        obtain ⟨r2, c1, c2, c3⟩ := b2 path r' h
        obtain ⟨r, d1, d2⟩ := a2 path r2 c1
        have d3 : r.1.Sublist r2.1 ∧ r.2 ≤ r2.2 := by
          rcases d2 with d2 | ⟨g, i, l₁, l₂, _, d2⟩
          · exact sublist_of_grown (e := ([], 0)) (.inl d2)
          · exact sublist_of_grown (.inr ⟨l₁, l₂, d2⟩)
        exact ⟨r, d1, d3.1.trans c2, by omega⟩
  obtain ⟨t', L', h1, h2, h3⟩ := key more (fun op h => hp op (by simp [h])) ops hp1 t L hr
  exact ⟨t, L, t', L', hr, h1, h2, h3⟩

/-- The new glob is reported between old ones. -/
example :
    (runTree [.add (b!"a.b*") 2, .add (b!"*.b?") 9] >>= fun x => x.1.matches (b!"a.bc")) =
      .ok ([(b!"a.b*", 2), (b!"*.b?", 9)], 2) ∧
    (runTree [.add (b!"a.b*") 2, .add (b!"*.b?") 9, .add (b!"a.?c") 4] >>= fun x => x.1.matches (b!"a.bc")) =
      .ok ([(b!"a.b*", 2), (b!"a.?c", 4), (b!"*.b?", 9)], 3) := by decide +kernel

/-- A new glob may make matching panic; it never makes a panic go away. -/
example :
    (runTree [.add (b!"?.b") 1] >>= fun x => x.1.matches (b!"a.b")) = .ok ([(b!"?.b", 1)], 1) ∧
    (runTree [.add (b!"?.b") 1, .add (b!"*{?,a}.c") 2] >>= fun x => x.1.matches (b!"a.b")) = .panic := by
  decide +kernel

/-! ## Tag queries -/

/-- The texts of all stored queries are in the table. -/
structure Known (t : GTagsTree) : Prop where
  root : ∀ p ∈ pathsG t.root, ∃ ts, pathIds p = ts.map TTerm.id ∧ (t.queries.get (termsText ts)).isSome = true
  fin : t.fin ≠ none → (t.queries.get (termsText [])).isSome = true

/-- What a call does to the tree. -/
theorem tag_apply_cases {lib : GoLib} {t t' : GTagsTree} {op : TOp} {res : TAddRes}
    (h : op.apply lib t = .ok (t', res)) :
    t' = t ∧ C56.accepted lib res op = [] ∨
    (∃ ts i, C56.accepted lib res op = [(ts, i)] ∧ t.queries.get (termsText ts) = none ∧
      (t'.queries.get (termsText ts)).isSome = true ∧
      (∀ s, (t.queries.get s).isSome = true → (t'.queries.get s).isSome = true) ∧
      (ts = [] ∧ t'.root = t.root ∧ t'.fin = some (termsText ts, i) ∨
        ts ≠ [] ∧ t'.fin = t.fin ∧ parseItems (some (termsText ts, i)) ts t.root = .ok t'.root)) ∨
    (∃ ts, C56.accepted lib res op = [] ∧ t'.fin = t.fin ∧ parseItems none ts t.root = .ok t'.root ∧
      ∀ s, (t.queries.get s).isSome = true → (t'.queries.get s).isSome = true) := by
  cases op with
  | add q i =>
    simp only [TOp.apply, GTagsTree.add] at h
    by_cases h0 : q = []
    · rw [if_pos h0] at h; cases h; exact .inl ⟨rfl, by simp [C56.accepted, tagAccepted, h0]⟩
    rw [if_neg h0] at h
    by_cases h1 : i < 0
    · rw [if_pos h1] at h; cases h; exact .inl ⟨rfl, by simp [C56.accepted, tagAccepted]⟩
    rw [if_neg h1] at h
    cases h2 : t.queries.get q with
    | some n => rw [h2] at h; cases h; exact .inl ⟨rfl, by simp [C56.accepted, tagAccepted]⟩
    | none =>
      rw [h2] at h
      dsimp only at h
      cases h3 : t.queryIndex.get i with
      | some q => rw [h3] at h; cases h; exact .inl ⟨rfl, by simp [C56.accepted, tagAccepted]⟩
      | none =>
        rw [h3] at h
        dsimp only at h
        obtain ⟨pr, hpr, h⟩ := R.bind_eq_ok.1 h
        cases pr with
        | error e => cases h; exact .inl ⟨rfl, by simp [C56.accepted, tagAccepted]⟩
        | ok ts =>
          dsimp only at h
          cases h4 : t.queries.get (termsText ts) with
          | some n => rw [h4] at h; cases h; exact .inl ⟨rfl, by simp [C56.accepted, tagAccepted]⟩
          | none =>
            rw [h4] at h
            dsimp only at h
            have hq1 : ((if termsText ts ≠ q then (t.queries.set q i).set (termsText ts) i
                else t.queries.set q i).get (termsText ts)).isSome = true := by
              split
              · simp [GoMap.get_set]
              · rename_i h
                have : termsText ts = q := Classical.byContradiction h
                simp [GoMap.get_set, this]
            have hq2 : ∀ s, (t.queries.get s).isSome = true →
                ((if termsText ts ≠ q then (t.queries.set q i).set (termsText ts) i
                else t.queries.set q i).get s).isSome = true := by
              intro s hs
              split <;> simp only [GoMap.get_set] <;> (repeat' split) <;> first | rfl | exact hs
            right; left
            cases ts with
            | nil =>
              cases h
              exact ⟨[], i, by simp [C56.accepted, tagAccepted, h0, hpr], h4, hq1, hq2, .inl ⟨rfl, rfl, rfl⟩⟩
            | cons u us =>
              dsimp only at h
              obtain ⟨root, hr, h⟩ := R.bind_eq_ok.1 h
              cases h
              exact ⟨u :: us, i, by simp [C56.accepted, tagAccepted, h0, hpr], h4, hq1, hq2,
                .inr ⟨by simp, rfl, hr⟩⟩
  | addTerms ts i =>
    simp only [TOp.apply, GTagsTree.addTerms] at h
    cases ts with
    | nil => cases h; exact .inl ⟨rfl, rfl⟩
    | cons u us =>
      dsimp only at h
      split at h
      · cases h; exact .inl ⟨rfl, rfl⟩
      split at h
      · cases h; exact .inl ⟨rfl, rfl⟩
      split at h
      · cases h; exact .inl ⟨rfl, rfl⟩
      obtain ⟨root, hr, h⟩ := R.bind_eq_ok.1 h
      cases h
      refine .inr (.inr ⟨u :: us, rfl, rfl, hr, ?_⟩)
      intro s hs
      simp only [GoMap.get_set]
      split
      · rfl
      · exact hs

theorem known_apply {lib : GoLib} {t t' : GTagsTree} {op : TOp} {res : TAddRes}
    (h : op.apply lib t = .ok (t', res)) (hk : Known t) : Known t' := by
  rcases tag_apply_cases h with ⟨rfl, _⟩ | ⟨ts, i, _, _, h3, h4, h5⟩ | ⟨ts, _, h2, h3, h4⟩
  · exact hk
  · rcases h5 with ⟨rfl, hr, hf⟩ | ⟨_, hf, hr⟩
    · constructor
      · rw [hr]
        intro p hp
        obtain ⟨us, h6, h7⟩ := hk.root p hp
        exact ⟨us, h6, h4 _ h7⟩
      · intro _; exact h3
    · constructor
      · intro p hp
        rcases parseItems_ids _ _ _ _ hr p hp with ⟨q, hq, h6, _⟩ | ⟨_, h6⟩
        · obtain ⟨us, h7, h8⟩ := hk.root q hq
          exact ⟨us, by rw [← h6, h7], h4 _ h8⟩
        · exact ⟨ts, h6, h3⟩
      · rw [hf]; exact fun h => h4 _ (hk.fin h)
  · constructor
    · intro p hp
      rcases parseItems_ids _ _ _ _ h3 p hp with ⟨q, hq, h6, _⟩ | ⟨h6, _⟩
      · obtain ⟨us, h7, h8⟩ := hk.root q hq
        exact ⟨us, by rw [← h6, h7], h4 _ h8⟩
      · cases h6
    · rw [h2]; exact fun h => h4 _ (hk.fin h)

theorem known_run {lib : GoLib} (ops : List TOp) {t t' : GTagsTree} (h : runTOps lib t ops = .ok t')
    (hk : Known t) : Known t' := by
  induction ops generalizing t with
  | nil => cases h; exact hk
  | cons op ops ih =>
    rw [runTOps] at h
    obtain ⟨⟨t1, r⟩, h1, h2⟩ := R.bind_eq_ok.1 h
    exact ih h2 (known_apply h1 hk)

theorem known_empty : Known {} where
  root p hp := by cases hp
  fin h := absurd rfl h

/-- Any history of calls on a tree of tag queries, then one more call of `Add` or `AddTerms`.  Wherever
`MatchByTagsMap` returns afterwards, it returned before; and it makes the same calls of `Store` in the
same order with the same count, or, if the call was an accepted `Add` of a query with conditions, these
with one call for the new query somewhere among them, and one more is counted. -/
theorem tags_add (lib : GoLib) (ops : List TOp) (t : GTagsTree) (hr : runTOps lib {} ops = .ok t) (op : TOp)
    (t' : GTagsTree) (res : TAddRes) (h : op.apply lib t = .ok (t', res)) (tags : GoMap Str Str)
    (r' : Events × Nat) (hm : t'.matchByTagsMap lib tags = .ok r') :
    ∃ r, t.matchByTagsMap lib tags = .ok r ∧ (r' = r ∨ ∃ ts i l₁ l₂, C56.accepted lib res op = [(ts, i)] ∧
      ts ≠ [] ∧ r.1 = l₁ ++ l₂ ∧ r'.1 = l₁ ++ (termsText ts, i) :: l₂ ∧ r'.2 = r.2 + 1) := by
  have hk := known_run ops hr known_empty
  unfold GTagsTree.matchByTagsMap at hm ⊢
  by_cases h0 : tags.length = 0
  · rw [if_pos h0] at hm
    rw [if_pos h0]
    exact ⟨r', hm, .inl rfl⟩
  rw [if_neg h0] at hm
  rw [if_neg h0]
  rcases tag_apply_cases h with ⟨rfl, _⟩ | ⟨ts, i, ha, hn, h3, h4, h5⟩ | ⟨ts, ha, h2, h3, h4⟩
  · exact ⟨r', hm, .inl rfl⟩
  · rcases h5 with ⟨rfl, hroot, hf⟩ | ⟨hne, hf, hroot⟩
    · rw [hroot] at hm
      exact ⟨r', hm, .inl rfl⟩
    · obtain ⟨r, h6, h7⟩ := parseItems_under (closed_grown (termsText ts, i)) lib tags _
        (by
          rintro fin (h | h)
          · cases h
          · subst h; exact .inr ⟨[], [], rfl, rfl, rfl⟩) ts _ _ hroot
        (.inr (by
          intro p hp he
          obtain ⟨us, h7, h8⟩ := hk.root p hp
          rw [termsText_ids (h7.symm.trans he), hn] at h8
          cases h8)) r' hm
      refine ⟨r, h6, ?_⟩
      rcases h7 with h7 | ⟨l₁, l₂, h7⟩
      · exact .inl h7
      · exact .inr ⟨ts, i, l₁, l₂, ha, hne, h7⟩
  · obtain ⟨r, h6, h7⟩ := parseItems_under closed_eq lib tags none (fun fin _ => rfl) ts _ _ h3 (.inl rfl) r' hm
    exact ⟨r, h6, .inl h7⟩

/-- The same for `MatchByTags` on sorted tags; the query without conditions, if that is the new one,
is stored first and not counted. -/
theorem tags_slice_add (lib : GoLib) (ops : List TOp) (t : GTagsTree) (hr : runTOps lib {} ops = .ok t)
    (op : TOp) (t' : GTagsTree) (res : TAddRes) (h : op.apply lib t = .ok (t', res)) (tags : List Tag)
    (hs : TagsSorted tags) (r' : Events × Nat) (hm : t'.matchByTags lib tags = .ok r') :
    ∃ r, t.matchByTags lib tags = .ok r ∧ (r' = r ∨
      (∃ ts i l₁ l₂, C56.accepted lib res op = [(ts, i)] ∧ ts ≠ [] ∧ r.1 = l₁ ++ l₂ ∧
        r'.1 = l₁ ++ (termsText ts, i) :: l₂ ∧ r'.2 = r.2 + 1) ∨
      ∃ i, C56.accepted lib res op = [([], i)] ∧ r'.1 = (b!"seriesByTag()", i) :: r.1 ∧ r'.2 = r.2) := by
  have hk := known_run ops hr known_empty
  have hr' : runTOps lib {} (ops ++ [op]) = .ok t' := by
    have app : ∀ (a b : List TOp) (t : GTagsTree), runTOps lib t (a ++ b) =
        runTOps lib t a >>= fun t => runTOps lib t b := by
      intro a b
      induction a with
      | nil => intro t; rfl
      | cons o a ih =>
        intro t
        rw [List.cons_append, runTOps, runTOps]
        cases o.apply lib t with
        | ok r => rw [R.bind_ok, R.bind_ok, ih]
        | panic => rfl
        | timeout => rfl
    rw [app, hr, R.bind_ok, runTOps, h, R.bind_ok, runTOps]
  have e1 := C26.slice_vs_map lib ops t hr tags hs
  have e2 := C26.slice_vs_map lib (ops ++ [op]) t' hr' tags hs
  have f1 : t.matchByTags lib tags = (do
      let r ← t.matchByTagsMap lib (tagsMap tags)
      .ok (t.fin.toList ++ r.1, r.2)) := by rw [e1]; cases t.fin <;> rfl
  have f2 : t'.matchByTags lib tags = (do
      let r ← t'.matchByTagsMap lib (tagsMap tags)
      .ok (t'.fin.toList ++ r.1, r.2)) := by rw [e2]; cases t'.fin <;> rfl
  rw [f2] at hm
  obtain ⟨s', hms, hs'⟩ := R.bind_eq_ok.1 hm
  cases hs'
  obtain ⟨s, g1, g2⟩ := tags_add lib ops t hr op t' res h (tagsMap tags) s' hms
  rw [f1, g1, R.bind_ok]
  refine ⟨_, rfl, ?_⟩
  rcases tag_apply_cases h with ⟨rfl, ha⟩ | ⟨ts, i, ha, hn, h3, h4, h5⟩ | ⟨ts, ha, h2, h3, h4⟩
  · rcases g2 with rfl | ⟨_, _, _, _, g2, _⟩
    · exact .inl rfl
    · rw [ha] at g2; cases g2
  · rcases h5 with ⟨rfl, hroot, hf⟩ | ⟨hne, hf, hroot⟩
    · right; right
      refine ⟨i, ha, ?_, ?_⟩
      · have hfn : t.fin = none := by
          apply Classical.byContradiction
          intro hc
          have := hk.fin hc
          rw [hn] at this
          cases this
        rcases g2 with rfl | ⟨_, _, _, _, g2, g3, _⟩
        · rw [hf, hfn]; rfl
        · rw [ha] at g2; cases g2; exact absurd rfl g3
      · rcases g2 with rfl | ⟨_, _, _, _, g2, g3, _⟩
        · rfl
        · rw [ha] at g2; cases g2; exact absurd rfl g3
    · rcases g2 with rfl | ⟨us, j, l₁, l₂, g2, g3, g4, g5, g6⟩
      · left; rw [hf]
      · right; left
        refine ⟨us, j, t.fin.toList ++ l₁, l₂, g2, g3, ?_, ?_, g6⟩
        · rw [g4, List.append_assoc]
        · rw [hf, g5, List.append_assoc]
  · rcases g2 with rfl | ⟨_, _, _, _, g2, _⟩
    · left; rw [h2]
    · rw [ha] at g2; cases g2

/-- The new query is reported between old ones; a query with an empty key does no harm to the others. -/
example :
    (runTOps exLib {} [.add (b!"seriesByTag('a=1','c=2')") 1, .add (b!"seriesByTag('c=2')") 3] >>= fun t =>
      t.matchByTagsMap exLib [(b!"a", b!"1"), (b!"b", b!"x"), (b!"c", b!"2")]) =
      .ok ([(b!"seriesByTag('a=1','c=2')", 1), (b!"seriesByTag('c=2')", 3)], 2) ∧
    (runTOps exLib {} [.add (b!"seriesByTag('a=1','c=2')") 1, .add (b!"seriesByTag('c=2')") 3,
        .add (b!"seriesByTag('b=x')") 2, .add (b!"seriesByTag('=1')") 5] >>= fun t =>
      t.matchByTagsMap exLib [(b!"a", b!"1"), (b!"b", b!"x"), (b!"c", b!"2")]) =
      .ok ([(b!"seriesByTag('a=1','c=2')", 1), (b!"seriesByTag('b=x')", 2), (b!"seriesByTag('c=2')", 3)], 3) := by
  decide +kernel

end C63

end GoMatcher
