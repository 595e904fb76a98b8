import Verif.Proofs.TreeInsert
import Verif.Proofs.GlobExact

/-! # The search at the root of the batch tree -/

namespace GoMatcher

/-- The steps after the suffix. -/
def Glob.body (g : Glob) : List (Item × Bool) :=
  (if g.pref ≠ [] then [(.str g.pref, false)] else []) ++ g.items.map (fun i => (i, false))

theorem steps_eq (g : Glob) :
    g.steps = (if g.suff ≠ [] then [(.str g.suff, true)] else []) ++ g.body := rfl

theorem its_map_false (l : List Item) : its (l.map fun i => (i, false)) = l := by
  induction l with
  | nil => rfl
  | cons x l ih => rw [List.map_cons, its_cons, ih]

theorem its_append (p q : List (Item × Bool)) : its (p ++ q) = its p ++ its q := by
  simp [its]

theorem its_body (g : Glob) :
    its g.body = (if g.pref ≠ [] then [.str g.pref] else []) ++ g.items := by
  unfold Glob.body
  rw [its_append, its_map_false]
  split <;> rfl

theorem body_rev (g : Glob) : ∀ x ∈ g.body, x.2 = false := by
  intro x hx
  unfold Glob.body at hx
  rcases List.mem_append.1 hx with hx | hx
  · split at hx
    · rw [List.mem_singleton.1 hx]
    · cases hx
  · obtain ⟨i, _, rfl⟩ := List.mem_map.1 hx
    rfl

section Globs
variable {ts us : List Tok} {g x y : Glob}

theorem GlobOk.loc_steps (h : GlobOk ts g) : ∀ z ∈ its g.steps, Loc z := by
  intro z hz
  rw [steps_eq, its_append, its_body] at hz
  rcases List.mem_append.1 hz with hz | hz
  · split at hz
    · simp [its] at hz
      rw [hz]; trivial
    · simp at hz
  rcases List.mem_append.1 hz with hz | hz
  · split at hz
    · rw [List.mem_singleton.1 hz]; trivial
    · cases hz
  · exact h.loc z hz

theorem GlobOk.body_pOk (h : GlobOk ts g) {ex : Bool} (hs : Shape ex .plain ts) :
    POk ex false (its g.body) := by
  have hflat : ∀ z ∈ its g.body, FlatItem z := by
    intro z hz
    refine (h.loc_steps z ?_).flat
    rw [steps_eq, its_append]
    exact List.mem_append_right _ hz
  refine ⟨?_, hflat⟩
  rw [its_body]
  have hg := (h.fine ex hs).1
  by_cases hp : g.pref = []
  · rw [if_neg (by simp [hp])]
    exact hg
  · rw [if_pos hp]
    by_cases hi : g.items = []
    · exact absurd (h.bare hi).1 hp
    · obtain ⟨P, S, p1, _⟩ := h.wild hi
      rw [p1]
      exact .lit (findItem_str P) hg

theorem GlobOk.body_pSafe (h : GlobOk ts g) {ex : Bool} (hs : Shape ex .plain ts)
    (he : StarsEnd ts) : PSafe false (its g.body) := by
  rw [its_body]
  have hg := (h.fine ex hs).2
  by_cases hp : g.pref = []
  · rw [if_neg (by simp [hp])]
    exact ⟨hg, h.term he⟩
  · rw [if_pos hp]
    refine ⟨.lit trivial hg, ?_⟩
    intro z hz
    rcases List.mem_cons.1 hz with rfl | hz
    · trivial
    · exact h.term he z hz

theorem GlobOk.body_sem (h : GlobOk ts g) (hi : g.items ≠ []) : ∃ S, g.suff = utf8 S ∧
    ∀ cs, Fits ts cs ↔ ∃ u, cs = u ++ S ∧ SeqSem (its g.body) u := by
  obtain ⟨P, S, p1, p2, p3, p4, p5⟩ := h.wild hi
  refine ⟨S, p2, fun cs => ?_⟩
  rw [p5, its_body]
  by_cases hp : g.pref = []
  · rw [if_neg (by simp [hp])]
    have : P = [] := by rw [p1, utf8_eq_nil] at hp; exact hp
    subst this
    simp
  · rw [if_pos hp, p1]
    constructor
    · rintro ⟨m, rfl, hm⟩
      exact ⟨P ++ m, rfl, P, m, rfl, rfl, hm⟩
    · rintro ⟨u, rfl, P', m, rfl, hP, hm⟩
      have : P' = P := utf8_inj hP
      subst this
      exact ⟨m, rfl, hm⟩

theorem GlobOk.steps_nil (h : GlobOk ts g) : g.steps = [] ↔ g.items = [] := by
  constructor
  · intro e
    unfold Glob.steps at e
    have := (List.append_eq_nil_iff.1 (List.append_eq_nil_iff.1 e).2).2
    simpa using this
  · intro hi
    obtain ⟨h1, h2⟩ := h.bare hi
    simp [Glob.steps, hi, h1, h2]

/-- A glob whose steps begin another glob's steps. -/
theorem steps_prefix (hx : GlobOk ts x) (hy : GlobOk us y) (hi : x.items ≠ [])
    {p q : List (Item × Bool)} (hp : SameP x.steps p) (hq : y.steps = p ++ q) :
    y.items ≠ [] ∧ x.suff = y.suff ∧ x.pref = y.pref ∧
      ∃ r q', SameL x.items r ∧ y.items = r ++ q' ∧ q = q'.map (fun i => (i, false)) := by
  have hyi : y.items ≠ [] := by
    intro e
    rw [(hy.steps_nil).2 e] at hq
    have := (List.append_eq_nil_iff.1 hq.symm).1
    subst this
    have := hp.symm.nil_left
    exact hi (hx.steps_nil.1 this)
  obtain ⟨z, zs, ez, hz⟩ := (hx.wild hi).choose_spec.choose_spec.2.2.2.1
  obtain ⟨w, ws, ew, hw⟩ := (hy.wild hyi).choose_spec.choose_spec.2.2.2.1
  have nl : ∀ {s : Str} {i : Item}, NonLit i → ¬ Same (.str s) i := by
    intro s i hn h
    cases h
    simp [NonLit, litBytes] at hn
  have nl' : ∀ {s : Str} {i : Item}, NonLit i → ¬ Same i (.str s) := fun hn h => nl hn h.symm
  -- items
  have items : ∀ p q, SameP (x.items.map fun i => (i, false)) p →
      (y.items.map fun i => (i, false)) = p ++ q →
      ∃ r q', SameL x.items r ∧ y.items = r ++ q' ∧ q = q'.map (fun i => (i, false)) := by
    intro p q h1 h2
    obtain ⟨r, q', e1, e2, e3⟩ := List.map_eq_append_iff.1 h2
    refine ⟨r, q', ?_, e1, e3.symm⟩
    have := h1.its
    rw [its_map_false, ← e2, its_map_false] at this
    exact this
  -- prefix
  have body : ∀ p q, SameP x.body p → y.body = p ++ q → x.pref = y.pref ∧
      ∃ r q', SameL x.items r ∧ y.items = r ++ q' ∧ q = q'.map (fun i => (i, false)) := by
    intro p q h1 h2
    unfold Glob.body at h1 h2
    by_cases hxp : x.pref = []
    · rw [if_neg (by simp [hxp])] at h1
      by_cases hyp : y.pref = []
      · rw [if_neg (by simp [hyp])] at h2
        exact ⟨by rw [hxp, hyp], items p q h1 h2⟩
      · rw [if_pos hyp] at h2
        rw [ez] at h1
        obtain ⟨a, as, rfl, h3, _⟩ := SameP.cons_left h1
        injection h2 with h2 _
        rw [← h2] at h3
        exact absurd h3 (nl' hz)
    · rw [if_pos hxp] at h1
      obtain ⟨a, as, rfl, h3, h4, h5⟩ := SameP.cons_left h1
      by_cases hyp : y.pref = []
      · rw [if_neg (by simp [hyp]), ew] at h2
        injection h2 with h2 _
        rw [← h2] at h3
        exact absurd h3 (nl hw)
      · rw [if_pos hyp] at h2
        injection h2 with h2 h6
        rw [← h2] at h3
        refine ⟨?_, items as q h5 h6⟩
        generalize hA : Item.str x.pref = A at h3
        generalize hB : Item.str y.pref = B at h3
        cases h3 with
        | refl => rw [← hB] at hA; injection hA
        | list => cases hA
        | group => cases hA
  refine ⟨hyi, ?_⟩
  rw [steps_eq] at hp hq
  by_cases hxs : x.suff = []
  · rw [if_neg (by simp [hxs]), List.nil_append] at hp
    by_cases hys : y.suff = []
    · rw [if_neg (by simp [hys]), List.nil_append] at hq
      exact ⟨by rw [hxs, hys], body p q hp hq⟩
    · exfalso
      rw [if_pos hys] at hq
      cases hb : x.body with
      | nil =>
        unfold Glob.body at hb
        have := (List.append_eq_nil_iff.1 hb).2
        simp at this
        exact hi this
      | cons b bs =>
        rw [hb] at hp
        have := body_rev x b (by rw [hb]; simp)
        obtain ⟨a, as, rfl, h3, h4, h5⟩ := SameP.cons_left hp
        injection hq with hq _
        rw [← hq, this] at h4
        cases h4
  · rw [if_pos hxs] at hp
    obtain ⟨a, as, rfl, h3, h4, h5⟩ := SameP.cons_left hp
    by_cases hys : y.suff = []
    · exfalso
      rw [if_neg (by simp [hys]), List.nil_append] at hq
      have := body_rev y a (by rw [hq]; simp)
      rw [this] at h4
      cases h4
    · rw [if_pos hys] at hq
      injection hq with hq h6
      rw [← hq] at h3
      refine ⟨?_, body as q h5 h6⟩
      generalize hA : Item.str x.suff = A at h3
      generalize hB : Item.str y.suff = B at h3
      cases h3 with
      | refl => rw [← hB] at hA; injection hA
      | list => cases hA
      | group => cases hA

/-- Globs with the same steps have the same normal form. -/
theorem steps_same (hx : GlobOk ts x) (hy : GlobOk us y) (hi : x.items ≠ [])
    (h : SameP x.steps y.steps) : y.items ≠ [] ∧ x.node = y.node := by
  obtain ⟨h1, h2, h3, r, q', h4, h5, h6⟩ := steps_prefix hx hy hi h (List.append_nil _).symm
  have : q' = [] := by simpa using h6.symm
  subst this
  rw [List.append_nil] at h5
  refine ⟨h1, ?_⟩
  rw [(hx.wild hi).choose_spec.choose_spec.2.2.1, (hy.wild h1).choose_spec.choose_spec.2.2.1,
    h2, h3, h4.write, h5]

end Globs

/-! ## The root -/

theorem str_path {S : Str} {c : Item} (h : Same (.str S) c) : c = .str S := by
  generalize hA : Item.str S = A at h
  cases h with
  | refl => rfl
  | list => cases hA
  | group => cases hA

/-- Where a path of a child comes from. -/
theorem child_path {L : List (Glob × Int)} {t : Tree} (hT : TreeOk L t) {c : Tree}
    (hc : c ∈ t.childs) {p : List (Item × Bool)} {e : Str × Int} (h : c.Below p e) :
    ∃ x ∈ L, e = (x.1.node, x.2) ∧
      ((c.rev = false ∧ x.1.suff = [] ∧ SameP x.1.body ((c.item, c.rev) :: p)) ∨
       (c.rev = true ∧ x.1.suff ≠ [] ∧ c.item = .str x.1.suff ∧ SameP x.1.body p)) := by
  obtain ⟨x, hx, h1, h2⟩ := hT.sound _ _ (.child hc h)
  refine ⟨x, hx, h2, ?_⟩
  rw [steps_eq] at h1
  by_cases hs : x.1.suff = []
  · rw [if_neg (by simp [hs]), List.nil_append] at h1
    refine Or.inl ⟨?_, hs, h1⟩
    obtain ⟨a, as, e, h3, h4, h5⟩ := SameP.cons_left h1.symm
    have := body_rev x.1 a (by rw [e]; simp)
    rw [this] at h4
    exact h4
  · rw [if_pos hs] at h1
    obtain ⟨a, as, e, h3, h4, h5⟩ := SameP.cons_left h1
    injection e with e1 e2
    subst e1 e2
    exact Or.inr ⟨h4.symm, hs, str_path h3, h5⟩

theorem matchRev_str (M : TMatcher) (S : Str) (t : Tree) (hS : t.item = .str S) (s : Str) :
    t.matchRev M s = if hasSuffix s S then t.next M (s.take (s.length - S.length)) else noEv := by
  unfold Tree.matchRev
  rw [hS]
  by_cases h : hasSuffix s S = true
  · have hlen : S.length ≤ s.length := by
      obtain ⟨a, e⟩ : S <:+ s := by simpa [hasSuffix] using h
      rw [← e]; simp
    rw [if_neg (by simp only [Item.minLen]; omega), if_pos h]
    simp only [Item.matchLast, if_pos h, R.bind_ok]
    unfold sliceTo
    rw [if_pos (by omega)]
    rfl
  · rw [if_neg h]
    split
    · rfl
    · simp only [Item.matchLast, if_neg h, R.bind_ok]

/-- What is known about the globs of a tree. -/
def Written (ex : Bool) (L : List (Glob × Int)) : Prop :=
  ∀ x ∈ L, ∃ ts, GlobOk ts x.1 ∧ Shape ex .plain ts

theorem Written.loc {ex : Bool} {L : List (Glob × Int)} (h : Written ex L) :
    ∀ x ∈ L, ∀ y ∈ its x.1.steps, Loc y := by
  intro x hx
  obtain ⟨ts, h1, _⟩ := h x hx
  exact h1.loc_steps

theorem path_loc {L : List (Glob × Int)} {t : Tree} (hT : TreeOk L t) {c : Tree}
    (hc : c ∈ t.childs) {p : List (Item × Bool)} {e : Str × Int} (h : c.Below p e) :
    ∀ y ∈ c.item :: its p, Loc y := by
  have := hT.loc.path (.child hc h)
  exact this

theorem POk.same {ex a : Bool} {xs ys : List Item} (h : POk ex a xs) (hs : SameL xs ys)
    (hl : ∀ y ∈ ys, Loc y) : POk ex a ys :=
  ⟨h.1.same hs hl, fun y hy => (hl y hy).flat⟩

theorem PSafe.same {a : Bool} {xs ys : List Item} (h : PSafe a xs) (hs : SameL xs ys) :
    PSafe a ys :=
  ⟨h.1.same hs, hs.forall (fun _ _ h => h.flatTerm) h.2⟩

/-- No glob with a star is continued by another glob: the second one's normal form is not the
first one's with text inserted in front of the common literal tail. -/
def Hides (x y : Glob) : Prop :=
  x.suff = y.suff ∧ ∃ A r, r ≠ [] ∧ x.node = A ++ x.suff ∧ y.node = A ++ r ++ x.suff

theorem Same.noClass {x y : Item} (h : Same x y) (hf : NoClass x) : NoClass y := by
  cases h with
  | refl => exact hf
  | list => exact .flat (fun _ e => by cases e) (fun _ _ _ e => by cases e)
  | group h _ =>
    cases hf with
    | flat _ h2 => exact absurd rfl (h2 _ _ _)
    | group hg =>
      refine .group fun v hv => ?_
      obtain ⟨w, hw, e⟩ := mem_of_values h hv
      rw [← e]
      exact hg w hw

theorem CleanSeq.same {xs ys : List Item} {cs : List Char} (h : CleanSeq xs cs) (hs : SameL xs ys) :
    CleanSeq ys cs := h.imp id (hs.forall fun _ _ h => h.noClass)

theorem CleanSeq.body {g : Glob} {cs : List Char} (h : CleanSeq g.items cs) :
    CleanSeq (its g.body) cs := by
  refine h.imp id fun h => ?_
  rw [its_body]
  intro x hx
  rcases List.mem_append.1 hx with hx | hx
  · split at hx
    · rw [List.mem_singleton.1 hx]
      exact .flat (fun _ e => by cases e) (fun _ _ _ e => by cases e)
    · cases hx
  · exact h x hx

theorem root_spec {ex : Bool} {L : List (Glob × Int)} {t : Tree} (hT : TreeOk L t)
    (hL : Written ex L) (fuel : Nat) {cs : List Char}
    (hok : IsOk (t.matches fuel (utf8 cs))) :
    (∀ e, Sto (t.matches fuel (utf8 cs)) e →
      ∃ x ∈ L, e = (x.1.node, x.2) ∧ x.1.items ≠ [] ∧ ∀ ts, GlobOk ts x.1 → Fits ts cs) ∧
    (ex = true →
      (∀ x ∈ L, ∀ y ∈ L, x.1.items ≠ [] → Hides x.1 y.1 → ∀ z ∈ x.1.items, StarFree z) →
      ∀ L1 x L2, L = L1 ++ x :: L2 → (∀ y ∈ L2, y.1.node ≠ x.1.node) → x.1.items ≠ [] →
        CleanSeq x.1.items cs → (∃ ts, GlobOk ts x.1 ∧ Fits ts cs) → Sto (t.matches fuel (utf8 cs)) (x.1.node, x.2)) := by
  unfold Tree.matches at hok ⊢
  have hokc := isOk_forChilds.1 hok
  have spec := (tree_spec ex fuel).1
  -- hiding between paths
  have hide : (∀ x ∈ L, ∀ y ∈ L, x.1.items ≠ [] → Hides x.1 y.1 → ∀ z ∈ x.1.items, StarFree z) →
      ∀ c ∈ t.childs, ∀ p q e e', c.Below p e → c.Below (p ++ q) e' → q ≠ [] →
      (∀ z ∈ c.item :: its p, StarFree z) := by
    intro hh c hc p q e e' h1 h2 hq
    obtain ⟨x, hx, h3, _⟩ := hT.sound _ _ (.child hc h1)
    obtain ⟨y, hy, h4, _⟩ := hT.sound _ _ (.child hc h2)
    obtain ⟨ts, gx, _⟩ := hL x hx
    obtain ⟨us, gy, _⟩ := hL y hy
    rw [← List.cons_append] at h4
    obtain ⟨a, b, e1, h5, h6⟩ := SameP.append_left h4.symm
    have hxi : x.1.items ≠ [] := by
      intro hi
      rw [gx.steps_nil.2 hi] at h3
      cases h3.nil_left
    obtain ⟨k1, k2, k3, r, q', k4, k5, k6⟩ := steps_prefix gx gy hxi (h3.trans h5) e1
    have hHides : Hides x.1 y.1 := by
      refine ⟨k2, x.1.pref ++ Item.writeItems x.1.items, Item.writeItems q', ?_, ?_, ?_⟩
      · have hq' : q' ≠ [] := by
          rintro rfl
          rw [k6] at h6
          exact hq h6.symm.nil_left
        obtain ⟨w, ws, rfl⟩ := List.exists_cons_of_ne_nil hq'
        have := (gy.write w (by rw [k5]; simp)).write_ne_nil
        rw [Item.writeItems]
        simp [this]
      · exact (gx.wild hxi).choose_spec.choose_spec.2.2.1
      · rw [(gy.wild k1).choose_spec.choose_spec.2.2.1, k5, ← k2, ← k3]
        have : ∀ a b : List Item, Item.writeItems (a ++ b) = Item.writeItems a ++ Item.writeItems b := by
          intro a b
          induction a with
          | nil => rfl
          | cons z a ih => simp [Item.writeItems, ih]
        rw [this, k4.write]
        simp
    have hsf := hh x hx y hy hxi hHides
    refine h3.its.forall (fun _ _ h => h.starFree) ?_
    intro z hz
    rw [steps_eq, its_append, its_body] at hz
    rcases List.mem_append.1 hz with hz | hz
    · split at hz
      · simp [its] at hz
        rw [hz]; trivial
      · simp at hz
    rcases List.mem_append.1 hz with hz | hz
    · split at hz
      · rw [List.mem_singleton.1 hz]; trivial
      · cases hz
    · exact hsf z hz
  -- a child that goes forward
  have fwd : ∀ c ∈ t.childs, c.rev = false →
      ResI ex c [c.item] cs (Tree.matchT fuel c (utf8 cs)) := by
    intro c hc hr
    have hok1 := hokc c hc
    rw [hr] at hok1
    refine spec c cs (hT.live c hc) (fun p e h => ?_) hok1
    obtain ⟨x, hx, _, ⟨_, _, h1⟩ | ⟨h1, _⟩⟩ := child_path hT hc h
    · obtain ⟨ts, gx, gs⟩ := hL x hx
      exact (gx.body_pOk gs).same h1.its (path_loc hT hc h)
    · rw [hr] at h1; cases h1
  -- a child for a suffix
  have bwd : ∀ c ∈ t.childs, c.rev = true → ∀ S u, c.item = .str (utf8 S) → cs = u ++ S →
      c.matchRev (Tree.matchT fuel) (utf8 cs) = c.next (Tree.matchT fuel) (utf8 u) ∧
      ResI ex c [] u (c.next (Tree.matchT fuel) (utf8 u)) := by
    intro c hc hr S u hS hu
    have hsuf : hasSuffix (utf8 cs) (utf8 S) = true := (hasSuffix_utf8_iff _ _).2 ⟨u, hu⟩
    have htake : (utf8 cs).take ((utf8 cs).length - (utf8 S).length) = utf8 u := by
      rw [hu, utf8_append]
      simp
    have e := matchRev_str (Tree.matchT fuel) (utf8 S) c hS (utf8 cs)
    rw [if_pos hsuf, htake] at e
    refine ⟨e, ?_⟩
    have hok1 := hokc c hc
    rw [hr, if_pos rfl, e] at hok1
    refine res_next spec (hT.live c hc) (fun p e h => ?_) hok1
    obtain ⟨x, hx, _, ⟨h1, _⟩ | ⟨_, _, _, h1⟩⟩ := child_path hT hc h
    · rw [hr] at h1; cases h1
    · obtain ⟨ts, gx, gs⟩ := hL x hx
      exact (gx.body_pOk gs).same h1.its (fun y hy => path_loc hT hc h y (by simp [hy]))
  constructor
  · intro e he
    obtain ⟨c, hc, h⟩ := (sto_forChilds.1 he).2
    cases hr : c.rev with
    | false =>
      rw [hr] at h
      obtain ⟨p, hp, hsem⟩ := (fwd c hc hr).1 e h
      obtain ⟨x, hx, he, ⟨_, hs, h1⟩ | ⟨h1, _⟩⟩ := child_path hT hc hp
      · have hxi : x.1.items ≠ [] := by
          intro hi
          obtain ⟨ts, gx, gs⟩ := hL x hx
          have : x.1.body = [] := by simp [Glob.body, hi, (gx.bare hi).1]
          rw [this] at h1
          cases h1.nil_left
        refine ⟨x, hx, he, hxi, fun ts gx => ?_⟩
        obtain ⟨S, h2, h3⟩ := gx.body_sem hxi
        rw [h3]
        have : S = [] := by rw [hs] at h2; exact (utf8_eq_nil S).1 h2.symm
        subst this
        exact ⟨cs, by simp, h1.its.symm.sem cs hsem⟩
      · rw [hr] at h1; cases h1
    | true =>
      rw [hr, if_pos rfl] at h
      obtain ⟨p0, e0, hp0⟩ := (hT.live c hc).path
      obtain ⟨x0, hx0, _, ⟨h1, _⟩ | ⟨_, hs0, hi0, _⟩⟩ := child_path hT hc hp0
      · rw [hr] at h1; cases h1
      obtain ⟨ts0, gx0, _⟩ := hL x0 hx0
      have hx0i : x0.1.items ≠ [] := fun hi => hs0 (gx0.bare hi).2
      obtain ⟨S, hS, _⟩ := gx0.body_sem hx0i
      rw [hS] at hi0
      rw [matchRev_str _ (utf8 S) c hi0] at h
      by_cases hsuf : hasSuffix (utf8 cs) (utf8 S) = true
      · obtain ⟨u, hu⟩ := (hasSuffix_utf8_iff _ _).1 hsuf
        obtain ⟨e1, e2⟩ := bwd c hc hr S u hi0 hu
        rw [← matchRev_str _ (utf8 S) c hi0, e1] at h
        obtain ⟨p, hp, hsem⟩ := e2.1 e h
        obtain ⟨x, hx, he, ⟨h1, _⟩ | ⟨_, hs, hi1, h1⟩⟩ := child_path hT hc hp
        · rw [hr] at h1; cases h1
        have hxi : x.1.items ≠ [] := by
          intro hi
          obtain ⟨ts, gx, gs⟩ := hL x hx
          exact hs (gx.bare hi).2
        refine ⟨x, hx, he, hxi, fun ts gx => ?_⟩
        obtain ⟨S', h2, h3⟩ := gx.body_sem hxi
        rw [h3]
        have : S' = S := by
          rw [hi0] at hi1
          injection hi1 with hi1
          exact utf8_inj (by rw [← h2, hi1])
        subst this
        exact ⟨u, hu, h1.its.symm.sem u hsem⟩
      · rw [if_neg hsuf] at h
        exact absurd h not_sto_noEv
  · intro hex hh L1 x L2 eL hlater hxi hcl ⟨ts, gx, hfit⟩
    have hx : x ∈ L := by rw [eL]; simp
    obtain ⟨q, hq, hb⟩ := hT.found L1 x L2 eL (by
      intro y hy hs
      obtain ⟨us, gy, _⟩ := hL y (by rw [eL]; simp [hy])
      exact hlater y hy (steps_same gx gy hxi hs.symm).2.symm)
    obtain ⟨S, h2, h3⟩ := gx.body_sem hxi
    obtain ⟨u, hu, hsem⟩ := (h3 cs).1 hfit
    refine sto_forChilds.2 ⟨hokc, ?_⟩
    cases hb with
    | here _ =>
      exact absurd (gx.steps_nil.1 hq.symm.nil_left) hxi
    | @child _ c p _ hc hp =>
      refine ⟨c, hc, ?_⟩
      have hnh : ∀ p q e e', c.Below p e → c.Below (p ++ q) e' → q ≠ [] →
          ∀ z ∈ c.item :: its p, StarFree z := hide hh c hc
      rw [steps_eq] at hq
      by_cases hs : x.1.suff = []
      · rw [if_neg (by simp [hs]), List.nil_append] at hq
        have hr : c.rev = false := by
          obtain ⟨a, as, e, _, h4, _⟩ := SameP.cons_left hq.symm
          have := body_rev x.1 a (by rw [e]; simp)
          rw [this] at h4
          exact h4
        rw [hr]
        refine (fwd c hc hr).2 hex ?_ p _ hp (hcl.body.same hq.its) ?_
        · intro p q e e' h1 h2 h3
          have := hnh p q e e' h1 h2 h3
          exact ⟨rfl, fun z hz => this z (by simp at hz; simp [hz]), fun z hz => this z (by simp [hz])⟩
        · have : S = [] := by rw [hs] at h2; exact (utf8_eq_nil S).1 h2.symm
          subst this
          rw [List.append_nil] at hu
          subst hu
          exact hq.its.sem _ hsem
      · rw [if_pos hs] at hq
        obtain ⟨a, as, e, h3', h4, h5⟩ := SameP.cons_left hq
        injection e with e1 e2
        subst e1 e2
        have hr : c.rev = true := h4.symm
        have hitem : c.item = .str (utf8 S) := by
          have := str_path h3'
          rw [h2] at this
          exact this
        obtain ⟨k1, k2⟩ := bwd c hc hr S u hitem hu
        rw [hr, if_pos rfl, k1]
        refine k2.2 hex ?_ p _ hp ((hcl.body.same h5.its).imp
          (fun h d hd => h d (by rw [hu]; simp [hd])) id) ?_
        · intro p q e e' h1 h2 h3
          have := hnh p q e e' h1 h2 h3
          exact ⟨rfl, fun z hz => by simp at hz, fun z hz => this z (by simp [hz])⟩
        · exact h5.its.sem _ hsem

/-- Enough fuel for the root, in the length of the string. -/
theorem root_safe {L : List (Glob × Int)} {t : Tree} (hT : TreeOk L t)
    (hL : ∀ x ∈ L, ∃ ts, GlobOk ts x.1 ∧ Shape false .plain ts ∧ StarsEnd ts) :
    ∃ N, ∀ s : Str, ∀ fuel, N + s.length ≤ fuel → IsOk (t.matches fuel s) := by
  obtain ⟨N, hN⟩ : ∃ N, ∀ c ∈ t.childs, c.item.size + sizeOf c.childs < N := by
    generalize t.childs = cs
    induction cs with
    | nil => exact ⟨0, by simp⟩
    | cons c cs ih =>
      obtain ⟨N, h⟩ := ih
      refine ⟨N + (c.item.size + sizeOf c.childs) + 1, ?_⟩
      intro d hd
      rcases List.mem_cons.1 hd with rfl | hd
      · omega
      · have := h d hd
        omega
  refine ⟨N, fun s fuel hf => ?_⟩
  unfold Tree.matches
  refine isOk_forChilds.2 (fun c hc => ?_)
  have hn := hN c hc
  cases hr : c.rev with
  | false =>
    refine (tree_safe fuel).1 c s (hT.live c hc) (fun p e h => ?_) (by omega)
    obtain ⟨x, hx, _, ⟨_, _, h1⟩ | ⟨h1, _⟩⟩ := child_path hT hc h
    · obtain ⟨ts, gx, gs, ge⟩ := hL x hx
      exact (gx.body_pSafe gs ge).same h1.its
    · rw [hr] at h1; cases h1
  | true =>
    rw [if_pos rfl]
    obtain ⟨p0, e0, hp0⟩ := (hT.live c hc).path
    obtain ⟨x0, hx0, _, ⟨h1, _⟩ | ⟨_, hs0, hi0, _⟩⟩ := child_path hT hc hp0
    · rw [hr] at h1; cases h1
    rw [matchRev_str _ _ c hi0]
    split
    · refine isOk_next (tree_safe fuel).1 (hT.live c hc) (fun p e h => ?_) ?_
      · obtain ⟨x, hx, _, ⟨h1, _⟩ | ⟨_, _, _, h1⟩⟩ := child_path hT hc h
        · rw [hr] at h1; cases h1
        · obtain ⟨ts, gx, gs, ge⟩ := hL x hx
          exact (gx.body_pSafe gs ge).same h1.its
      · simp only [List.length_take]
        omega
    · exact isOk_noEv

end GoMatcher
