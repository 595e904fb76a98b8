import Verif.Props.C25_Exact

/-! # C59: the order of `Add` calls on a tree of tag queries -/

namespace GoMatcher

namespace C59

/-- The calls `Add(q, i)` one after another; `none` if one of them reports an error or panics. -/
def addAll (lib : GoLib) : GTagsTree → List (Str × Int) → Option GTagsTree
  | t, [] => some t
  | t, (q, i) :: l =>
    match t.add lib q i with
    | .ok (t', r) => if r.err = none then addAll lib t' l else none
    | _ => none

/-! ## Which lists of calls go through -/

/-- An accepted call: text, conditions, index. -/
structure Adding where
  text : Str
  terms : List TTerm
  index : Int

/-- Two additions that do not get in each other's way. -/
structure Apart (x y : Adding) : Prop where
  index : x.index ≠ y.index
  text : x.text ≠ y.text
  textNode : x.text ≠ termsText y.terms
  nodeText : termsText x.terms ≠ y.text
  node : termsText x.terms ≠ termsText y.terms

theorem Apart.symm {x y : Adding} (h : Apart x y) : Apart y x :=
  ⟨h.index.symm, h.text.symm, h.nodeText.symm, h.textNode.symm, h.node.symm⟩

/-- The call on its own. -/
def Fine (lib : GoLib) (t : GTagsTree) (x : Str × Int) : Prop :=
  x.1 = [] ∨ (0 ≤ x.2 ∧ t.queries.get x.1 = none ∧ t.queryIndex.get x.2 = none ∧
    ∃ ts, parseSeriesByTag lib x.1 = .ok (.ok ts) ∧ t.queries.get (termsText ts) = none)

/-- What the call adds. -/
def added (lib : GoLib) (x : Str × Int) : Option Adding :=
  if x.1 = [] then none
  else match parseSeriesByTag lib x.1 with
    | .ok (.ok ts) => some ⟨x.1, ts, x.2⟩
    | _ => none

/-- Two calls. -/
def Beside (lib : GoLib) (x y : Str × Int) : Prop := ∀ a ∈ added lib x, ∀ b ∈ added lib y, Apart a b

theorem Beside.symm {lib : GoLib} {x y : Str × Int} (h : Beside lib x y) : Beside lib y x :=
  fun a ha b hb => (h b hb a ha).symm

theorem add_empty (lib : GoLib) (t : GTagsTree) (i : Int) : t.add lib [] i = .ok (t, {}) := by
  unfold GTagsTree.add
  rw [if_pos rfl]

theorem fine_of_add {lib : GoLib} {t t' : GTagsTree} {q : Str} {i : Int} {r : TAddRes}
    (h : t.add lib q i = .ok (t', r)) (hr : r.err = none) : Fine lib t (q, i) := by
  by_cases h0 : q = []
  · exact .inl h0
  · exact .inr ((C28.add_error lib t t' q i h0 r h).2.2.2.2.1 hr)

/-- The tables after an accepted call. -/
structure Put (t t' : GTagsTree) (a : Adding) : Prop where
  queries : ∀ k, t'.queries.get k = if k = a.text ∨ k = termsText a.terms then some a.index else t.queries.get k
  index : ∀ k, t'.queryIndex.get k = if k = a.index then some (termsText a.terms) else t.queryIndex.get k

theorem put_of_add {lib : GoLib} {t t' : GTagsTree} {q : Str} {i : Int} {r : TAddRes} (h0 : q ≠ [])
    (h : t.add lib q i = .ok (t', r)) (hr : r.err = none) :
    ∃ a, added lib (q, i) = some a ∧ Put t t' a := by
  obtain ⟨ts, h1, _, _, h2, h3, h4, h5, h6⟩ := C28.add_accepted lib t t' q i h0 r h hr
  refine ⟨⟨q, ts, i⟩, by simp [added, h0, h1], ?_, ?_⟩
  · intro k
    dsimp only
    by_cases hk : k = q ∨ k = termsText ts
    · rw [if_pos hk]
      rcases hk with rfl | rfl
      · exact h2
      · exact h3
    · rw [if_neg hk]
      exact h5 k (fun e => hk (.inl e)) (fun e => hk (.inr e))
  · intro k
    dsimp only
    by_cases hk : k = i
    · rw [if_pos hk, hk]; exact h4
    · rw [if_neg hk]; exact h6 k hk

theorem add_fine {lib : GoLib} {t : GTagsTree} {q : Str} {i : Int} (h : Fine lib t (q, i)) (h0 : q ≠ [])
    (hk : HasKeys lib q) : ∃ t' r, t.add lib q i = .ok (t', r) ∧ r.err = none := by
  obtain ⟨t', r, h1⟩ := C29.add_total_partial lib t q i hk
  refine ⟨t', r, h1, ?_⟩
  rcases h with h | h
  · exact absurd h h0
  · exact (C28.add_error lib t t' q i h0 r h1).2.2.2.2.2 h

theorem added_of_fine {lib : GoLib} {t : GTagsTree} {x : Str × Int} (h : Fine lib t x) (h0 : x.1 ≠ []) :
    ∃ ts, parseSeriesByTag lib x.1 = .ok (.ok ts) ∧ added lib x = some ⟨x.1, ts, x.2⟩ := by
  rcases h with h | ⟨_, _, _, g, h4, _⟩
  · exact absurd h h0
  · exact ⟨g, h4, by simp [added, h0, h4]⟩

theorem fine_put {lib : GoLib} {t t' : GTagsTree} {x y : Str × Int} {a : Adding}
    (ha : added lib x = some a) (hp : Put t t' a) : Fine lib t' y ↔ Fine lib t y ∧ Beside lib x y := by
  by_cases hy0 : y.1 = []
  · constructor
    · intro _
      refine ⟨.inl hy0, ?_⟩
      intro a _ b hb
      simp [added, hy0] at hb
    · intro _; exact .inl hy0
  have look : ∀ k, t'.queries.get k = none ↔ t.queries.get k = none ∧ k ≠ a.text ∧ k ≠ termsText a.terms := by
    intro k
    rw [hp.queries]
    by_cases hk : k = a.text ∨ k = termsText a.terms
    · rw [if_pos hk]
      constructor
      · rintro ⟨⟩
      · rintro ⟨_, h1, h2⟩
        rcases hk with hk | hk
        · exact absurd hk h1
        · exact absurd hk h2
    · rw [if_neg hk]
      exact ⟨fun h => ⟨h, fun e => hk (.inl e), fun e => hk (.inr e)⟩, fun h => h.1⟩
  have idx : ∀ k, t'.queryIndex.get k = none ↔ t.queryIndex.get k = none ∧ k ≠ a.index := by
    intro k
    rw [hp.index]
    by_cases hk : k = a.index
    · rw [if_pos hk]; simp [hk]
    · rw [if_neg hk]; simp [hk]
  constructor
  · rintro (h | ⟨h1, h2, h3, f, h4, h5⟩)
    · exact absurd h hy0
    obtain ⟨k1, k2, k3⟩ := (look _).1 h2
    obtain ⟨k4, k5⟩ := (idx _).1 h3
    obtain ⟨k6, k7, k8⟩ := (look _).1 h5
    refine ⟨.inr ⟨h1, k1, k4, f, h4, k6⟩, ?_⟩
    intro a' ha' b hb
    rw [ha] at ha'
    cases ha'
    have hb' : added lib y = some ⟨y.1, f, y.2⟩ := by simp [added, hy0, h4]
    rw [hb'] at hb
    cases hb
    exact ⟨Ne.symm k5, Ne.symm k2, Ne.symm k7, Ne.symm k3, Ne.symm k8⟩
  · rintro ⟨h | ⟨h1, h2, h3, f, h4, h5⟩, hb⟩
    · exact absurd h hy0
    have hb' : added lib y = some ⟨y.1, f, y.2⟩ := by simp [added, hy0, h4]
    have ap : Apart a ⟨y.1, f, y.2⟩ := hb _ (by rw [ha]; simp) _ (by rw [hb']; simp)
    exact .inr ⟨h1, (look _).2 ⟨h2, Ne.symm ap.text, Ne.symm ap.nodeText⟩,
      (idx _).2 ⟨h3, Ne.symm ap.index⟩, f, h4,
      (look _).2 ⟨h5, Ne.symm ap.textNode, Ne.symm ap.node⟩⟩

theorem addAll_fine {lib : GoLib} (l : List (Str × Int)) {t t' : GTagsTree} (h : addAll lib t l = some t') :
    (∀ x ∈ l, Fine lib t x) ∧ l.Pairwise (Beside lib) := by
  induction l generalizing t with
  | nil => simp
  | cons x l ih =>
    obtain ⟨s, i⟩ := x
    rw [addAll] at h
    by_cases h0 : s = []
    · subst h0
      rw [add_empty] at h
      simp only [if_true] at h
      obtain ⟨h1, h2⟩ := ih h
      refine ⟨?_, List.pairwise_cons.2 ⟨fun y _ a ha => by simp [added] at ha, h2⟩⟩
      intro y hy
      rcases List.mem_cons.1 hy with rfl | hy
      · exact .inl rfl
      · exact h1 y hy
    · split at h
      · rename_i t1 r hadd
        split at h
        · rename_i hr
          obtain ⟨a, ha, hp⟩ := put_of_add h0 hadd hr
          obtain ⟨k1, k2⟩ := ih h
          refine ⟨?_, List.pairwise_cons.2 ⟨fun y hy => ((fine_put ha hp).1 (k1 y hy)).2, k2⟩⟩
          intro y hy
          rcases List.mem_cons.1 hy with rfl | hy
          · exact fine_of_add hadd hr
          · exact ((fine_put ha hp).1 (k1 y hy)).1
        · cases h
      · cases h

theorem addAll_some {lib : GoLib} (l : List (Str × Int)) (hk : ∀ x ∈ l, HasKeys lib x.1) {t : GTagsTree}
    (h : ∀ x ∈ l, Fine lib t x) (hb : l.Pairwise (Beside lib)) : ∃ t', addAll lib t l = some t' := by
  induction l generalizing t with
  | nil => exact ⟨t, rfl⟩
  | cons x l ih =>
    obtain ⟨s, i⟩ := x
    obtain ⟨b1, b2⟩ := List.pairwise_cons.1 hb
    have hk' : ∀ x ∈ l, HasKeys lib x.1 := fun x hx => hk x (by simp [hx])
    rw [addAll]
    by_cases h0 : s = []
    · subst h0
      rw [add_empty]
      simp only [if_true]
      exact ih hk' (fun x hx => h x (by simp [hx])) b2
    · obtain ⟨t1, r, hadd, hr⟩ := add_fine (h (s, i) (by simp)) h0 (hk (s, i) (by simp))
      rw [hadd]
      dsimp only
      rw [if_pos hr]
      obtain ⟨a, ha, hp⟩ := put_of_add h0 hadd hr
      exact ih hk' (fun y hy => (fine_put ha hp).2 ⟨h y (by simp [hy]), b1 y hy⟩) b2

/-- Entries in the tables after the additions. -/
theorem addAll_tables {lib : GoLib} (l : List (Str × Int)) {t t' : GTagsTree} (h : addAll lib t l = some t') :
    (∀ k i, t'.queries.get k = some i ↔
      (∃ a ∈ l.filterMap (added lib), (k = a.text ∨ k = termsText a.terms) ∧ i = a.index) ∨
        (∀ a ∈ l.filterMap (added lib), ¬(k = a.text ∨ k = termsText a.terms)) ∧ t.queries.get k = some i) ∧
    ∀ k s, t'.queryIndex.get k = some s ↔
      (∃ a ∈ l.filterMap (added lib), k = a.index ∧ s = termsText a.terms) ∨
        (∀ a ∈ l.filterMap (added lib), k ≠ a.index) ∧ t.queryIndex.get k = some s := by
  induction l generalizing t with
  | nil => cases h; simp
  | cons x l ih =>
    have hall := (addAll_fine _ h).2
    obtain ⟨s, i⟩ := x
    rw [addAll] at h
    by_cases h0 : s = []
    · subst h0
      rw [add_empty] at h
      simp only [if_true] at h
      rw [List.filterMap_cons_none (by simp [added])]
      exact ih h
    · split at h
      · rename_i t1 r hadd
        split at h
        · rename_i hr
          obtain ⟨a, ha, hp⟩ := put_of_add h0 hadd hr
          obtain ⟨k1, k2⟩ := ih h
          have hap : ∀ b ∈ l.filterMap (added lib), Apart a b := by
            intro b hb
            obtain ⟨y, hy, hyb⟩ := List.mem_filterMap.1 hb
            exact (List.pairwise_cons.1 hall).1 y hy a (by rw [ha]; simp) b (by rw [hyb]; simp)
          rw [List.filterMap_cons_some ha]
          simp only [List.mem_cons, exists_eq_or_imp, forall_eq_or_imp]
          constructor
          · intro k j
            rw [k1, hp.queries]
            by_cases hk : k = a.text ∨ k = termsText a.terms
            · have hno : ∀ b ∈ l.filterMap (added lib), ¬(k = b.text ∨ k = termsText b.terms) := by
                intro b hb hkb
                have ap := hap b hb
                rcases hk with hk | hk <;> rcases hkb with hkb | hkb
                · exact ap.text (hk.symm.trans hkb)
                · exact ap.textNode (hk.symm.trans hkb)
                · exact ap.nodeText (hk.symm.trans hkb)
                · exact ap.node (hk.symm.trans hkb)
              rw [if_pos hk]
              constructor
              · rintro (⟨b, hb, hkb, _⟩ | ⟨_, e⟩)
                · exact absurd hkb (hno b hb)
                · exact .inl (.inl ⟨hk, (Option.some.inj e).symm⟩)
              · rintro ((⟨_, e⟩ | ⟨b, hb, hkb, _⟩) | ⟨⟨h, _⟩, _⟩)
                · exact .inr ⟨hno, by rw [e]⟩
                · exact absurd hkb (hno b hb)
                · exact absurd hk h
            · rw [if_neg hk]
              constructor
              · rintro (h | ⟨h3, h4⟩)
                · exact .inl (.inr h)
                · exact .inr ⟨⟨hk, h3⟩, h4⟩
              · rintro ((⟨h, _⟩ | h) | ⟨⟨_, h3⟩, h4⟩)
                · exact absurd h hk
                · exact .inl h
                · exact .inr ⟨h3, h4⟩
          · intro k j
            rw [k2, hp.index]
            by_cases hk : k = a.index
            · have hno : ∀ b ∈ l.filterMap (added lib), k ≠ b.index :=
                fun b hb e => (hap b hb).index (hk.symm.trans e)
              rw [if_pos hk]
              constructor
              · rintro (⟨b, hb, hkb, _⟩ | ⟨_, e⟩)
                · exact absurd hkb (hno b hb)
                · exact .inl (.inl ⟨hk, (Option.some.inj e).symm⟩)
              · rintro ((⟨_, e⟩ | ⟨b, hb, hkb, _⟩) | ⟨⟨h, _⟩, _⟩)
                · exact .inr ⟨hno, by rw [e]⟩
                · exact absurd hkb (hno b hb)
                · exact absurd hk h
            · rw [if_neg hk]
              constructor
              · rintro (h | ⟨h3, h4⟩)
                · exact .inl (.inr h)
                · exact .inr ⟨⟨hk, h3⟩, h4⟩
              · rintro ((⟨h, _⟩ | h) | ⟨⟨_, h3⟩, h4⟩)
                · exact absurd h hk
                · exact .inl h
                · exact .inr ⟨h3, h4⟩
        · cases h
      · cases h

theorem same_tables {lib : GoLib} {l l' : List (Str × Int)} (h : l.Perm l') {t t' : GTagsTree}
    (ht : addAll lib {} l = some t) (ht' : addAll lib {} l' = some t') :
    (∀ k, t.queries.get k = t'.queries.get k) ∧ ∀ k, t.queryIndex.get k = t'.queryIndex.get k := by
  have hm : ∀ a, a ∈ l.filterMap (added lib) ↔ a ∈ l'.filterMap (added lib) :=
    fun a => (h.filterMap (added lib)).mem_iff
  obtain ⟨a1, a2⟩ := addAll_tables l ht
  obtain ⟨b1, b2⟩ := addAll_tables l' ht'
  constructor
  · intro k
    apply Option.ext
    intro i
    rw [a1, b1]
    simp only [hm]
  · intro k
    apply Option.ext
    intro i
    rw [a2, b2]
    simp only [hm]

/-! ## The property: `Add` -/

/-- If some `Add` calls on an empty tree all go through, they go through in any other order.  Full
statement: without the hypothesis that all conditions have a key, which is not true of the code
(`order_panic_wrong`). -/
theorem order_accepted_partial (lib : GoLib) (l l' : List (Str × Int)) (h : l.Perm l')
    (hk : ∀ x ∈ l, HasKeys lib x.1) (t : GTagsTree) (ht : addAll lib {} l = some t) :
    ∃ t', addAll lib {} l' = some t' := by
  obtain ⟨h1, h2⟩ := addAll_fine l ht
  exact addAll_some l' (fun x hx => hk x (h.mem_iff.2 hx)) (fun x hx => h1 x (h.mem_iff.2 hx))
    ((h.pairwise_iff Beside.symm).1 h2)

/-- A further `Add` on either tree reports the same text, index and error. -/
theorem order_later (lib : GoLib) (l l' : List (Str × Int)) (h : l.Perm l') (t t' : GTagsTree)
    (ht : addAll lib {} l = some t) (ht' : addAll lib {} l' = some t') (q : Str) (i : Int)
    (u u' : GTagsTree) (r r' : TAddRes) (hu : t.add lib q i = .ok (u, r)) (hu' : t'.add lib q i = .ok (u', r')) :
    r = r' := by
  obtain ⟨hg, hi⟩ := same_tables h ht ht'
  unfold GTagsTree.add at hu hu'
  rw [← hg, ← hi] at hu'
  by_cases h0 : q = []
  · rw [if_pos h0] at hu hu'; cases hu; cases hu'; rfl
  rw [if_neg h0] at hu hu'
  by_cases h1 : i < 0
  · rw [if_pos h1] at hu hu'; cases hu; cases hu'; rfl
  rw [if_neg h1] at hu hu'
  cases e1 : t.queries.get q with
  | some n => rw [e1] at hu hu'; cases hu; cases hu'; rfl
  | none =>
    rw [e1] at hu hu'
    dsimp only at hu hu'
    cases e2 : t.queryIndex.get i with
    | some q => rw [e2] at hu hu'; cases hu; cases hu'; rfl
    | none =>
      rw [e2] at hu hu'
      dsimp only at hu hu'
      obtain ⟨pr, hpr⟩ := parseSeriesByTag_total lib q
      rw [hpr, R.bind_ok] at hu hu'
      cases pr with
      | error e => cases hu; cases hu'; rfl
      | ok ts =>
        dsimp only at hu hu'
        rw [← hg] at hu'
        cases e3 : t.queries.get (termsText ts) with
        | some n => rw [e3] at hu hu'; cases hu; cases hu'; rfl
        | none =>
          rw [e3] at hu hu'
          dsimp only at hu hu'
          cases ts with
          | nil => cases hu; cases hu'; rfl
          | cons v vs =>
            dsimp only at hu hu'
            obtain ⟨_, _, hu⟩ := R.bind_eq_ok.1 hu
            obtain ⟨_, _, hu'⟩ := R.bind_eq_ok.1 hu'
            cases hu; cases hu'; rfl

/-! ## The property: what is reported -/

/-- The conditions and indexes of the accepted calls. -/
def entries (lib : GoLib) (l : List (Str × Int)) : List (List TTerm × Int) :=
  (l.filterMap (added lib)).map fun a => (a.terms, a.index)

theorem entries_perm {lib : GoLib} {l l' : List (Str × Int)} (h : l.Perm l') :
    (entries lib l).Perm (entries lib l') := (h.filterMap _).map _

theorem addAll_run {lib : GoLib} (l : List (Str × Int)) (t t' : GTagsTree) (L : List (List TTerm × Int))
    (h : addAll lib t l = some t') : runAdds lib t L l = .ok (t', L ++ entries lib l) := by
  induction l generalizing t L with
  | nil => cases h; simp [runAdds, entries]
  | cons x l ih =>
    rw [addAll] at h
    split at h
    · rename_i t1 r hadd
      split at h
      · rename_i hr
        rw [runAdds, hadd, R.bind_ok]
        dsimp only
        rw [ih _ _ h, List.append_assoc]
        congr 3
        have hf := fine_of_add hadd hr
        unfold entries
        by_cases h0 : x.1 = []
        · have ha : added lib x = none := by simp [added, h0]
          rw [List.filterMap_cons_none ha]
          simp [tagAccepted, h0]
        · obtain ⟨g, hg, ha⟩ := added_of_fine hf h0
          rw [List.filterMap_cons_some ha]
          simp [tagAccepted, h0, hr, hg]
      · cases h
    · cases h

/-- Conditions of the accepted queries that have the same key, operator and stored text compare the tag
with the same result. -/
def Alike (lib : GoLib) (L : List (List TTerm × Int)) (tags : GoMap Str Str) : Prop :=
  ∀ x ∈ L, ∀ y ∈ L, ∀ t ∈ x.1, ∀ u ∈ y.1, t.key = u.key → t.op = u.op → t.value = u.value →
    ∀ v, tags.get t.key = some v → t.matches lib v = u.matches lib v

theorem alike_holds {lib : GoLib} {tags : GoMap Str Str} (us ts : List TTerm)
    (hi : us.map (fun u => (u.key, u.op, u.value)) = ts.map fun u => (u.key, u.op, u.value))
    (hs : ∀ u ∈ us, ∀ t ∈ ts, u.key = t.key → u.op = t.op → u.value = t.value →
      ∀ v, tags.get u.key = some v → u.matches lib v = t.matches lib v) :
    (∀ u ∈ us, TermHolds lib tags u) ↔ ∀ t ∈ ts, TermHolds lib tags t := by
  induction us generalizing ts with
  | nil =>
    cases ts with
    | nil => simp
    | cons t ts => simp at hi
  | cons u us ih =>
    cases ts with
    | nil => simp at hi
    | cons t ts =>
      simp only [List.map_cons, List.cons.injEq, Prod.mk.injEq] at hi
      obtain ⟨⟨h1, h2, h3⟩, h4⟩ := hi
      rw [List.forall_mem_cons, List.forall_mem_cons,
        ih ts h4 (fun u hu t ht => hs u (by simp [hu]) t (by simp [ht]))]
      have h := hs u (by simp) t (by simp) h1 h2 h3
      unfold TermHolds
      rw [← h1, ← h2]
      cases hg : tags.get u.key with
      | none => rfl
      | some v => dsimp only; rw [h v hg]

/-- The answer to a list of conditions depends only on the comparisons. -/
theorem alike_answer {lib : GoLib} {tags : GoMap Str Str} (us ts : List TTerm)
    (hi : us.map (fun u => (u.key, u.op, u.value)) = ts.map fun u => (u.key, u.op, u.value))
    (hs : ∀ u ∈ us, ∀ t ∈ ts, u.key = t.key → u.op = t.op → u.value = t.value →
      ∀ v, tags.get u.key = some v → u.matches lib v = t.matches lib v) :
    GoMatcher.matchByTagsMap lib us tags = GoMatcher.matchByTagsMap lib ts tags := by
  induction us generalizing ts with
  | nil =>
    cases ts with
    | nil => rfl
    | cons t ts => simp at hi
  | cons u us ih =>
    cases ts with
    | nil => simp at hi
    | cons t ts =>
      simp only [List.map_cons, List.cons.injEq, Prod.mk.injEq] at hi
      obtain ⟨⟨h1, h2, h3⟩, h4⟩ := hi
      have h := hs u (by simp) t (by simp) h1 h2 h3
      rw [GoMatcher.matchByTagsMap, GoMatcher.matchByTagsMap,
        ih ts h4 (fun u hu t ht => hs u (by simp [hu]) t (by simp [ht])), ← h1, ← h2]
      cases hg : tags.get u.key with
      | none => rfl
      | some v => dsimp only; rw [h v hg]

/-- With conditions that compare alike, the stand-ins answer exactly if the queries do. -/
theorem own_answers {lib : GoLib} {tags : GoMap Str Str} {L : List (List TTerm × Int)}
    (hs : Alike lib L tags) {W : List (List TTerm × (List TTerm × Int))}
    (h1 : W.map Prod.snd = L.filter (fun x => !x.1.isEmpty)) (h2 : ∀ w ∈ W, C25.StandIn L w.1 w.2.1) :
    (∀ w ∈ W, ∃ b, GoMatcher.matchByTagsMap lib w.1 tags = .ok b) ↔
      ∀ x ∈ L, ∃ b, GoMatcher.matchByTagsMap lib x.1 tags = .ok b := by
  have key : ∀ w ∈ W, w.2 ∈ L ∧
      GoMatcher.matchByTagsMap lib w.1 tags = GoMatcher.matchByTagsMap lib w.2.1 tags := by
    intro w hw
    have hx : w.2 ∈ L := by
      have : w.2 ∈ W.map Prod.snd := List.mem_map.2 ⟨w, hw, rfl⟩
      rw [h1] at this
      exact (List.mem_filter.1 this).1
    refine ⟨hx, alike_answer _ _ (h2 w hw).ids ?_⟩
    intro u hu t ht e1 e2 e3 v hv
    obtain ⟨y, hy, huy⟩ := (h2 w hw).from_query u hu
    exact hs y hy _ hx u huy t ht e1 e2 e3 v hv
  constructor
  · intro h x hx
    by_cases he : x.1.isEmpty = true
    · rw [List.isEmpty_iff.1 he]
      exact ⟨true, rfl⟩
    · have : x ∈ W.map Prod.snd := by
        rw [h1]
        exact List.mem_filter.2 ⟨hx, by simpa using he⟩
      obtain ⟨w, hw, rfl⟩ := List.mem_map.1 this
      rw [← (key w hw).2]
      exact h w hw
  · intro h w hw
    rw [(key w hw).2]
    exact h _ (key w hw).1

/-- With conditions that compare alike, the tree reports the accepted queries that hold. -/
theorem own_conditions {lib : GoLib} {tags : GoMap Str Str} {L : List (List TTerm × Int)}
    (hs : Alike lib L tags) {W : List (List TTerm × (List TTerm × Int))}
    (h1 : W.map Prod.snd = L.filter (fun x => !x.1.isEmpty)) (h2 : ∀ w ∈ W, C25.StandIn L w.1 w.2.1) :
    (W.filter fun w => decide (GoMatcher.matchByTagsMap lib w.1 tags = .ok true)).map
        (fun w => (termsText w.2.1, w.2.2)) =
      ((L.filter fun x => !x.1.isEmpty).filter fun x =>
        decide (GoMatcher.matchByTagsMap lib x.1 tags = .ok true)).map fun x => (termsText x.1, x.2) := by
  rw [← h1, List.filter_map, List.map_map]
  congr 1
  apply List.filter_congr
  intro w hw
  have hx : w.2 ∈ L := by
    have : w.2 ∈ W.map Prod.snd := List.mem_map.2 ⟨w, hw, rfl⟩
    rw [h1] at this
    exact (List.mem_filter.1 this).1
  simp only [Function.comp_apply]
  rw [decide_eq_decide, C22.match_iff, C22.match_iff]
  apply alike_holds _ _ (h2 w hw).ids
  intro u hu t ht e1 e2 e3 v hv
  obtain ⟨y, hy, huy⟩ := (h2 w hw).from_query u hu
  exact hs y hy _ hx u huy t ht e1 e2 e3 v hv

theorem alike_perm {lib : GoLib} {tags : GoMap Str Str} {L L' : List (List TTerm × Int)} (h : L.Perm L')
    (hs : Alike lib L tags) : Alike lib L' tags :=
  fun x hx y hy => hs x (h.mem_iff.2 hx) y (h.mem_iff.2 hy)

/-- The same calls in another order: if conditions with the same key, operator and stored text compare
alike, `MatchByTagsMap` returns for both trees or for none, and reports the same, in some order; and it
returns for both if every comparison gives an answer.  Full statement: without the hypotheses on the conditions,
which is not true of the code (`order_wrong`). -/
theorem order_map_partial (lib : GoLib) (l l' : List (Str × Int)) (h : l.Perm l')
    (hk : ∀ x ∈ l, HasKeys lib x.1) (t t' : GTagsTree) (ht : addAll lib {} l = some t)
    (ht' : addAll lib {} l' = some t') (tags : GoMap Str Str) (hs : Alike lib (entries lib l) tags) :
    ((∀ x ∈ entries lib l, Answers lib x.1 tags) →
      (∃ r, t.matchByTagsMap lib tags = .ok r) ∧ ∃ r', t'.matchByTagsMap lib tags = .ok r') ∧
    ((∃ r, t.matchByTagsMap lib tags = .ok r) ↔ ∃ r', t'.matchByTagsMap lib tags = .ok r') ∧
    ∀ r r', t.matchByTagsMap lib tags = .ok r → t'.matchByTagsMap lib tags = .ok r' →
      r.2 = r'.2 ∧ r.1.Perm r'.1 := by
  by_cases h0 : tags.length = 0
  · unfold GTagsTree.matchByTagsMap
    rw [if_pos h0, if_pos h0]
    refine ⟨fun _ => ⟨⟨_, rfl⟩, ⟨_, rfl⟩⟩, Iff.rfl, ?_⟩
    intro r r' hr hr'
    cases hr; cases hr'
    exact ⟨rfl, List.Perm.refl _⟩
  obtain ⟨_, _, e, W, w1, w2, w3⟩ := C25.map_stand_ins_partial lib l hk
  obtain ⟨_, _, e', W', w1', w2', w3'⟩ := C25.map_stand_ins_partial lib l' (fun x hx => hk x (h.mem_iff.2 hx))
  rw [addAll_run l _ _ _ ht] at e
  rw [addAll_run l' _ _ _ ht'] at e'
  simp only [List.nil_append, R.ok.injEq, Prod.mk.injEq] at e e'
  obtain ⟨rfl, rfl⟩ := e
  obtain ⟨rfl, rfl⟩ := e'
  have hE := entries_perm (lib := lib) h
  obtain ⟨a1, a3, a2⟩ := w3 tags h0
  obtain ⟨b1, b3, b2⟩ := w3' tags h0
  refine ⟨fun ha => ⟨a1 ha, b1 fun x hx => ha x (hE.mem_iff.2 hx)⟩, ?_, ?_⟩
  · rw [a3, b3, own_answers hs w1 w2, own_answers (alike_perm hE hs) w1' w2']
    exact forall_congr' fun x => imp_congr_left hE.mem_iff
  intro r r' hr hr'
  obtain ⟨c1, c2⟩ := a2 r.1 r.2 hr
  obtain ⟨d1, d2⟩ := b2 r'.1 r'.2 hr'
  rw [own_conditions hs w1 w2] at c2
  rw [own_conditions (alike_perm hE hs) w1' w2'] at d2
  have hp : r.1.Perm r'.1 := (c2.trans (((hE.filter _).filter _).map _)).trans d2.symm
  exact ⟨by rw [c1, d1, hp.length_eq], hp⟩

/-- The same for `MatchByTags` and sorted tag lists. -/
theorem order_slice_partial (lib : GoLib) (l l' : List (Str × Int)) (h : l.Perm l')
    (hk : ∀ x ∈ l, HasKeys lib x.1) (t t' : GTagsTree) (ht : addAll lib {} l = some t)
    (ht' : addAll lib {} l' = some t') (tags : List Tag) (hst : TagsSorted tags)
    (hs : Alike lib (entries lib l) (tagsMap tags)) :
    ((∀ x ∈ entries lib l, Answers lib x.1 (tagsMap tags)) →
      (∃ r, t.matchByTags lib tags = .ok r) ∧ ∃ r', t'.matchByTags lib tags = .ok r') ∧
    ((∃ r, t.matchByTags lib tags = .ok r) ↔ ∃ r', t'.matchByTags lib tags = .ok r') ∧
    ∀ r r', t.matchByTags lib tags = .ok r → t'.matchByTags lib tags = .ok r' →
      r.2 = r'.2 ∧ r.1.Perm r'.1 := by
  have hk' : ∀ x ∈ l', HasKeys lib x.1 := fun x hx => hk x (h.mem_iff.2 hx)
  have e := addAll_run l _ _ [] ht
  have e' := addAll_run l' _ _ [] ht'
  rw [List.nil_append] at e e'
  obtain ⟨m1, m3, m2⟩ := order_map_partial lib l l' h hk t t' ht ht' (tagsMap tags) hs
  have hsm := C26.slice_vs_map lib _ t (C25.runAdds_run l e) tags hst
  have hsm' := C26.slice_vs_map lib _ t' (C25.runAdds_run l' e') tags hst
  have hF : t.fin.toList = _ := C25.runAdds_fin l hk tagInv_empty rfl e
  have hF' : t'.fin.toList = _ := C25.runAdds_fin l' hk' tagInv_empty rfl e'
  have hfin : t.fin.toList.Perm t'.fin.toList := by
    rw [hF, hF']
    exact ((entries_perm h).filter _).map _
  have g : ∀ u : GTagsTree, (match u.fin with | some e => [e] | none => []) = u.fin.toList := by
    intro u; cases u.fin <;> rfl
  constructor
  · intro ha
    obtain ⟨⟨r, hr⟩, r', hr'⟩ := m1 ha
    rw [hsm, hsm', hr, hr']
    exact ⟨⟨_, rfl⟩, ⟨_, rfl⟩⟩
  constructor
  · rw [hsm, hsm']
    constructor
    · rintro ⟨r, hr⟩
      obtain ⟨s, hs1, _⟩ := R.bind_eq_ok.1 hr
      obtain ⟨s', hs'⟩ := m3.1 ⟨s, hs1⟩
      rw [hs']
      exact ⟨_, rfl⟩
    · rintro ⟨r, hr⟩
      obtain ⟨s, hs1, _⟩ := R.bind_eq_ok.1 hr
      obtain ⟨s', hs'⟩ := m3.2 ⟨s, hs1⟩
      rw [hs']
      exact ⟨_, rfl⟩
  · intro r r' hr hr'
    rw [hsm] at hr
    rw [hsm'] at hr'
    obtain ⟨s, hs1, hs2⟩ := R.bind_eq_ok.1 hr
    obtain ⟨s', hs1', hs2'⟩ := R.bind_eq_ok.1 hr'
    obtain ⟨c1, c2⟩ := m2 s s' hs1 hs1'
    simp only [R.ok.injEq] at hs2 hs2'
    subst hs2 hs2'
    refine ⟨c1, ?_⟩
    dsimp only
    have := hfin.append c2
    revert this
    cases t.fin <;> cases t'.fin <;> exact id

theorem entries_mem {lib : GoLib} {l : List (Str × Int)} {x : List TTerm × Int} (h : x ∈ entries lib l) :
    ∃ a ∈ l, parseSeriesByTag lib a.1 = .ok (.ok x.1) := by
  unfold entries at h
  obtain ⟨a, ha, rfl⟩ := List.mem_map.1 h
  obtain ⟨y, hy, hya⟩ := List.mem_filterMap.1 ha
  unfold added at hya
  split at hya
  · cases hya
  · split at hya
    · rename_i ts hts
      cases hya
      exact ⟨y, hy, hts⟩
    · cases hya

/-- Queries whose conditions are regular expressions or values without wildcards: all orders, all tags.
Full statement: see `order_map_partial`. -/
theorem order_plain_partial (lib : GoLib) (l l' : List (Str × Int)) (h : l.Perm l')
    (hq : ∀ x ∈ l, QueryHas lib (TermPlain lib) x.1) (t : GTagsTree) (ht : addAll lib {} l = some t) :
    ∃ t', addAll lib {} l' = some t' ∧ ∀ tags : GoMap Str Str, ∃ r r', t.matchByTagsMap lib tags = .ok r ∧
      t'.matchByTagsMap lib tags = .ok r' ∧ r.2 = r'.2 ∧ r.1.Perm r'.1 := by
  have hk : ∀ x ∈ l, HasKeys lib x.1 := fun x hx ts hts u hu => (hq x hx ts hts u hu).1
  obtain ⟨t', ht'⟩ := order_accepted_partial lib l l' h hk t ht
  refine ⟨t', ht', fun tags => ?_⟩
  have plain : ∀ x ∈ entries lib l, ∀ u ∈ x.1, TermPlain lib u := by
    intro x hx u hu
    obtain ⟨a, ha, hp⟩ := entries_mem hx
    exact (hq a ha _ hp u hu).2
  obtain ⟨m1, m3, m2⟩ := order_map_partial lib l l' h hk t t' ht ht' tags (by
    intro x hx y hy u hu w hw e1 e2 e3 v _
    exact (C25.termPlain_same (plain x hx u hu) (plain y hy w hw) v).2 (by simp [TTerm.id, e1, e2, e3]))
  obtain ⟨⟨r, hr⟩, r', hr'⟩ := m1 (fun x hx u hu v _ => (C25.termPlain_same (plain x hx u hu) (plain x hx u hu) v).1)
  exact ⟨r, r', hr, hr', m2 r r' hr hr'⟩

/-- Queries whose conditions are regular expressions or globs of the shapes for which `Glob.Match` is
exact: all orders, all tags whose values are text.  Full statement: see `order_map_partial`. -/
theorem order_written_partial (lib : GoLib) (l l' : List (Str × Int)) (h : l.Perm l')
    (hq : ∀ x ∈ l, QueryHas lib (TermGood lib) x.1) (t : GTagsTree) (ht : addAll lib {} l = some t) :
    ∃ t', addAll lib {} l' = some t' ∧ ∀ tags : GoMap Str Str,
      (∀ k v, tags.get k = some v → ∃ cs : List Char, v = utf8 cs ∧ ∀ c ∈ cs, c.toNat ≠ 0xFFFD) →
      ∃ r r', t.matchByTagsMap lib tags = .ok r ∧
        t'.matchByTagsMap lib tags = .ok r' ∧ r.2 = r'.2 ∧ r.1.Perm r'.1 := by
  have hk : ∀ x ∈ l, HasKeys lib x.1 := fun x hx ts hts u hu => (hq x hx ts hts u hu).1
  obtain ⟨t', ht'⟩ := order_accepted_partial lib l l' h hk t ht
  refine ⟨t', ht', fun tags hv => ?_⟩
  have good : ∀ x ∈ entries lib l, ∀ u ∈ x.1, TermGood lib u := by
    intro x hx u hu
    obtain ⟨a, ha, hp⟩ := entries_mem hx
    exact (hq a ha _ hp u hu).2
  obtain ⟨m1, m3, m2⟩ := order_map_partial lib l l' h hk t t' ht ht' tags (by
    intro x hx y hy u hu w hw e1 e2 e3 v hg
    obtain ⟨cs, rfl, hcs⟩ := hv _ _ hg
    exact (C25.termGood_same (good x hx u hu) (good y hy w hw) cs hcs).2 (by simp [TTerm.id, e1, e2, e3]))
  obtain ⟨⟨r, hr⟩, r', hr'⟩ := m1 (fun x hx u hu v hg => by
    obtain ⟨cs, rfl, hcs⟩ := hv _ _ hg
    exact (C25.termGood_same (good x hx u hu) (good x hx u hu) cs hcs).1)
  exact ⟨r, r', hr, hr', m2 r r' hr hr'⟩

/-! ## Examples, and where it fails -/

/-- What is reported after the calls. -/
def reported (l : List (Str × Int)) (tags : GoMap Str Str) : Option (Events × Nat) :=
  match addAll exLib {} l with
  | some t =>
    match t.matchByTagsMap exLib tags with
    | .ok r => some r
    | _ => none
  | none => none

/-- Not true of the code: `a=x[*]y` and `a=x*y` have the same stored text, and the one that comes first
decides for both. -/
theorem order_wrong :
    reported [(b!"seriesByTag('a=x[*]y', 'b=c')", 1), (b!"seriesByTag('a=x*y')", 2)] [(b!"a", b!"x0y")] =
      some ([], 0) ∧
    reported [(b!"seriesByTag('a=x*y')", 2), (b!"seriesByTag('a=x[*]y', 'b=c')", 1)] [(b!"a", b!"x0y")] =
      some ([(b!"seriesByTag('a=x*y')", 2)], 1) := by decide +kernel

/-- Not true of the code: a condition without a key goes through on a tree with two groups, and panics on
an empty one. -/
theorem order_panic_wrong :
    (addAll exLib {} [(b!"seriesByTag('a=1')", 1), (b!"seriesByTag('b=1')", 2),
      (b!"seriesByTag(' =x')", 3)]).isSome = true ∧
    (addAll exLib {} [(b!"seriesByTag(' =x')", 3), (b!"seriesByTag('a=1')", 1),
      (b!"seriesByTag('b=1')", 2)]).isSome = false := by decide +kernel

-- The same three queries in two orders; for conditions as in the hypothesis of `order_written_partial`
-- see the examples after `C25.queryHas_good`.
example :
    reported [(b!"seriesByTag('name=cpu*', 'dc!=x')", 1), (b!"seriesByTag('name=cpu*')", 2),
      (b!"seriesByTag('dc=m', 'host=~web')", 3)]
      [(nameKey, b!"cpu_load"), (b!"host", b!"web1"), (b!"dc", b!"m")] =
      some ([(b!"seriesByTag('dc=m','host=~web')", 3), (b!"seriesByTag('__name__=cpu*')", 2),
        (b!"seriesByTag('__name__=cpu*','dc!=x')", 1)], 3) ∧
    reported [(b!"seriesByTag('dc=m', 'host=~web')", 3), (b!"seriesByTag('name=cpu*')", 2),
      (b!"seriesByTag('name=cpu*', 'dc!=x')", 1)]
      [(nameKey, b!"cpu_load"), (b!"host", b!"web1"), (b!"dc", b!"m")] =
      some ([(b!"seriesByTag('__name__=cpu*')", 2), (b!"seriesByTag('__name__=cpu*','dc!=x')", 1),
        (b!"seriesByTag('dc=m','host=~web')", 3)], 3) := by decide +kernel

end C59

end GoMatcher
