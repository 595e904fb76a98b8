import Verif.Props.C25_TagTree

/-! # C26 – C29: slice form, lookup, bookkeeping and panics of the tag tree -/

namespace GoMatcher

/-- A call on a tree. -/
inductive TOp where
  | add (query : Str) (index : Int)
  | addTerms (terms : List TTerm) (index : Int)

/-- The call. -/
def TOp.apply (lib : GoLib) (t : GTagsTree) : TOp → R (GTagsTree × TAddRes)
  | .add q i => t.add lib q i
  | .addTerms ts i => t.addTerms ts i

/-- A history of calls. -/
def runTOps (lib : GoLib) (t : GTagsTree) : List TOp → R GTagsTree
  | [] => .ok t
  | op :: ops => do
    let r ← op.apply lib t
    runTOps lib r.1 ops

/-! ## C27 -/

namespace C27

/-- The lookup with a resume position, for sorted tags and a non-empty key: the position of the
key, or "not found" when no tag has the key.  It never panics and always terminates.  Full
statement: for every key; the empty key is never found, see `empty_key_wrong`. -/
theorem find_exact_partial (tags : List Tag) (h : TagsSorted tags) (key : Str) (hk : key ≠ [])
    (start : Nat) (hst : start < tags.length ∨ start = 0) :
    ∃ r, findTag tags key start = .ok r ∧
      match r with
      | some n => ∃ g, tags[n]? = some g ∧ g.key = key
      | none => ∀ g ∈ tags, g.key ≠ key := by
  rcases findTag_spec tags h key hk start hst with ⟨n, g, f1, f2, f3, _⟩ | ⟨f1, f2, _⟩
  · exact ⟨_, f1, g, f2, f3⟩
  · exact ⟨_, f1, f2⟩

/-- Both directions as one equation: found exactly at the only place with this key. -/
theorem find_iff_partial (tags : List Tag) (h : TagsSorted tags) (key : Str) (hk : key ≠ [])
    (start : Nat) (hst : start < tags.length ∨ start = 0) (n : Nat) :
    findTag tags key start = .ok (some n) ↔ (tags[n]?).map Tag.key = some key := by
  obtain ⟨r, h1, h2⟩ := find_exact_partial tags h key hk start hst
  rw [h1, R.ok.injEq]
  constructor
  · rintro rfl
    obtain ⟨g, h3, h4⟩ := h2
    simp [h3, h4]
  · intro hn
    cases hg : tags[n]? with
    | none => simp [hg] at hn
    | some g =>
      simp only [hg, Option.map_some, Option.some.injEq] at hn
      cases r with
      | none => exact absurd hn (h2 g (List.mem_of_getElem? hg))
      | some m =>
        obtain ⟨g', h3, h4⟩ := h2
        obtain ⟨hn1, hn2⟩ := List.getElem?_eq_some_iff.1 hg
        obtain ⟨hm1, hm2⟩ := List.getElem?_eq_some_iff.1 h3
        congr 1
        rcases Nat.lt_trichotomy m n with hlt | heq | hlt
        · have := List.pairwise_iff_getElem.1 h m n hm1 hn1 hlt
          rw [hm2, hn2, h4, hn, keyLt_irrefl] at this
          simp at this
        · exact heq
        · have := List.pairwise_iff_getElem.1 h n m hn1 hm1 hlt
          rw [hm2, hn2, h4, hn, keyLt_irrefl] at this
          simp at this

example : let tags : List Tag := [⟨nameKey, b!"m"⟩, ⟨b!"A", b!"1"⟩, ⟨b!"a", b!"2"⟩, ⟨b!"c", b!"3"⟩]
    TagsSorted tags ∧ findTag tags (b!"c") 1 = .ok (some 3) ∧ findTag tags (b!"A") 3 = .ok (some 1) ∧
      findTag tags (b!"b") 2 = .ok none ∧ findTag tags nameKey 2 = .ok (some 0) := by
  decide +kernel

/-- A tag with the empty key is in the list and is not found. -/
theorem empty_key_wrong : TagsSorted [⟨[], b!"x"⟩, ⟨b!"a", b!"y"⟩] ∧
    findTag [⟨[], b!"x"⟩, ⟨b!"a", b!"y"⟩] [] 0 = .ok none := by decide +kernel

end C27

/-! ## C26 -/

theorem apply_keys {lib : GoLib} {t : GTagsTree} {op : TOp} {r : GTagsTree × TAddRes}
    (h : op.apply lib t = .ok r) (hk : KeysG t.root) : KeysG r.1.root := by
  cases op with
  | add q i =>
    simp only [TOp.apply, GTagsTree.add] at h
    split at h
    · simp only [R.ok.injEq] at h; subst h; exact hk
    split at h
    · simp only [R.ok.injEq] at h; subst h; exact hk
    split at h
    · simp only [R.ok.injEq] at h; subst h; exact hk
    split at h
    · simp only [R.ok.injEq] at h; subst h; exact hk
    obtain ⟨p, hp, h⟩ := R.bind_eq_ok.1 h
    cases p with
    | error e => simp only [R.ok.injEq] at h; subst h; exact hk
    | ok ts =>
      dsimp only at h
      split at h
      · simp only [R.ok.injEq] at h; subst h; exact hk
      cases ts with
      | nil => simp only [R.ok.injEq] at h; subst h; exact hk
      | cons u us =>
        dsimp only at h
        obtain ⟨root, hr, h⟩ := R.bind_eq_ok.1 h
        simp only [R.ok.injEq] at h; subst h
        exact parseItems_keys _ _ _ _ hk hr
  | addTerms ts i =>
    simp only [TOp.apply, GTagsTree.addTerms] at h
    cases ts with
    | nil => simp only [R.ok.injEq] at h; subst h; exact hk
    | cons u us =>
      dsimp only at h
      split at h
      · simp only [R.ok.injEq] at h; subst h; exact hk
      split at h
      · simp only [R.ok.injEq] at h; subst h; exact hk
      split at h
      · simp only [R.ok.injEq] at h; subst h; exact hk
      obtain ⟨root, hr, h⟩ := R.bind_eq_ok.1 h
      simp only [R.ok.injEq] at h; subst h
      exact parseItems_keys _ _ _ _ hk hr

theorem runTOps_keys {lib : GoLib} (ops : List TOp) {t t' : GTagsTree}
    (h : runTOps lib t ops = .ok t') (hk : KeysG t.root) : KeysG t'.root := by
  induction ops generalizing t with
  | nil => simp only [runTOps, R.ok.injEq] at h; rw [← h]; exact hk
  | cons op ops ih =>
    rw [runTOps] at h
    obtain ⟨r, h1, h2⟩ := R.bind_eq_ok.1 h
    exact ih h2 (apply_keys h1 hk)

/-- The query has no conditions. -/
def NoConditions (lib : GoLib) : TOp → Prop
  | .add q _ => parseSeriesByTag lib q = .ok (.ok [])
  | .addTerms _ _ => False

theorem apply_fin {lib : GoLib} {t : GTagsTree} {op : TOp} {r : GTagsTree × TAddRes}
    (h : op.apply lib t = .ok r) (hn : ¬ NoConditions lib op) : r.1.fin = t.fin := by
  cases op with
  | add q i =>
    simp only [TOp.apply, GTagsTree.add] at h
    split at h
    · simp only [R.ok.injEq] at h; subst h; rfl
    split at h
    · simp only [R.ok.injEq] at h; subst h; rfl
    split at h
    · simp only [R.ok.injEq] at h; subst h; rfl
    split at h
    · simp only [R.ok.injEq] at h; subst h; rfl
    obtain ⟨p, hp, h⟩ := R.bind_eq_ok.1 h
    cases p with
    | error e => simp only [R.ok.injEq] at h; subst h; rfl
    | ok ts =>
      dsimp only at h
      split at h
      · simp only [R.ok.injEq] at h; subst h; rfl
      cases ts with
      | nil => exact absurd hp hn
      | cons u us =>
        dsimp only at h
        obtain ⟨root, hr, h⟩ := R.bind_eq_ok.1 h
        simp only [R.ok.injEq] at h; subst h; rfl
  | addTerms ts i =>
    simp only [TOp.apply, GTagsTree.addTerms] at h
    cases ts with
    | nil => simp only [R.ok.injEq] at h; subst h; rfl
    | cons u us =>
      dsimp only at h
      split at h
      · simp only [R.ok.injEq] at h; subst h; rfl
      split at h
      · simp only [R.ok.injEq] at h; subst h; rfl
      split at h
      · simp only [R.ok.injEq] at h; subst h; rfl
      obtain ⟨root, hr, h⟩ := R.bind_eq_ok.1 h
      simp only [R.ok.injEq] at h; subst h; rfl

theorem runTOps_fin {lib : GoLib} (ops : List TOp) {t t' : GTagsTree}
    (h : runTOps lib t ops = .ok t') (hn : ∀ op ∈ ops, ¬ NoConditions lib op) : t'.fin = t.fin := by
  induction ops generalizing t with
  | nil => simp only [runTOps, R.ok.injEq] at h; rw [← h]
  | cons op ops ih =>
    rw [runTOps] at h
    obtain ⟨r, h1, h2⟩ := R.bind_eq_ok.1 h
    rw [ih h2 (fun op h => hn op (by simp [h])), apply_fin h1 (hn op (by simp))]

theorem GoMap.set_length_pos {κ ν : Type} [DecidableEq κ] (m : GoMap κ ν) (k : κ) (v : ν) :
    (m.set k v).length ≠ 0 := by
  cases m with
  | nil => simp [GoMap.set]
  | cons p m =>
    obtain ⟨a, b⟩ := p
    unfold GoMap.set
    split <;> simp

theorem tagsMap_length (tags : List Tag) : (tagsMap tags).length = 0 ↔ tags.length = 0 := by
  cases tags with
  | nil => simp [tagsMap]
  | cons g gs =>
    simp only [List.length_cons, Nat.add_one_ne_zero, iff_false]
    unfold tagsMap
    rw [List.foldl_cons]
    have key : ∀ (gs : List Tag) (m : GoMap Str Str), m.length ≠ 0 →
        (gs.foldl (fun m t => m.set t.key t.value) m).length ≠ 0 := by
      intro gs
      induction gs with
      | nil => exact fun m h => h
      | cons g gs ih => exact fun m _ => ih _ (GoMap.set_length_pos _ _ _)
    exact key gs _ (GoMap.set_length_pos _ _ _)

namespace C26

/-- Every tree that any calls can build (`AddTerms` and empty keys included), every sorted
tag list: the slice search first makes the uncounted call for the query without conditions,
and then does exactly what the map search does — the same calls in the same order, the same
count, the same panics. -/
theorem slice_vs_map (lib : GoLib) (ops : List TOp) (t : GTagsTree) (h : runTOps lib {} ops = .ok t)
    (tags : List Tag) (hs : TagsSorted tags) :
    t.matchByTags lib tags = (do
      let r ← t.matchByTagsMap lib (tagsMap tags)
      .ok ((match t.fin with | some e => [e] | none => []) ++ r.1, r.2)) := by
  have hk := runTOps_keys ops h (by simp [KeysG])
  have hf : (storeFin t.fin).1 = (match t.fin with | some e => [e] | none => []) := by
    cases t.fin <;> rfl
  unfold GTagsTree.matchByTags GTagsTree.matchByTagsMap
  rw [hf]
  by_cases h0 : tags.length = 0
  · rw [if_pos h0, if_pos ((tagsMap_length tags).2 h0)]
  · rw [if_neg h0, if_neg (fun e => h0 ((tagsMap_length tags).1 e)),
      groupsSlice_eq lib tags hs 0 (.inr rfl) t.root hk]

/-- Without a query without conditions the two searches are the same.  Full statement: for all
queries; see `empty_query_wrong`. -/
theorem slice_eq_map_partial (lib : GoLib) (ops : List TOp) (t : GTagsTree)
    (h : runTOps lib {} ops = .ok t) (hn : ∀ op ∈ ops, ¬ NoConditions lib op)
    (tags : List Tag) (hs : TagsSorted tags) :
    t.matchByTags lib tags = t.matchByTagsMap lib (tagsMap tags) := by
  rw [slice_vs_map lib ops t h tags hs, runTOps_fin ops h hn]
  cases t.matchByTagsMap lib (tagsMap tags) <;> rfl

/-- Both searches after the same history. -/
def both (ops : List TOp) (tags : List Tag) : R ((Events × Nat) × (Events × Nat)) := do
  let t ← runTOps exLib {} ops
  let a ← t.matchByTags exLib tags
  let b ← t.matchByTagsMap exLib (tagsMap tags)
  .ok (a, b)

example : both [.add (b!"seriesByTag('name=cpu*', 'dc!=x')") 1, .add (b!"seriesByTag('dc=m', 'host=~web')") 3]
    [⟨nameKey, b!"cpu_load"⟩, ⟨b!"dc", b!"m"⟩, ⟨b!"host", b!"web1"⟩] =
    .ok (([(b!"seriesByTag('dc=m','host=~web')", 3), (b!"seriesByTag('__name__=cpu*','dc!=x')", 1)], 2),
      ([(b!"seriesByTag('dc=m','host=~web')", 3), (b!"seriesByTag('__name__=cpu*','dc!=x')", 1)], 2)) := by
  decide +kernel
example : ¬ NoConditions exLib (.add (b!"seriesByTag('a=b')") 1) := by
  intro h
  have : (match parseSeriesByTag exLib (b!"seriesByTag('a=b')") with
    | .ok (.ok ts) => ts.length | _ => 0) = 1 := by decide +kernel
  rw [show parseSeriesByTag exLib (b!"seriesByTag('a=b')") = .ok (.ok []) from h] at this
  simp at this

/-- The code violates the full claim: the query without conditions is stored, uncounted, by the
slice search only. -/
theorem empty_query_wrong : both [.add (b!"seriesByTag()") 1] [⟨b!"a", b!"x"⟩] =
    .ok (([(b!"seriesByTag()", 1)], 0), ([], 0)) := by decide +kernel

end C26

/-! ## C29 -/

namespace C29

/-- `Add` answers, with or without an error, on every tree and every query all of whose
conditions have a key.  Full statement (not true of the code): every query; see
`empty_key_panics`. -/
theorem add_total_partial (lib : GoLib) (t : GTagsTree) (q : Str) (i : Int) (hk : HasKeys lib q) :
    ∃ t' r, t.add lib q i = .ok (t', r) := by
  obtain ⟨t', r, h, _⟩ := add_cases lib t q i hk
  exact ⟨t', r, h⟩

/-- A malformed query is refused with an error on every tree, without a panic and without a
change: every query that the parser refuses. -/
theorem malformed_refused (lib : GoLib) (t : GTagsTree) (q : Str) (i : Int) (hq : q ≠ []) (e : TagErr)
    (he : parseSeriesByTag lib q = .ok (.error e)) :
    ∃ r, t.add lib q i = .ok (t, r) ∧ r.err ≠ none := by
  unfold GTagsTree.add
  rw [if_neg hq]
  by_cases h1 : i < 0
  · rw [if_pos h1]; exact ⟨_, rfl, by simp⟩
  rw [if_neg h1]
  cases h2 : t.queries.get q with
  | some n => exact ⟨_, rfl, by simp⟩
  | none =>
    dsimp only
    cases h3 : t.queryIndex.get i with
    | some q => exact ⟨_, rfl, by simp⟩
    | none =>
      dsimp only
      rw [he, R.bind_ok]
      exact ⟨_, rfl, by simp⟩

/-- The parser itself answers on every byte string. -/
theorem parse_total (lib : GoLib) (q : Str) : ∃ r, parseSeriesByTag lib q = .ok r :=
  parseSeriesByTag_total lib q

example : HasKeys exLib (b!"seriesByTag('name=cpu', 'dc!=~m')") := by
  have := C25.queryHas_plain exLib (b!"seriesByTag('name=cpu', 'dc!=~m')") [b!"name=cpu", b!"dc!=~m"]
    (by decide +kernel) (by
      simp only [List.mem_cons, List.not_mem_nil, or_false, forall_eq_or_imp, forall_eq]
      exact ⟨⟨nameKey, .eq, b!"cpu", rfl, by decide, fun _ => by decide⟩,
        ⟨b!"dc", .nm, b!"m", rfl, by decide, by simp⟩⟩)
  exact fun ts h t ht => (this ts h t ht).1
example : ((match parseSeriesByTag exLib (b!"seriesByTag('a')") with
  | .ok (.error e) => some e | _ => none) = some (.exprInvalid (b!"a"))) := by decide +kernel

/-- Whether a run panics. -/
def panics {α : Type} : R α → Bool
  | .panic => true
  | _ => false

/-- The code violates the full claim: a condition whose key is a blank. -/
theorem empty_key_panics : panics (({} : GTagsTree).add exLib (b!"seriesByTag(' =x')") 0) = true := by
  decide +kernel

end C29

/-! ## C28 -/

namespace C28

/-- A refused `Add` (or one with the empty string) changes nothing. -/
theorem add_refused (lib : GoLib) (t t' : GTagsTree) (q : Str) (i : Int) (r : TAddRes)
    (h : t.add lib q i = .ok (t', r)) (hr : r.err ≠ none ∨ q = []) : t' = t := by
  unfold GTagsTree.add at h
  split at h
  · simp only [R.ok.injEq, Prod.mk.injEq] at h; exact h.1.symm
  rename_i h0
  have hr : r.err ≠ none := by rcases hr with h | h; exact h; exact absurd h h0
  split at h
  · simp only [R.ok.injEq, Prod.mk.injEq] at h; exact h.1.symm
  split at h
  · simp only [R.ok.injEq, Prod.mk.injEq] at h; exact h.1.symm
  split at h
  · simp only [R.ok.injEq, Prod.mk.injEq] at h; exact h.1.symm
  obtain ⟨p, hp, h⟩ := R.bind_eq_ok.1 h
  cases p with
  | error e => simp only [R.ok.injEq, Prod.mk.injEq] at h; exact h.1.symm
  | ok ts =>
    dsimp only at h
    split at h
    · simp only [R.ok.injEq, Prod.mk.injEq] at h; exact h.1.symm
    cases ts with
    | nil =>
      simp only [R.ok.injEq, Prod.mk.injEq] at h
      rw [← h.2] at hr; simp at hr
    | cons u us =>
      dsimp only at h
      obtain ⟨root, hr', h⟩ := R.bind_eq_ok.1 h
      simp only [R.ok.injEq, Prod.mk.injEq] at h
      rw [← h.2] at hr; simp at hr

/-- Which error `Add` reports for a non-empty query, in the order of the tests. -/
theorem add_error (lib : GoLib) (t t' : GTagsTree) (q : Str) (i : Int) (hq : q ≠ []) (r : TAddRes)
    (h : t.add lib q i = .ok (t', r)) :
    (r.err = some .indexInvalid ↔ i < 0) ∧
    (r.err = some .indexDup ↔ 0 ≤ i ∧ t.queries.get q = none ∧ t.queryIndex.get i ≠ none) ∧
    (∀ e, r.err = some (.parse e) ↔ 0 ≤ i ∧ t.queries.get q = none ∧ t.queryIndex.get i = none ∧
      parseSeriesByTag lib q = .ok (.error e)) ∧
    (r.err = some .globExist ↔ 0 ≤ i ∧ (t.queries.get q ≠ none ∨ t.queryIndex.get i = none ∧
      ∃ ts, parseSeriesByTag lib q = .ok (.ok ts) ∧ t.queries.get (termsText ts) ≠ none)) ∧
    (r.err = none ↔ 0 ≤ i ∧ t.queries.get q = none ∧ t.queryIndex.get i = none ∧
      ∃ ts, parseSeriesByTag lib q = .ok (.ok ts) ∧ t.queries.get (termsText ts) = none) := by
  simp only [GTagsTree.add] at h
  rw [if_neg hq] at h
  by_cases h1 : i < 0
  · rw [if_pos h1] at h
    simp only [R.ok.injEq, Prod.mk.injEq] at h
    have : ¬ 0 ≤ i := by omega
    simp [← h.2, h1, this]
  rw [if_neg h1] at h
  have h1' : 0 ≤ i := by omega
  cases h2 : t.queries.get q with
  | some n =>
    rw [h2] at h
    simp only [R.ok.injEq, Prod.mk.injEq] at h
    simp [← h.2, h1, h1']
  | none =>
    rw [h2] at h
    dsimp only at h
    cases h3 : t.queryIndex.get i with
    | some q =>
      rw [h3] at h
      simp only [R.ok.injEq, Prod.mk.injEq] at h
      simp [← h.2, h1, h1']
    | none =>
      rw [h3] at h
      dsimp only at h
      obtain ⟨pr, hpr⟩ := parseSeriesByTag_total lib q
      rw [hpr, R.bind_ok] at h
      cases pr with
      | error e =>
        simp only [R.ok.injEq, Prod.mk.injEq] at h
        simp [← h.2, h1, h1', hpr]
      | ok ts =>
        dsimp only at h
        cases h4 : t.queries.get (termsText ts) with
        | some n =>
          rw [h4] at h
          simp only [R.ok.injEq, Prod.mk.injEq] at h
          simp [← h.2, h1, h1', hpr, h4]
        | none =>
          rw [h4] at h
          have hr : r.err = none := by
            cases hts : ts with
            | nil =>
              subst hts
              simp only [R.ok.injEq, Prod.mk.injEq] at h
              rw [← h.2]
            | cons u us =>
              subst hts
              dsimp only at h
              obtain ⟨root, _, h⟩ := R.bind_eq_ok.1 h
              simp only [R.ok.injEq, Prod.mk.injEq] at h
              rw [← h.2]
          simp [hr, h1, h1', hpr, h4]

/-- An accepted `Add` binds the index and the normalised query to each other, records the written
query too, and leaves all other bindings alone. -/
theorem add_accepted (lib : GoLib) (t t' : GTagsTree) (q : Str) (i : Int) (hq : q ≠ []) (r : TAddRes)
    (h : t.add lib q i = .ok (t', r)) (he : r.err = none) :
    ∃ ts, parseSeriesByTag lib q = .ok (.ok ts) ∧ r.normalized = termsText ts ∧ r.n = i ∧
      t'.queries.get q = some i ∧ t'.queries.get (termsText ts) = some i ∧
      t'.queryIndex.get i = some (termsText ts) ∧
      (∀ s, s ≠ q → s ≠ termsText ts → t'.queries.get s = t.queries.get s) ∧
      (∀ j, j ≠ i → t'.queryIndex.get j = t.queryIndex.get j) := by
  obtain ⟨g1, g2, g3, ts, g4, g5⟩ := (add_error lib t t' q i hq r h).2.2.2.2.1 he
  simp only [GTagsTree.add] at h
  rw [if_neg hq, if_neg (by omega), g2] at h
  dsimp only at h
  rw [g3] at h
  dsimp only at h
  rw [g4, R.bind_ok] at h
  dsimp only at h
  rw [g5] at h
  have hb : t'.queries = (if termsText ts ≠ q then (t.queries.set q i).set (termsText ts) i
      else t.queries.set q i) ∧ t'.queryIndex = t.queryIndex.set i (termsText ts) ∧
      r.normalized = termsText ts ∧ r.n = i := by
    cases hts : ts with
    | nil =>
      subst hts
      simp only [R.ok.injEq, Prod.mk.injEq] at h
      obtain ⟨rfl, rfl⟩ := h
      exact ⟨rfl, rfl, rfl, rfl⟩
    | cons u us =>
      subst hts
      dsimp only at h
      obtain ⟨root, _, h⟩ := R.bind_eq_ok.1 h
      simp only [R.ok.injEq, Prod.mk.injEq] at h
      obtain ⟨rfl, rfl⟩ := h
      exact ⟨rfl, rfl, rfl, rfl⟩
  obtain ⟨b1, b2, b3, b4⟩ := hb
  refine ⟨ts, g4, b3, b4, ?_, ?_, ?_, ?_, ?_⟩
  · rw [b1]
    split <;> simp only [GoMap.get_set]
    · split <;> simp
    · simp
  · rw [b1]
    split
    · simp [GoMap.get_set]
    · rename_i hh
      have : termsText ts = q := Classical.byContradiction hh
      simp [GoMap.get_set, this]
  · rw [b2]; simp [GoMap.get_set]
  · intro s h1 h2
    rw [b1]
    split <;> simp only [GoMap.get_set]
    · rw [if_neg (fun h => h2 h.symm), if_neg (fun h => h1 h.symm)]
    · rw [if_neg (fun h => h1 h.symm)]
  · intro j hj
    rw [b2, GoMap.get_set, if_neg (fun h => hj h.symm)]

/-- `AddTerms`: a refused call (or one without terms) changes nothing, and the errors are those of the
tests. -/
theorem addTerms_refused (t t' : GTagsTree) (ts : List TTerm) (i : Int) (r : TAddRes)
    (h : t.addTerms ts i = .ok (t', r)) :
    (r.err ≠ none ∨ ts = [] → t' = t) ∧
    (ts ≠ [] → (r.err = some .indexInvalid ↔ i < 0) ∧
      (r.err = some .globExist ↔ 0 ≤ i ∧ t.queries.get (termsText ts) ≠ none) ∧
      (r.err = some .indexDup ↔ 0 ≤ i ∧ t.queries.get (termsText ts) = none ∧
        t.queryIndex.get i ≠ none)) := by
  unfold GTagsTree.addTerms at h
  cases ts with
  | nil => simp only [R.ok.injEq, Prod.mk.injEq] at h; simp [h.1]
  | cons u us =>
    dsimp only at h
    by_cases h1 : i < 0
    · rw [if_pos h1] at h
      simp only [R.ok.injEq, Prod.mk.injEq] at h
      have : ¬ 0 ≤ i := by omega
      simp [← h.2, h.1, h1, this]
    rw [if_neg h1] at h
    have h1' : 0 ≤ i := by omega
    cases h2 : t.queries.get (termsText (u :: us)) with
    | some n =>
      rw [h2] at h
      simp only [R.ok.injEq, Prod.mk.injEq] at h
      simp [← h.2, h.1, h1, h1']
    | none =>
      rw [h2] at h
      dsimp only at h
      cases h3 : t.queryIndex.get i with
      | some q =>
        rw [h3] at h
        simp only [R.ok.injEq, Prod.mk.injEq] at h
        simp [← h.2, h.1, h1, h1']
      | none =>
        rw [h3] at h
        dsimp only at h
        obtain ⟨root, _, h⟩ := R.bind_eq_ok.1 h
        simp only [R.ok.injEq, Prod.mk.injEq] at h
        simp [← h.2, h1, h1']

/-- An index is never bound again, whatever is called later. -/
theorem index_stable (lib : GoLib) (ops : List TOp) (t t' : GTagsTree) (j : Int) (s : Str)
    (h : runTOps lib t ops = .ok t') (hj : t.queryIndex.get j = some s) :
    t'.queryIndex.get j = some s := by
  induction ops generalizing t with
  | nil => simp only [runTOps, R.ok.injEq] at h; rw [← h]; exact hj
  | cons op ops ih =>
    rw [runTOps] at h
    obtain ⟨r, h1, h2⟩ := R.bind_eq_ok.1 h
    refine ih _ h2 ?_
    cases op with
    | add q i =>
      obtain ⟨t1, r⟩ := r
      simp only [TOp.apply] at h1
      by_cases hr : r.err ≠ none ∨ q = []
      · rw [add_refused lib t t1 q i r h1 hr]; exact hj
      · simp only [not_or, Decidable.not_not] at hr
        have h3 := (add_error lib t t1 q i hr.2 r h1).2.2.2.2.1 hr.1
        obtain ⟨ts, _, _, _, _, _, _, _, h4⟩ := add_accepted lib t t1 q i hr.2 r h1 hr.1
        dsimp only
        rw [h4 j, hj]
        rintro rfl
        rw [h3.2.2.1] at hj
        simp at hj
    | addTerms ts i =>
      simp only [TOp.apply, GTagsTree.addTerms] at h1
      cases ts with
      | nil => simp only [R.ok.injEq] at h1; rw [← h1]; exact hj
      | cons u us =>
        dsimp only at h1
        split at h1
        · simp only [R.ok.injEq] at h1; rw [← h1]; exact hj
        split at h1
        · simp only [R.ok.injEq] at h1; rw [← h1]; exact hj
        split at h1
        · simp only [R.ok.injEq] at h1; rw [← h1]; exact hj
        · rename_i h4
          obtain ⟨root, _, h1⟩ := R.bind_eq_ok.1 h1
          simp only [R.ok.injEq] at h1
          rw [← h1]
          dsimp only
          rw [GoMap.get_set]
          split
          · rename_i e; subst e; rw [h4] at hj; simp at hj
          · exact hj

/-- The books of a tree filled by `Add` alone: every index in use is bound to the normalised text of
the accepted query with this index, and this text to the index. -/
theorem books_partial (lib : GoLib) (adds : List (Str × Int)) (t : GTagsTree)
    (L : List (List TTerm × Int)) (h : runAdds lib {} [] adds = .ok (t, L)) :
    (∀ j s, t.queryIndex.get j = some s ↔ ∃ ts, (ts, j) ∈ L ∧ termsText ts = s) ∧
    (∀ x ∈ L, t.queries.get (termsText x.1) = some x.2) := by
  suffices key : ∀ (adds : List (Str × Int)) (t0 : GTagsTree) (L0 : List (List TTerm × Int)),
      (∀ j s, t0.queryIndex.get j = some s ↔ ∃ ts, (ts, j) ∈ L0 ∧ termsText ts = s) →
      (∀ x ∈ L0, t0.queries.get (termsText x.1) = some x.2) →
      runAdds lib t0 L0 adds = .ok (t, L) →
      (∀ j s, t.queryIndex.get j = some s ↔ ∃ ts, (ts, j) ∈ L ∧ termsText ts = s) ∧
      (∀ x ∈ L, t.queries.get (termsText x.1) = some x.2) from
    key adds {} [] (by simp [GoMap.get]) (by simp) h
  intro adds
  induction adds with
  | nil =>
    intro t0 L0 h1 h2 h
    simp only [runAdds, R.ok.injEq, Prod.mk.injEq] at h
    rw [← h.1, ← h.2]
    exact ⟨h1, h2⟩
  | cons a adds ih =>
    intro t0 L0 h1 h2 h
    rw [runAdds] at h
    obtain ⟨⟨t1, r⟩, e1, h⟩ := R.bind_eq_ok.1 h
    dsimp only at h
    by_cases hr : r.err ≠ none ∨ a.1 = []
    · have : tagAccepted lib a.1 a.2 r = [] := by
        unfold tagAccepted
        rw [if_pos]
        rcases hr with h | h
        · left; cases hh : r.err <;> simp_all
        · right; exact h
      rw [this, List.append_nil, add_refused lib t0 t1 a.1 a.2 r e1 hr] at h
      exact ih t0 L0 h1 h2 h
    · simp only [not_or, Decidable.not_not] at hr
      obtain ⟨k1, k2, k3, ts', k4, k5⟩ := (add_error lib t0 t1 a.1 a.2 hr.2 r e1).2.2.2.2.1 hr.1
      obtain ⟨ts, a1, _, _, _, a5, a6, a7, a8⟩ := add_accepted lib t0 t1 a.1 a.2 hr.2 r e1 hr.1
      rw [a1] at k4
      simp only [R.ok.injEq, Except.ok.injEq] at k4
      subst k4
      have : tagAccepted lib a.1 a.2 r = [(ts, a.2)] := by
        simp [tagAccepted, hr.1, hr.2, a1]
      rw [this] at h
      refine ih t1 _ ?_ ?_ h
      · intro j s
        by_cases hj : j = a.2
        · subst hj
          rw [a6]
          constructor
          · intro h; simp only [Option.some.injEq] at h; exact ⟨ts, by simp, h⟩
          · rintro ⟨g2, hg2, rfl⟩
            rcases List.mem_append.1 hg2 with h | h
            · have := (h1 a.2 (termsText g2)).2 ⟨g2, h, rfl⟩
              rw [k3] at this; simp at this
            · simp only [List.mem_singleton, Prod.mk.injEq] at h
              rw [h.1]
        · rw [a8 j hj, h1]
          constructor
          · rintro ⟨g2, hg2, e⟩; exact ⟨g2, by simp [hg2], e⟩
          · rintro ⟨g2, hg2, e⟩
            rcases List.mem_append.1 hg2 with h | h
            · exact ⟨g2, h, e⟩
            · simp only [List.mem_singleton, Prod.mk.injEq] at h
              exact absurd h.2 hj
      · intro x hx
        rcases List.mem_append.1 hx with hx | hx
        · have hx' := h2 x hx
          by_cases e : termsText x.1 = termsText ts
          · rw [e, k5] at hx'; simp at hx'
          · by_cases e2 : termsText x.1 = a.1
            · rw [e2, k2] at hx'; simp at hx'
            · rw [a7 _ e2 e]; exact hx'
        · rw [List.mem_singleton] at hx
          subst hx
          exact a5

/-- The accepted queries have pairwise different normalised texts and different indices. -/
theorem accepted_distinct (lib : GoLib) (adds : List (Str × Int)) (t : GTagsTree)
    (L : List (List TTerm × Int)) (h : runAdds lib {} [] adds = .ok (t, L)) :
    L.Pairwise fun x y => termsText x.1 ≠ termsText y.1 ∧ x.2 ≠ y.2 := by
  suffices key : ∀ (adds : List (Str × Int)) (t0 : GTagsTree) (L0 : List (List TTerm × Int)),
      (∀ x ∈ L0, t0.queries.get (termsText x.1) ≠ none ∧ t0.queryIndex.get x.2 ≠ none) →
      L0.Pairwise (fun x y => termsText x.1 ≠ termsText y.1 ∧ x.2 ≠ y.2) →
      runAdds lib t0 L0 adds = .ok (t, L) →
      L.Pairwise fun x y => termsText x.1 ≠ termsText y.1 ∧ x.2 ≠ y.2 from
    key adds {} [] (by simp) List.Pairwise.nil h
  intro adds
  induction adds with
  | nil =>
    intro t0 L0 _ h2 h
    simp only [runAdds, R.ok.injEq, Prod.mk.injEq] at h
    rw [← h.2]; exact h2
  | cons a adds ih =>
    intro t0 L0 h1 h2 h
    rw [runAdds] at h
    obtain ⟨⟨t1, r⟩, e1, h⟩ := R.bind_eq_ok.1 h
    dsimp only at h
    by_cases hr : r.err ≠ none ∨ a.1 = []
    · have : tagAccepted lib a.1 a.2 r = [] := by
        unfold tagAccepted
        rw [if_pos]
        rcases hr with h | h
        · left; cases hh : r.err <;> simp_all
        · right; exact h
      rw [this, List.append_nil, add_refused lib t0 t1 a.1 a.2 r e1 hr] at h
      exact ih t0 L0 h1 h2 h
    · simp only [not_or, Decidable.not_not] at hr
      obtain ⟨k1, k2, k3, ts', k4, k5⟩ := (add_error lib t0 t1 a.1 a.2 hr.2 r e1).2.2.2.2.1 hr.1
      obtain ⟨ts, a1, _, _, _, a5, a6, a7, a8⟩ := add_accepted lib t0 t1 a.1 a.2 hr.2 r e1 hr.1
      rw [a1] at k4
      simp only [R.ok.injEq, Except.ok.injEq] at k4
      subst k4
      have : tagAccepted lib a.1 a.2 r = [(ts, a.2)] := by
        simp [tagAccepted, hr.1, hr.2, a1]
      rw [this] at h
      have hdiff : ∀ x ∈ L0, termsText x.1 ≠ termsText ts ∧ x.2 ≠ a.2 := by
        intro x hx
        obtain ⟨y1, y2⟩ := h1 x hx
        exact ⟨fun e => y1 (e ▸ k5), fun e => y2 (e ▸ k3)⟩
      refine ih t1 _ ?_ ?_ h
      · intro x hx
        rcases List.mem_append.1 hx with hx | hx
        · obtain ⟨d1, d2⟩ := hdiff x hx
          obtain ⟨y1, y2⟩ := h1 x hx
          refine ⟨?_, by rw [a8 _ d2]; exact y2⟩
          by_cases e2 : termsText x.1 = a.1
          · rw [e2, k2] at y1; simp at y1
          · rw [a7 _ e2 d1]; exact y1
        · rw [List.mem_singleton] at hx
          subst hx
          simp [a5, a6]
      · rw [List.pairwise_append]
        refine ⟨h2, by simp, ?_⟩
        intro x hx y hy
        rw [List.mem_singleton] at hy
        subst hy
        exact hdiff x hx

/-- The answers of two calls in a row. -/
def twoAdds (q1 : Str) (i1 : Int) (q2 : Str) (i2 : Int) : R (TAddRes × TAddRes) := do
  let a ← ({} : GTagsTree).add exLib q1 i1
  let b ← a.1.add exLib q2 i2
  .ok (a.2, b.2)

example : twoAdds (b!"seriesByTag('b=x', 'a=y')") 3 (b!"seriesByTag('a=y','b=x')") 4 =
    .ok ({ normalized := b!"seriesByTag('a=y','b=x')", n := 3 },
      { normalized := b!"seriesByTag('a=y','b=x')", n := 3, err := some .globExist }) := by
  decide +kernel
example : twoAdds (b!"seriesByTag('b=x')") 3 (b!"seriesByTag('a=y')") 3 =
    .ok ({ normalized := b!"seriesByTag('b=x')", n := 3 },
      { normalized := b!"seriesByTag('b=x')", err := some .indexDup }) := by decide +kernel

/-- The answer of `AddTerms` for one query on an empty tree, the text recorded for the index, and
the number of queries the tree then reports. -/
def termsReport (q : Str) (i : Int) (tags : GoMap Str Str) :
    Option (TAddRes × Option Str × Nat) :=
  match parseSeriesByTag exLib q with
  | .ok (.ok ts) =>
    match ({} : GTagsTree).addTerms ts i with
    | .ok (t, r) =>
      match t.matchByTagsMap exLib tags with
      | .ok e => some (r, t.queryIndex.get i, e.2)
      | _ => none
    | _ => none
  | _ => none

/-- The code violates the full claim: a query given to `AddTerms` is accepted, recorded under the
empty text, and never reported; the same query given to `Add` is reported. -/
theorem addTerms_wrong :
    termsReport (b!"seriesByTag('a=x')") 1 [(b!"a", b!"x")] = some ({ n := 1 }, some [], 0) ∧
    C25.reportMap [(b!"seriesByTag('a=x')", 1)] [(b!"a", b!"x")] =
      some ([(b!"seriesByTag('a=x')", 1)], 1) := ⟨by decide +kernel, by decide +kernel⟩

/-- What remains true of an accepted `AddTerms`: the index is in use afterwards, all other
bindings but that of the empty text stay.  Full statement: it binds index and normalised text
and matches like `Add`; see `addTerms_wrong`. -/
theorem addTerms_accepted_partial (t t' : GTagsTree) (ts : List TTerm) (i : Int) (r : TAddRes)
    (h : t.addTerms ts i = .ok (t', r)) (hts : ts ≠ []) (he : r.err = none) :
    r.n = i ∧ t'.queryIndex.get i ≠ none ∧
    (∀ s, s ≠ [] → t'.queries.get s = t.queries.get s) ∧
    (∀ j, j ≠ i → t'.queryIndex.get j = t.queryIndex.get j) := by
  unfold GTagsTree.addTerms at h
  cases ts with
  | nil => exact absurd rfl hts
  | cons u us =>
    dsimp only at h
    split at h
    · simp only [R.ok.injEq, Prod.mk.injEq] at h; rw [← h.2] at he; simp at he
    split at h
    · simp only [R.ok.injEq, Prod.mk.injEq] at h; rw [← h.2] at he; simp at he
    split at h
    · simp only [R.ok.injEq, Prod.mk.injEq] at h; rw [← h.2] at he; simp at he
    obtain ⟨root, _, h⟩ := R.bind_eq_ok.1 h
    simp only [R.ok.injEq, Prod.mk.injEq] at h
    obtain ⟨rfl, rfl⟩ := h
    refine ⟨rfl, by simp [GoMap.get_set], ?_, ?_⟩
    · intro s hs
      simp only [GoMap.get_set]
      rw [if_neg (fun h => hs h.symm)]
    · intro j hj
      simp only [GoMap.get_set]
      rw [if_neg (fun h => hj h.symm)]

end C28

end GoMatcher
