import Verif.Props.C57_Order
import Verif.Props.C59_TagOrder
import Verif.Props.C63_Grows
import Verif.Proofs.LitLen

/-! # C64: A tree with one query reports it exactly when the query itself matches -/

namespace GoMatcher
namespace C64

/-- What a search with one query makes of its answer. -/
def report (e : Str × Int) (b : Bool) : Events × Nat := if b then ([e], 1) else ([], 0)

/-- The descent into an empty list of groups. -/
theorem parseItems_nil {e : Option (Str × Int)} {t : TTerm} {ts : List TTerm} {gs : List TGroup}
    (h : parseItems e (t :: ts) [] = .ok gs) :
    ∃ c, TItem.descend ts.isEmpty e (parseItems e ts) (.node t none []) = .ok c ∧
      gs = if t.op.isMatched then [(t.key, [], [c])] else [(t.key, [c], [])] := by
  rw [parseItems, findOrAppend] at h
  by_cases hk : t.key = []
  · rw [if_pos hk, R.bind_ok] at h
    cases h
  · rw [if_neg hk, R.bind_ok] at h
    dsimp only [List.getElem?_cons_zero] at h
    by_cases hm : t.op.isMatched = true
    · rw [if_pos hm, insertTerm] at h
      obtain ⟨m, h1, h2⟩ := R.bind_eq_ok.1 h
      obtain ⟨c, h3, h4⟩ := R.bind_eq_ok.1 h1
      cases h4
      cases h2
      exact ⟨c, h3, by rw [if_pos hm]; rfl⟩
    · rw [if_neg hm, insertTerm] at h
      obtain ⟨m, h1, h2⟩ := R.bind_eq_ok.1 h
      obtain ⟨c, h3, h4⟩ := R.bind_eq_ok.1 h1
      cases h4
      cases h2
      exact ⟨c, h3, by rw [if_neg hm]; rfl⟩

theorem link_map (lib : GoLib) (tags : GoMap Str Str) (t : TTerm) (fin : Option (Str × Int)) (gs : List TGroup) :
    groupsMap lib tags (if t.op.isMatched then [(t.key, [], [.node t fin gs])]
      else [(t.key, [.node t fin gs], [])]) =
    match tags.get t.key with
    | some v => whenR (t.matches lib v) (addR (.ok (storeFin fin)) (groupsMap lib tags gs))
    | none => if t.op.isMatched then .ok ([], 0) else addR (.ok (storeFin fin)) (groupsMap lib tags gs) := by
  by_cases hm : t.op.isMatched = true
  · rw [if_pos hm, groupsMap, groupsMap, addR_nothing]
    cases tags.get t.key with
    | some v =>
      dsimp only
      rw [childsMap, childsMap, childsMap, addR_nothing, addR_nothing, childMap]
      rfl
    | none => dsimp only; rw [childsMap, if_pos hm]
  · rw [if_neg hm, groupsMap, groupsMap, addR_nothing]
    cases tags.get t.key with
    | some v =>
      dsimp only
      rw [childsMap, childsMap, childsMap, addR_nothing, nothing_addR, childMap]
      rfl
    | none =>
      dsimp only
      rw [childsMap, childsMap, addR_nothing, childMap, if_neg hm]
      rfl

theorem chain_map (lib : GoLib) (tags : GoMap Str Str) (e : Str × Int) (ts : List TTerm) :
    ∀ (t : TTerm) (gs : List TGroup), parseItems (some e) (t :: ts) [] = .ok gs →
      groupsMap lib tags gs = matchByTagsMap lib (t :: ts) tags >>= fun b => .ok (report e b) := by
  have hop : ∀ t : TTerm, (t.op ≠ .ne ∧ t.op ≠ .nm) ↔ t.op.isMatched = true := by
    intro t; cases t.op <;> simp [TagOp.isMatched]
  have key : ∀ (t : TTerm) (ts : List TTerm) (a : R (Events × Nat)),
      a = matchByTagsMap lib ts tags >>= (fun b => .ok (report e b)) →
      (match tags.get t.key with
        | some v => whenR (t.matches lib v) a
        | none => if t.op.isMatched then .ok ([], 0) else a) =
      matchByTagsMap lib (t :: ts) tags >>= fun b => .ok (report e b) := by
    intro t ts a ha
    rw [matchByTagsMap]
    cases tags.get t.key with
    | some v =>
      dsimp only
      cases t.matches lib v with
      | ok b => cases b <;> simp [whenR, R.bind_ok, report, ha]
      | panic => rfl
      | timeout => rfl
    | none =>
      dsimp only
      by_cases hm : t.op.isMatched = true
      · rw [if_pos hm, if_pos ((hop t).2 hm)]; rfl
      · rw [if_neg hm, if_neg (fun h => hm ((hop t).1 h)), ha]
  induction ts with
  | nil =>
    intro t gs h
    obtain ⟨c, h1, rfl⟩ := parseItems_nil h
    have hc : c = .node t (some e) [] := by
      simpa [TItem.descend, TItem.finish, eq_comm] using h1
    subst hc
    rw [link_map, ← key t [] _ rfl]
    rw [groupsMap, addR_nothing]
    rfl
  | cons u us ih =>
    intro t gs h
    obtain ⟨c, h1, rfl⟩ := parseItems_nil h
    rw [TItem.descend] at h1
    obtain ⟨gs', h2, h3⟩ := R.bind_eq_ok.1 h1
    cases h3
    rw [← key t (u :: us) _ rfl, ← ih u gs' h2]
    change groupsMap lib tags (if t.op.isMatched then [(t.key, [], [.node t none gs'])]
      else [(t.key, [.node t none gs'], [])]) = _
    rw [link_map]
    change (match tags.get t.key with
      | some v => whenR (t.matches lib v) (addR (.ok ([], 0)) (groupsMap lib tags gs'))
      | none => if t.op.isMatched then .ok ([], 0) else addR (.ok ([], 0)) (groupsMap lib tags gs')) = _
    rw [nothing_addR]

/-- The tree after one accepted call of `Add`. -/
theorem one_query (lib : GoLib) (q : Str) (i : Int) (t : GTagsTree) (res : TAddRes) (hq : q ≠ [])
    (h : ({} : GTagsTree).add lib q i = .ok (t, res)) (he : res.err = none) :
    ∃ ts, parseSeriesByTag lib q = .ok (.ok ts) ∧ res.normalized = termsText ts ∧
      (ts ≠ [] → t.fin = none ∧ parseItems (some (termsText ts, i)) ts [] = .ok t.root) ∧
      (ts = [] → t.fin = some (termsText ts, i) ∧ t.root = []) := by
  unfold GTagsTree.add at h
  rw [if_neg hq] at h
  by_cases hi : i < 0
  · rw [if_pos hi] at h; cases h; cases he
  rw [if_neg hi] at h
  have g1 : ∀ x : Str, ({} : GTagsTree).queries.get x = none := fun _ => rfl
  have g2 : ({} : GTagsTree).queryIndex.get i = none := rfl
  rw [g1, g2] at h
  dsimp only at h
  obtain ⟨r, hr, h⟩ := R.bind_eq_ok.1 h
  cases r with
  | error e => cases h; cases he
  | ok ts =>
    refine ⟨ts, hr, ?_⟩
    cases ts with
    | nil => cases h; exact ⟨rfl, fun hn => absurd rfl hn, fun _ => ⟨rfl, rfl⟩⟩
    | cons u us =>
      obtain ⟨root, hroot, h⟩ := R.bind_eq_ok.1 h
      cases h
      exact ⟨rfl, fun _ => ⟨rfl, hroot⟩, fun hn => by cases hn⟩

/-- Full statement (not true of the code): the report agrees with the query's own answer for all tags.
Here: for a query with conditions and at least one tag.  Any query text, any keys, any library; panics and
all.  Missing: the query without conditions, which matches every series by itself and is never reported by
`MatchByTagsMap` (`no_conditions_wrong`), and the series without tags (`no_tags_wrong`). -/
theorem tags_map_partial (lib : GoLib) (q : Str) (i : Int) (t : GTagsTree) (res : TAddRes) (hq : q ≠ [])
    (h : ({} : GTagsTree).add lib q i = .ok (t, res)) (he : res.err = none) :
    ∃ ts, parseSeriesByTag lib q = .ok (.ok ts) ∧
      (ts ≠ [] → ∀ tags : GoMap Str Str, tags ≠ [] → t.matchByTagsMap lib tags =
        matchByTagsMap lib ts tags >>= fun b => .ok (if b then ([(res.normalized, i)], 1) else ([], 0))) ∧
      (ts = [] → ∀ tags : GoMap Str Str, t.matchByTagsMap lib tags = .ok ([], 0)) := by
  obtain ⟨ts, h1, h2, h3, h4⟩ := one_query lib q i t res hq h he
  refine ⟨ts, h1, fun hne tags ht => ?_, fun hn tags => ?_⟩
  · unfold GTagsTree.matchByTagsMap
    rw [if_neg (by simpa using ht), h2]
    cases ts with
    | nil => exact absurd rfl hne
    | cons u us => exact chain_map lib tags _ us u t.root (h3 hne).2
  · unfold GTagsTree.matchByTagsMap
    split
    · rfl
    · rw [(h4 hn).2]; exact groupsMap.eq_1 ..

/-- The slice search on tags in order of keys: the same, with the query without conditions stored (once,
for any tags) and not counted.  `tagsMap` is the map with these tags. -/
theorem tags_slice_partial (lib : GoLib) (q : Str) (i : Int) (t : GTagsTree) (res : TAddRes) (hq : q ≠ [])
    (h : ({} : GTagsTree).add lib q i = .ok (t, res)) (he : res.err = none) (tags : List Tag)
    (hs : TagsSorted tags) :
    ∃ ts, parseSeriesByTag lib q = .ok (.ok ts) ∧
      (ts ≠ [] → tags ≠ [] → t.matchByTags lib tags =
        matchByTagsMap lib ts (tagsMap tags) >>= fun b =>
          .ok (if b then ([(res.normalized, i)], 1) else ([], 0))) ∧
      (ts = [] → t.matchByTags lib tags = .ok ([(b!"seriesByTag()", i)], 0)) := by
  obtain ⟨ts, h1, h2, h3, h4⟩ := one_query lib q i t res hq h he
  obtain ⟨ts', h1', h5, h6⟩ := tags_map_partial lib q i t res hq h he
  rw [h1] at h1'
  cases h1'
  have hr : runTOps lib {} [.add q i] = .ok t := by
    rw [runTOps, TOp.apply, h, R.bind_ok, runTOps]
  have e1 : t.matchByTags lib tags = (do
      let r ← t.matchByTagsMap lib (tagsMap tags)
      .ok (t.fin.toList ++ r.1, r.2)) := by
    rw [C26.slice_vs_map lib _ t hr tags hs]; cases t.fin <;> rfl
  refine ⟨ts, h1, fun hne ht => ?_, fun hn => ?_⟩
  · rw [e1, (h3 hne).1, h5 hne _ (by
      intro e0
      have := (tagsMap_length tags).1 (by rw [e0]; rfl)
      exact ht (List.length_eq_zero_iff.1 this))]
    cases matchByTagsMap lib ts (tagsMap tags) with
    | ok b => cases b <;> rfl
    | panic => rfl
    | timeout => rfl
  · rw [e1, h6 hn, (h4 hn).1, hn]; rfl

/-! ## Dotted globs -/

/-- One part of a tree that has only this one. -/
theorem link_parts (e : Str × Int) (g : Glob) (gs : List Glob)
    (hg : (∃ s, parseGlob s = .ok (.ok g)) ∧ (g.items = [] → g.node ≠ [42])) (i : Option Glob) (p : Str)
    (ps : List Str) :
    ((GTree.leaf i).insert (g :: gs) e).matchByParts (p :: ps) = (do
      if ← g.matches p then visitParts ps ((GTree.leaf (some g)).insert gs e) else .ok ([], 0)) := by
  obtain ⟨⟨s, hs⟩, h2⟩ := hg
  rw [GTree.leaf, GTree.insert]
  by_cases hi : g.items = []
  · rw [if_pos (by simp [hi]), literal_matches hs hi (h2 hi), R.bind_ok]
    rw [GTree.matchByParts, insertMap, mapParts, childParts, mapParts]
    change addR _ (.ok ([], 0)) = _
    rw [addR_nothing]
    by_cases hn : g.node = p
    · rw [if_pos hn, decide_eq_true hn, if_pos rfl]; rfl
    · rw [if_neg hn, decide_eq_false hn]; rfl
  · rw [if_neg (by simpa using hi)]
    rw [GTree.matchByParts, insertChilds, childParts_cons, childParts, mapParts]
    change addR (.ok ([], 0)) (addR _ (.ok ([], 0))) = _
    rw [nothing_addR, addR_nothing, tryChild, GTree.itemMatches, insert_item]
    rfl

theorem chain_parts (e : Str × Int) (gs : List Glob) :
    ∀ (g : Glob), (∀ x ∈ g :: gs, (∃ s, parseGlob s = .ok (.ok x)) ∧ (x.items = [] → x.node ≠ [42])) →
      ∀ (i : Option Glob) (p : Str) (ps : List Str), gs.length = ps.length →
      ((GTree.leaf i).insert (g :: gs) e).matchByParts (p :: ps) =
        ggPartsLoop (g :: gs) (p :: ps) >>= fun b => .ok (report e b) := by
  induction gs with
  | nil =>
    intro g hg i p ps hl
    cases ps with
    | cons _ _ => cases hl
    | nil =>
      rw [link_parts e g [] (hg g (by simp)), ggPartsLoop]
      cases g.matches p with
      | ok b => cases b <;> rfl
      | panic => rfl
      | timeout => rfl
  | cons g' gs ih =>
    intro g hg i p ps hl
    cases ps with
    | nil => cases hl
    | cons p' ps =>
      rw [link_parts e g _ (hg g (by simp)), ggPartsLoop]
      cases g.matches p with
      | ok b =>
        cases b with
        | false => rfl
        | true =>
          rw [R.bind_ok, R.bind_ok, if_pos rfl, if_pos rfl, visitParts, if_neg (by simp)]
          exact ih g' (fun x hx => hg x (by simp_all)) _ p' ps (by simpa using hl)
      | panic => rfl
      | timeout => rfl

/-- Full statement (not true of the code): for every accepted text, the report agrees with the glob's own
answer.  Here: for every text none of whose parts is a class of one star (`literal_star_wrong`), and the
answer of `MatchByParts` with the length tests switched off (`dots_wrong` otherwise).  Any bytes; panics and
all. -/
theorem gglob_parts_partial (s : Str) (i : Int) (t : GGlobTree) (res : AddRes) (hs : s ≠ [])
    (h : ({} : GGlobTree).add s i = .ok (t, res)) (he : res.err = none) :
    ∃ g, parseGGlob s = .ok (.ok g) ∧ res.normalized = g.node ∧
      ((∀ x ∈ g.parts, x.items = [] → x.node ≠ b!"*") →
        (∀ ps, t.matchByParts ps =
          g.matchByParts ps 0 >>= fun b => .ok (if b then ([(g.node, i)], 1) else ([], 0))) ∧
        ∀ path, (∀ p ∈ pathSplit path, p ≠ []) → t.matches path =
          g.matchByParts (pathSplit path) 0 >>= fun b => .ok (if b then ([(g.node, i)], 1) else ([], 0))) := by
  have h0 := h
  unfold GGlobTree.add at h
  rw [if_neg hs] at h
  by_cases hi : i < 0
  · rw [if_pos hi] at h; cases h; cases he
  rw [if_neg hi] at h
  have g1 : ∀ x : Str, ({} : GGlobTree).globs.get x = none := fun _ => rfl
  have g2 : ({} : GGlobTree).globsIndex.get i = none := rfl
  rw [g1, g2] at h
  dsimp only at h
  obtain ⟨r, hr, h⟩ := R.bind_eq_ok.1 h
  cases r with
  | error e => cases h; cases he
  | ok g =>
    cases h
    refine ⟨g, hr, rfl, fun hstar => ?_⟩
    have key : ∀ ps, GGlobTree.matchByParts
        { root := addGGlob ({} : GGlobTree).root g i
          globs := (({} : GGlobTree).globs.set s i).set g.node i
          globsIndex := ({} : GGlobTree).globsIndex.set i g.node } ps =
          g.matchByParts ps 0 >>= fun b => .ok (if b then ([(g.node, i)], 1) else ([], 0)) := by
      intro ps
      rw [gg_byParts_eq]
      unfold GGlobTree.matchByParts
      by_cases hp : ps = []
      · rw [if_pos (by simp [hp]), if_neg (by simp [hp])]; rfl
      rw [if_neg (by simpa using hp)]
      have hroot : (addGGlob ({} : GGlobTree).root g i).get ps.length =
          if g.parts.length = ps.length then some ((GTree.leaf none).insert g.parts (g.node, i)) else none := by
        rw [addGGlob, GoMap.get_set]; rfl
      rw [hroot]
      by_cases hl : g.parts.length = ps.length
      · rw [if_pos hl, if_pos ⟨hp, hl, fun h => by omega⟩]
        cases ps with
        | nil => exact absurd rfl hp
        | cons p ps =>
          cases hg : g.parts with
          | nil => rw [hg] at hl; cases hl
          | cons x xs =>
            rw [hg] at hl
            exact chain_parts (g.node, i) xs x (fun y hy =>
              ⟨⟨_, C57.part_parsed hr y (by rw [hg]; exact hy)⟩, hstar y (by rw [hg]; exact hy)⟩) none p ps (by simpa using hl)
      · rw [if_neg hl, if_neg (fun h => hl h.2.1)]; rfl
    refine ⟨key, fun path hne => ?_⟩
    obtain ⟨t', L, h1, h2⟩ := C14.match_eq_byParts [.add s i] (by simp [GOp.Parsed])
    have h3 : runOps {} [] [.add s i] = .ok (t', L) := h1
    rw [runOps, GOp.apply, h0, R.bind_ok, runOps] at h3
    cases h3
    rw [h2 path hne]
    exact key _

/-! ## Many dotted globs -/

theorem loop_true (gs : List Glob) (ps : List Str) (hl : gs.length = ps.length) :
    ggPartsLoop gs ps = .ok true ↔
      ∀ (k : Nat) (a : Glob) (p : Str), gs[k]? = some a → ps[k]? = some p → a.matches p = .ok true := by
  induction gs generalizing ps with
  | nil =>
    cases ps with
    | cons _ _ => cases hl
    | nil => simp [ggPartsLoop]
  | cons g gs ih =>
    cases ps with
    | nil => cases hl
    | cons p ps =>
      rw [ggPartsLoop]
      constructor
      · intro h
        obtain ⟨m, h1, h2⟩ := R.bind_eq_ok.1 h
        cases m with
        | false => cases h2
        | true =>
          intro k a q ha hq
          cases k with
          | zero => cases ha; cases hq; exact h1
          | succ k => exact (ih ps (by simpa using hl)).1 h2 k a q (by simpa using ha) (by simpa using hq)
      · intro h
        rw [h 0 g p rfl rfl, R.bind_ok, if_pos rfl]
        exact (ih ps (by simpa using hl)).2 fun k a q ha hq => h (k + 1) a q (by simpa using ha) (by simpa using hq)

theorem loop_ok (gs : List Glob) (ps : List Str) (hl : gs.length = ps.length) :
    (∃ b, ggPartsLoop gs ps = .ok b) ↔
      ∀ (k : Nat) (a : Glob) (p : Str),
        (∀ (j : Nat) (b : Glob) (q : Str), j < k → gs[j]? = some b → ps[j]? = some q → b.matches q = .ok true) →
        gs[k]? = some a → ps[k]? = some p → ∃ v, a.matches p = .ok v := by
  induction gs generalizing ps with
  | nil =>
    cases ps with
    | cons _ _ => cases hl
    | nil => simp [ggPartsLoop]
  | cons g gs ih =>
    cases ps with
    | nil => cases hl
    | cons p ps =>
      rw [ggPartsLoop]
      constructor
      · rintro ⟨b, h⟩ k a q hj ha hq
        obtain ⟨m, h1, h2⟩ := R.bind_eq_ok.1 h
        cases k with
        | zero => cases ha; cases hq; exact ⟨m, h1⟩
        | succ k =>
          cases m with
          | false =>
            have := hj 0 g p (by omega) rfl rfl
            rw [h1] at this; cases this
          | true =>
            refine (ih ps (by simpa using hl)).1 ⟨b, h2⟩ k a q ?_ (by simpa using ha) (by simpa using hq)
            intro j c r hjk hc hr
            exact hj (j + 1) c r (by omega) (by simpa using hc) (by simpa using hr)
      · intro h
        obtain ⟨v, hv⟩ := h 0 g p (by intro j _ _ hj; omega) rfl rfl
        rw [hv, R.bind_ok]
        cases v with
        | false => exact ⟨false, rfl⟩
        | true =>
          rw [if_pos rfl]
          refine (ih ps (by simpa using hl)).2 fun k a q hj ha hq => ?_
          refine h (k + 1) a q ?_ (by simpa using ha) (by simpa using hq)
          intro j c r hjk hc hr
          cases j with
          | zero => cases hc; cases hr; exact hv
          | succ j => exact hj j c r (by omega) (by simpa using hc) (by simpa using hr)

/-- Full statement (not true of the code): after any calls, whatever the texts, each accepted glob is
reported exactly if it matches by itself.  Here: if no part is a class of one star (`literal_star_wrong`)
and wild parts with the same normal form are written the same (`C13.same_node_wrong`).  Any bytes; the
search returns exactly if every glob by itself gives an answer. -/
theorem gglob_many_partial (ops : List GOp) (hp : ∀ op ∈ ops, op.Parsed) :
    ∃ t L, runTree ops = .ok (t, L) ∧
      ((∀ x ∈ L, ∀ a ∈ x.1.parts, a.items = [] → a.node ≠ b!"*") →
       (∀ x ∈ L, ∀ y ∈ L, ∀ a ∈ x.1.parts, ∀ b ∈ y.1.parts, a.items ≠ [] → b.items ≠ [] →
         a.node = b.node → a.glob = b.glob) →
       ∀ ps, ((∃ r, t.matchByParts ps = .ok r) ↔ ∀ x ∈ L, ∃ b, x.1.matchByParts ps 0 = .ok b) ∧
         ∀ r, t.matchByParts ps = .ok r → r.2 = r.1.length ∧
           r.1.Perm ((L.filter fun x => decide (x.1.matchByParts ps 0 = .ok true)).map
             fun x => (x.1.node, x.2))) := by
  obtain ⟨t, L, hr, hI⟩ := runOps_exact ops hp {} [] exactInv_empty
  refine ⟨t, L, hr, fun hstar hsame ps => ?_⟩
  have hs : C57.Spelled L := fun x hx y hy a ha b hb h1 h2 h3 =>
    hsame x hx y hy a ha b hb (by simpa using h1) (by simpa using h2) h3
  have hpar : ∀ x ∈ L, ∀ a ∈ x.1.parts, parseGlob a.glob = .ok (.ok a) := by
    intro x hx a ha
    obtain ⟨s, h1⟩ := hI.parsed x hx
    exact C57.part_parsed h1 a ha
  have hfit : ∀ x ∈ L, ∀ a ∈ x.1.parts, ∀ p, C57.Fits a p ↔ a.matches p = .ok true := by
    intro x hx a ha p
    unfold C57.Fits
    by_cases h0 : a.items = []
    · rw [if_pos (by simp [h0]), literal_matches (hpar x hx a ha) h0 (hstar x hx a ha h0)]
      simp
    · rw [if_neg (by simpa using h0)]
  by_cases hps : ps = []
  · subst hps
    have e : ∀ x : GGlob, x.matchByParts [] 0 = .ok false := fun _ => rfl
    have e' : t.matchByParts [] = .ok ([], 0) := rfl
    refine ⟨⟨fun _ x _ => ⟨_, e _⟩, fun _ => ⟨_, e'⟩⟩, ?_⟩
    intro r h
    rw [e'] at h
    cases h
    refine ⟨rfl, ?_⟩
    rw [List.filter_eq_nil_iff.2 (by intro x _; rw [e]; decide)]
    exact List.Perm.refl _
  have hby : ∀ x : GGlob, x.matchByParts ps 0 =
      if x.parts.length = ps.length then ggPartsLoop x.parts ps else .ok false := by
    intro x
    rw [gg_byParts_eq]
    by_cases hl : x.parts.length = ps.length
    · rw [if_pos ⟨hps, hl, fun h => by omega⟩, if_pos hl]
    · rw [if_neg (fun h => hl h.2.1), if_neg hl]
  have hmem : ∀ {l : List Glob} {k : Nat} {a : Glob}, l[k]? = some a → a ∈ l := fun h => List.mem_of_getElem? h
  constructor
  · obtain ⟨t1, L1, e1, h1⟩ := C13.byParts_returns_iff ops hp
    have hr' : runTree ops = .ok (t, L) := hr
    rw [hr'] at e1
    cases e1
    rw [h1 ps hps, C57.answers_own hs hpar]
    refine forall_congr' fun x => imp_congr_right fun hx => ?_
    rw [hby]
    by_cases hl : x.1.parts.length = ps.length
    · rw [if_pos hl, loop_ok _ _ hl]
      constructor
      · intro h k a p hj ha hq
        by_cases h0 : a.items = []
        · exact ⟨_, literal_matches (hpar x hx a (hmem ha)) h0 (hstar x hx a (hmem ha) h0) p⟩
        · exact h hl k a p (fun j b q hjk hb hq' => (hfit x hx b (hmem hb) q).2 (hj j b q hjk hb hq')) ha hq
            (by simpa using h0)
      · intro h _ k a p hj ha hq _
        exact h k a p (fun j b q hjk hb hq' => (hfit x hx b (hmem hb) q).1 (hj j b q hjk hb hq')) ha hq
    · rw [if_neg hl]
      exact ⟨fun _ => ⟨_, rfl⟩, fun _ h => absurd h hl⟩
  · intro r h
    obtain ⟨t1, L1, e1, h1⟩ := C13.byParts_exact ops hp
    have hr' : runTree ops = .ok (t, L) := hr
    rw [hr'] at e1
    cases e1
    obtain ⟨h2, h3⟩ := h1 ps r hps h
    refine ⟨h2, h3.trans (List.Perm.of_eq ?_)⟩
    congr 1
    apply List.filter_congr
    intro x hx
    apply decide_eq_decide.2
    rw [C57.reported_own hs hpar hx, hby]
    by_cases hl : x.1.parts.length = ps.length
    · rw [if_pos hl, loop_true _ _ hl]
      constructor
      · intro h k a p ha hq
        exact (hfit x hx a (hmem ha) p).1 (h.2 k a p ha hq)
      · intro h
        exact ⟨hl, fun k a p ha hq => (hfit x hx a (hmem ha) p).2 (h k a p ha hq)⟩
    · rw [if_neg hl]
      exact ⟨fun h => absurd h.1 hl, fun h => by cases h⟩

/-! ## Many queries -/

/-- Full statement (not true of the code): after any calls, for all tags, each accepted query is reported
exactly if it matches by itself.  Here: if every condition has a key (`C25.empty_key_wrong`), conditions
with the same key, operator and stored text compare alike (`C25.shared_term_wrong`), and there is at least
one tag (`no_tags_wrong`); the query without conditions is not reported (`no_conditions_wrong`).  The search
returns exactly if every query by itself gives an answer. -/
theorem tags_many_partial (lib : GoLib) (adds : List (Str × Int)) (hk : ∀ a ∈ adds, HasKeys lib a.1) :
    ∃ t L, runAdds lib {} [] adds = .ok (t, L) ∧ ∀ tags : GoMap Str Str, tags ≠ [] →
      (∀ x ∈ L, ∀ y ∈ L, ∀ a ∈ x.1, ∀ b ∈ y.1, a.key = b.key → a.op = b.op → a.value = b.value →
        ∀ v, tags.get a.key = some v → a.matches lib v = b.matches lib v) →
      ((∃ r, t.matchByTagsMap lib tags = .ok r) ↔ ∀ x ∈ L, ∃ b, matchByTagsMap lib x.1 tags = .ok b) ∧
      ∀ r, t.matchByTagsMap lib tags = .ok r → r.2 = r.1.length ∧
        r.1.Perm ((L.filter fun x => !x.1.isEmpty && decide (matchByTagsMap lib x.1 tags = .ok true)).map
          fun x => (termsText x.1, x.2)) := by
  obtain ⟨t, L, hr, W, w1, w2, w3⟩ := C25.map_stand_ins_partial lib adds hk
  refine ⟨t, L, hr, fun tags h0 hs => ?_⟩
  obtain ⟨_, a3, a2⟩ := w3 tags (by simpa using h0)
  refine ⟨by rw [a3, C59.own_answers hs w1 w2], fun r h => ?_⟩
  obtain ⟨b1, b2⟩ := a2 r.1 r.2 h
  rw [C59.own_conditions hs w1 w2, List.filter_filter] at b2
  refine ⟨b1, b2.trans (List.Perm.of_eq ?_)⟩
  congr 1
  apply List.filter_congr
  intro x _
  exact Bool.and_comm _ _

/-- The search in a tag list in order of keys: as `tags_many_partial`, with the query without conditions
reported first and not counted. -/
theorem tags_many_slice_partial (lib : GoLib) (adds : List (Str × Int)) (hk : ∀ a ∈ adds, HasKeys lib a.1) :
    ∃ t L, runAdds lib {} [] adds = .ok (t, L) ∧ ∀ tags : List Tag, TagsSorted tags → tags ≠ [] →
      (∀ x ∈ L, ∀ y ∈ L, ∀ a ∈ x.1, ∀ b ∈ y.1, a.key = b.key → a.op = b.op → a.value = b.value →
        ∀ v, (tagsMap tags).get a.key = some v → a.matches lib v = b.matches lib v) →
      ((∃ r, t.matchByTags lib tags = .ok r) ↔
        ∀ x ∈ L, ∃ b, matchByTagsMap lib x.1 (tagsMap tags) = .ok b) ∧
      ∀ r, t.matchByTags lib tags = .ok r →
        ∃ evs, r.1 = ((L.filter fun x => x.1.isEmpty).map fun x => (termsText x.1, x.2)) ++ evs ∧
          r.2 = evs.length ∧
          evs.Perm ((L.filter fun x =>
            !x.1.isEmpty && decide (matchByTagsMap lib x.1 (tagsMap tags) = .ok true)).map
              fun x => (termsText x.1, x.2)) := by
  obtain ⟨t, L, hr, W, w1, w2, w3⟩ := C25.slice_stand_ins_partial lib adds hk
  refine ⟨t, L, hr, fun tags hst h0 hs => ?_⟩
  obtain ⟨_, a3, a2⟩ := w3 tags hst h0
  refine ⟨by rw [a3, C59.own_answers hs w1 w2], fun r h => ?_⟩
  obtain ⟨evs, b0, b1, b2⟩ := a2 r.1 r.2 h
  rw [C59.own_conditions hs w1 w2, List.filter_filter] at b2
  refine ⟨evs, b0, b1, b2.trans (List.Perm.of_eq ?_)⟩
  congr 1
  apply List.filter_congr
  intro x _
  exact Bool.and_comm _ _

/-! ## Examples and counterexamples -/

/-- The events of a one-query tree for a path, by parts. -/
def partsOf (s : Str) (path : Str) : Option (Events × Nat) :=
  match ({} : GGlobTree).add s 7 with
  | .ok (t, _) => match t.matchByParts (pathSplit path) with | .ok r => some r | _ => none
  | _ => none

-- A literal class, a class, an invalid byte between classes and a list with alternatives.
example : partsOf (b!"[a].[xy]*.{b?,c}") (b!"a.yz.bb") = some ([(b!"a.[x-y]*.{b?,c}", 7)], 1) := by
  decide +kernel
example : partsOf (b!"[a].[xy]*.{b?,c}") (b!"b.yz.bb") = some ([], 0) := by decide +kernel
example : partsOf ((b! "[a]") ++ 255 :: (b! "[b].*")) ((b! "a") ++ 255 :: (b! "b.x")) = some ([], 0) := by
  decide +kernel
example : partsOf ((b! "[a]") ++ 255 :: (b! "[b].*")) (utf8 "a�b.x".toList) =
    some ([(utf8 "a�b.*".toList, 7)], 1) := by decide +kernel

/-- The hypotheses of `gglob_many_partial`, and whether the search finds what the globs find by themselves,
for a list of texts and a path. -/
def manyOf (l : List Str) (path : Str) : Option (Bool × List Int) :=
  match runTree (l.zipIdx.map fun x => GOp.add x.1 x.2) with
  | .ok (t, L) =>
    match t.matchByParts (pathSplit path) with
    | .ok r => some (
        (L.all fun x => x.1.parts.all fun a => a.items.length ≠ 0 || a.node != b!"*") &&
        (L.all fun x => L.all fun y => x.1.parts.all fun a => y.1.parts.all fun b =>
          a.items.length = 0 || b.items.length = 0 || a.node != b.node || a.glob == b.glob) &&
        (r.1.map Prod.snd == (L.filter fun x => decide (x.1.matchByParts (pathSplit path) 0 = .ok true)).map
          Prod.snd), r.1.map Prod.snd)
    | _ => none
  | _ => none

example : manyOf [b!"a*.[b]", b!"a*.b*", b!"{ax,b}.?", b!"a*.c", b!"*"] (b!"ax.b") = some (true, [0, 1, 2]) := by
  decide +kernel

/-- A class of one star as a part: alone it lets everything through, in the tree only the star. -/
theorem literal_star_wrong :
    (∃ g, parseGGlob (b!"[*].e") = .ok (.ok g) ∧ g.matchByParts [b!"x", b!"e"] 0 = .ok true) ∧
    partsOf (b!"[*].e") (b!"x.e") = some ([], 0) := by
  refine ⟨?_, by decide +kernel⟩
  obtain ⟨g, h1, h2⟩ := parsedWith_spec (glob := b!"[*].e")
    (p := fun g => decide (g.matchByParts [b!"x", b!"e"] 0 = .ok true)) (by decide +kernel)
  exact ⟨g, h1, of_decide_eq_true h2⟩

/-- `Match` of the glob counts the dots against `MaxLen` and refuses; the tree reports. -/
theorem dots_wrong : ggMatchText (b!"a.b") (b!"a.b") = .ok (.ok false) ∧
    C13.report [.add (b!"a.b") 1] (b!"a.b") = some ([(b!"a.b", 1)], 1) := by decide +kernel

/-- The answer of a query by itself, and the events of a tree with this query. -/
def bothOf (q : Str) (tags : GoMap Str Str) : Option (Bool × (Events × Nat)) :=
  match parseSeriesByTag exLib q, ({} : GTagsTree).add exLib q 7 with
  | .ok (.ok ts), .ok (t, _) =>
    match matchByTagsMap exLib ts tags, t.matchByTagsMap exLib tags with
    | .ok b, .ok r => some (b, r)
    | _, _ => none
  | _, _ => none

example : bothOf (b!"seriesByTag('b!=x','a=v*','b!=y')") [(b!"a", b!"v1"), (b!"c", b!"2")] =
    some (true, [(b!"seriesByTag('a=v*','b!=x','b!=y')", 7)], 1) := by decide +kernel
example : bothOf (b!"seriesByTag('b!=x','a=v*','b!=y')") [(b!"a", b!"v1"), (b!"b", b!"y")] =
    some (false, [], 0) := by decide +kernel

/-- The events of the tree and the answer of each query by itself; `none` for a panic. -/
def manyTags (l : List (Str × Int)) (tags : GoMap Str Str) :
    Option (Events × Nat) × List (Option Bool) :=
  match runAdds exLib {} [] l with
  | .ok (t, L) =>
      ((match t.matchByTagsMap exLib tags with | .ok r => some r | _ => none),
       L.map fun x => match matchByTagsMap exLib x.1 tags with | .ok b => some b | _ => none)
  | _ => (none, [])

-- `*{?,b}` panics on `b`: the first query does not get that far with `a=y`, and panics with `a=x`.
example : manyTags [(b!"seriesByTag('a=x','b=*{?,b}')", 1), (b!"seriesByTag('a=y')", 2)]
    [(b!"a", b!"y"), (b!"b", b!"b")] =
    (some ([(b!"seriesByTag('a=y')", 2)], 1), [some false, some true]) := by decide +kernel
example : manyTags [(b!"seriesByTag('a=x','b=*{?,b}')", 1), (b!"seriesByTag('a=y')", 2)]
    [(b!"a", b!"x"), (b!"b", b!"b")] = (none, [none, some false]) := by decide +kernel

theorem no_conditions_wrong : bothOf (b!"seriesByTag()") [(b!"a", b!"1")] = some (true, [], 0) := by
  decide +kernel

theorem no_tags_wrong : bothOf (b!"seriesByTag('a!=1')") [] = some (true, [], 0) := by decide +kernel

end C64
end GoMatcher
