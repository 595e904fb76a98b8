import Verif.Proofs.TagTree
import Verif.Proofs.TagFind
import Verif.Props.C22_C24_Query

/-! # Histories of `GTagsTree`, and the two search forms -/

namespace GoMatcher

/-- The terms and the index of an accepted `Add` call.  `Add("")` reports no error and adds
nothing. -/
def tagAccepted (lib : GoLib) (q : Str) (i : Int) (r : TAddRes) : List (List TTerm × Int) :=
  if r.err.isSome ∨ q = [] then []
  else match parseSeriesByTag lib q with
    | .ok (.ok ts) => [(ts, i)]
    | _ => []

/-- Runs `Add(query, index)` for all pairs; collects what was accepted, in order. -/
def runAdds (lib : GoLib) (t : GTagsTree) (L : List (List TTerm × Int)) :
    List (Str × Int) → R (GTagsTree × List (List TTerm × Int))
  | [] => .ok (t, L)
  | a :: as => do
    let r ← t.add lib a.1 a.2
    runAdds lib r.1 (L ++ tagAccepted lib a.1 a.2 r.2) as

/-- All conditions of the query have a key. -/
def HasKeys (lib : GoLib) (q : Str) : Prop :=
  ∀ ts, parseSeriesByTag lib q = .ok (.ok ts) → ∀ t ∈ ts, t.key ≠ []

/-- What one call does. -/
theorem add_cases (lib : GoLib) (t : GTagsTree) (q : Str) (i : Int) (hk : HasKeys lib q) :
    ∃ t' r, t.add lib q i = .ok (t', r) ∧
      ((t' = t ∧ tagAccepted lib q i r = []) ∨
       ∃ ts, tagAccepted lib q i r = [(ts, i)] ∧ parseSeriesByTag lib q = .ok (.ok ts) ∧
         t.queries.get (termsText ts) = none ∧
         (ts = [] ∧ t'.root = t.root ∧ t'.fin = some (termsText ts, i) ∨
          ts ≠ [] ∧ t'.fin = t.fin ∧
          parseItems (some (termsText ts, i)) ts t.root = .ok t'.root) ∧
         (t'.queries.get (termsText ts)).isSome = true ∧
         ∀ s, (t.queries.get s).isSome = true → (t'.queries.get s).isSome = true) := by
  unfold GTagsTree.add
  by_cases h0 : q = []
  · rw [if_pos h0]
    exact ⟨_, _, rfl, .inl ⟨rfl, by simp [tagAccepted, h0]⟩⟩
  rw [if_neg h0]
  by_cases h1 : i < 0
  · rw [if_pos h1]
    exact ⟨_, _, rfl, .inl ⟨rfl, by simp [tagAccepted]⟩⟩
  rw [if_neg h1]
  cases h2 : t.queries.get q with
  | some n => exact ⟨_, _, rfl, .inl ⟨rfl, by simp [tagAccepted]⟩⟩
  | none =>
    dsimp only
    cases h3 : t.queryIndex.get i with
    | some q => exact ⟨_, _, rfl, .inl ⟨rfl, by simp [tagAccepted]⟩⟩
    | none =>
      dsimp only
      obtain ⟨pr, hpr⟩ := parseSeriesByTag_total lib q
      rw [hpr, R.bind_ok]
      cases pr with
      | error e => exact ⟨_, _, rfl, .inl ⟨rfl, by simp [tagAccepted]⟩⟩
      | ok ts =>
        dsimp only
        cases h4 : t.queries.get (termsText ts) with
        | some n => exact ⟨_, _, rfl, .inl ⟨rfl, by simp [tagAccepted]⟩⟩
        | none =>
          dsimp only
          have hq1 : ((if termsText ts ≠ q then (t.queries.set q i).set (termsText ts) i
              else t.queries.set q i).get (termsText ts)).isSome = true := by
            split
            · simp [GoMap.get_set]
            · rename_i h
              have : termsText ts = q := Classical.byContradiction h
              simp [GoMap.get_set, this]
          have hq2 : ∀ s, (t.queries.get s).isSome = true →
              ((if termsText ts ≠ q then (t.queries.set q i).set (termsText ts) i
              else t.queries.set q i).get s).isSome = true := by
            intro s hs
            split <;> simp only [GoMap.get_set] <;> (repeat' split) <;> first | rfl | exact hs
          have hacc : ∀ r : TAddRes, r.err = none → tagAccepted lib q i r = [(ts, i)] := by
            intro r hr
            simp [tagAccepted, hr, h0, hpr]
          cases hts : ts with
          | nil =>
            subst hts
            exact ⟨_, _, rfl, .inr ⟨[], hacc _ rfl, rfl, h4, .inl ⟨rfl, rfl, rfl⟩, hq1, hq2⟩⟩
          | cons u us =>
            dsimp only
            rw [← hts]
            obtain ⟨root, hroot, _⟩ := parseItems_spec (termsText ts, i) ts (by simp [hts])
              (hk ts hpr) t.root
            rw [hroot, R.bind_ok]
            exact ⟨_, _, rfl, .inr ⟨ts, hacc _ rfl, rfl, h4, .inr ⟨by simp [hts], rfl, hroot⟩,
              hq1, hq2⟩⟩

/-- The stored entry of an accepted query. -/
def tagEntry (x : List TTerm × Int) : Str × Int := (termsText x.1, x.2)

/-- Relation between a tree and the accepted queries. -/
structure TagInv (t : GTagsTree) (L : List (List TTerm × Int)) : Prop where
  steps : ∀ s ∈ stepsG t.root, ∃ x ∈ L, ∃ u ∈ x.1, s = (u.key, u.op.isMatched, u)
  known : ∀ x ∈ L, (t.queries.get (termsText x.1)).isSome = true
  paths : ∃ W : List (List Step × (List TTerm × Int)),
    W.map Prod.snd = L.filter (fun x => !x.1.isEmpty) ∧
    (pathsG t.root).Perm (W.map fun w => (w.1, tagEntry w.2)) ∧
    ∀ w ∈ W, w.1.map Step.sig = w.2.1.map sigOf

theorem tagInv_empty : TagInv {} [] where
  steps := by simp [stepsG]
  known := by simp
  paths := ⟨[], rfl, List.Perm.refl _, by simp⟩

theorem sigOf_ids {a b : List TTerm} (h : a.map sigOf = b.map sigOf) :
    a.map TTerm.id = b.map TTerm.id := by
  have := congrArg (List.map fun x : Str × Bool × (Str × TagOp × Str) => x.2.2) h
  simpa [Function.comp_def, sigOf] using this

theorem tagInv_add {t t' : GTagsTree} {L : List (List TTerm × Int)} (h : TagInv t L)
    {ts : List TTerm} {i : Int} (hk : ∀ t ∈ ts, t.key ≠ [])
    (hn : t.queries.get (termsText ts) = none)
    (hr : ts = [] ∧ t'.root = t.root ∧ t'.fin = some (termsText ts, i) ∨
          ts ≠ [] ∧ t'.fin = t.fin ∧
          parseItems (some (termsText ts, i)) ts t.root = .ok t'.root)
    (hq : (t'.queries.get (termsText ts)).isSome = true)
    (hmono : ∀ s, (t.queries.get s).isSome = true → (t'.queries.get s).isSome = true) :
    TagInv t' (L ++ [(ts, i)]) := by
  have hknown : ∀ x ∈ L ++ [(ts, i)], (t'.queries.get (termsText x.1)).isSome = true := by
    intro x hx
    rcases List.mem_append.1 hx with hx | hx
    · exact hmono _ (h.known x hx)
    · rw [List.mem_singleton.1 hx]; exact hq
  obtain ⟨W, w1, w2, w3⟩ := h.paths
  rcases hr with ⟨rfl, hroot, _⟩ | ⟨hne, _, hroot⟩
  · refine ⟨?_, hknown, ⟨W, ?_, ?_, w3⟩⟩
    · intro s hs
      rw [hroot] at hs
      obtain ⟨x, hx, hh⟩ := h.steps s hs
      exact ⟨x, by simp [hx], hh⟩
    · rw [List.filter_append, w1]; simp
    · rw [hroot]; exact w2
  · obtain ⟨root, hroot', hI⟩ := parseItems_spec (termsText ts, i) ts hne hk t.root
    rw [hroot] at hroot'
    simp only [R.ok.injEq] at hroot'
    rw [← hroot'] at hI
    obtain ⟨p, hp, hperm⟩ := hI.paths (by
      intro p hp heq
      have := w2.mem_iff.1 hp
      obtain ⟨w, hw, rfl⟩ := List.mem_map.1 this
      have hx : w.2 ∈ L := by
        have : w.2 ∈ W.map Prod.snd := List.mem_map.2 ⟨w, hw, rfl⟩
        rw [w1] at this
        exact (List.mem_filter.1 this).1
      dsimp only at heq
      rw [w3 w hw] at heq
      have := h.known _ hx
      rw [termsText_ids (sigOf_ids heq), hn] at this
      simp at this)
    refine ⟨?_, hknown, ⟨W ++ [(p, (ts, i))], ?_, ?_, ?_⟩⟩
    · intro s hs
      rcases hI.steps s hs with h' | ⟨u, hu, e⟩
      · obtain ⟨x, hx, hh⟩ := h.steps s h'
        exact ⟨x, by simp [hx], hh⟩
      · exact ⟨(ts, i), by simp, u, hu, e⟩
    · rw [List.map_append, w1, List.filter_append]
      have : ts.isEmpty = false := by simpa using hne
      simp [this]
    · rw [List.map_append]
      refine hperm.trans ((List.perm_cons _).2 w2 |>.trans ?_)
      simp only [List.map_cons, List.map_nil, tagEntry]
      exact List.perm_append_comm (l₁ := [(p, (termsText ts, i))])
    · intro w hw
      rcases List.mem_append.1 hw with hw | hw
      · exact w3 w hw
      · rw [List.mem_singleton.1 hw]; exact hp

theorem runAdds_inv (lib : GoLib) (as : List (Str × Int)) (hk : ∀ a ∈ as, HasKeys lib a.1)
    (t : GTagsTree) (L : List (List TTerm × Int)) (h : TagInv t L) :
    ∃ t' L', runAdds lib t L as = .ok (t', L') ∧ TagInv t' L' := by
  induction as generalizing t L with
  | nil => exact ⟨t, L, rfl, h⟩
  | cons a as ih =>
    obtain ⟨t', r, h1, h2⟩ := add_cases lib t a.1 a.2 (hk a (by simp))
    rw [runAdds, h1, R.bind_ok]
    apply ih (fun a h => hk a (by simp [h]))
    rcases h2 with ⟨rfl, e⟩ | ⟨ts, e, hp, e2, e3, e4, e5⟩
    · dsimp only; rw [e, List.append_nil]; exact h
    · dsimp only; rw [e]; exact tagInv_add h (hk a (by simp) ts hp) e2 e3 e4 e5

mutual
/-- The steps of a path are steps of the tree. -/
theorem pathsG_steps (gs : List (Str × List TItem × List TItem)) :
    ∀ p ∈ pathsG gs, ∀ s ∈ p.1, s ∈ stepsG gs := by
  intro p hp s hs
  match gs with
  | [] => simp [pathsG] at hp
  | (k, nm, m) :: gs =>
    simp only [pathsG, stepsG, List.mem_append] at hp ⊢
    rcases hp with (hp | hp) | hp
    · exact .inl (.inl (pathsC_steps k true m p hp s hs))
    · exact .inl (.inr (pathsC_steps k false nm p hp s hs))
    · exact .inr (pathsG_steps gs p hp s hs)
theorem pathsC_steps (k : Str) (b : Bool) (cs : List TItem) :
    ∀ p ∈ pathsC k b cs, ∀ s ∈ p.1, s ∈ stepsC k b cs := by
  intro p hp s hs
  match cs with
  | [] => simp [pathsC] at hp
  | c :: cs =>
    simp only [pathsC, stepsC, List.mem_append] at hp ⊢
    rcases hp with hp | hp
    · exact .inl (pathsI_steps k b c p hp s hs)
    · exact .inr (pathsC_steps k b cs p hp s hs)
theorem pathsI_steps (k : Str) (b : Bool) (c : TItem) :
    ∀ p ∈ pathsI k b c, ∀ s ∈ p.1, s ∈ stepsI k b c := by
  intro p hp s hs
  match c with
  | .node t fin gs =>
    simp only [pathsI, stepsI, List.mem_append, List.mem_map, List.mem_cons] at hp ⊢
    rcases hp with ⟨e, _, rfl⟩ | ⟨q, hq, rfl⟩
    · exact .inl (by simpa using hs)
    · simp only [List.mem_cons] at hs
      rcases hs with hs | hs
      · exact .inl hs
      · exact .inr (pathsG_steps gs q hq s hs)
end

/-! ## Keys of the groups -/

mutual
/-- No group has an empty key. -/
def KeysG : List (Str × List TItem × List TItem) → Prop
  | [] => True
  | (k, nm, m) :: gs => k ≠ [] ∧ KeysC m ∧ KeysC nm ∧ KeysG gs
def KeysC : List TItem → Prop
  | [] => True
  | c :: cs => KeysI c ∧ KeysC cs
def KeysI : TItem → Prop
  | .node _ _ gs => KeysG gs
end

theorem keysC_append (a b : List TItem) : KeysC (a ++ b) ↔ KeysC a ∧ KeysC b := by
  induction a with
  | nil => simp [KeysC]
  | cons x a ih => simp [KeysC, ih, and_assoc]

theorem keysG_append (a b : List TGroup) : KeysG (a ++ b) ↔ KeysG a ∧ KeysG b := by
  induction a with
  | nil => simp [KeysG]
  | cons x a ih =>
    obtain ⟨k, nm, m⟩ := x
    simp [KeysG, ih, and_assoc]

theorem keysG_get {gs : List TGroup} (h : KeysG gs) {i : Nat} {k : Str} {nm m : List TItem}
    (hi : gs[i]? = some (k, nm, m)) : k ≠ [] ∧ KeysC m ∧ KeysC nm := by
  induction gs generalizing i with
  | nil => simp at hi
  | cons g gs ih =>
    obtain ⟨k', nm', m'⟩ := g
    obtain ⟨h1, h2, h3, h4⟩ := h
    cases i with
    | zero =>
      simp only [List.getElem?_cons_zero, Option.some.injEq, Prod.mk.injEq] at hi
      obtain ⟨rfl, rfl, rfl⟩ := hi
      exact ⟨h1, h2, h3⟩
    | succ i => exact ih h4 (by simpa using hi)

theorem keysG_set {gs : List TGroup} (h : KeysG gs) {i : Nat} {k : Str} {nm m : List TItem}
    (hk : k ≠ []) (hm : KeysC m) (hnm : KeysC nm) : KeysG (gs.set i (k, nm, m)) := by
  induction gs generalizing i with
  | nil => simp [KeysG]
  | cons g gs ih =>
    obtain ⟨k', nm', m'⟩ := g
    obtain ⟨h1, h2, h3, h4⟩ := h
    cases i with
    | zero => exact ⟨hk, hm, hnm, h4⟩
    | succ i => exact ⟨h1, h2, h3, ih h4⟩

theorem insertTerm_keys {f : TItem → R TItem} {t : TTerm} {cs cs' : List TItem} (h : KeysC cs)
    (hf : ∀ c c', KeysI c → f c = .ok c' → KeysI c') (hi : insertTerm f t cs = .ok cs') : KeysC cs' := by
  induction cs generalizing cs' with
  | nil =>
    rw [insertTerm] at hi
    obtain ⟨c, h1, h2⟩ := R.bind_eq_ok.1 hi
    simp only [R.ok.injEq] at h2
    subst h2
    exact ⟨hf (.node t none []) c (by simp [KeysI, KeysG]) h1, trivial⟩
  | cons x cs ih =>
    rw [insertTerm] at hi
    split at hi
    · obtain ⟨c, h1, h2⟩ := R.bind_eq_ok.1 hi
      simp only [R.ok.injEq] at h2
      subst h2
      exact ⟨hf x c h.1 h1, h.2⟩
    · obtain ⟨c, h1, h2⟩ := R.bind_eq_ok.1 hi
      simp only [R.ok.injEq] at h2
      subst h2
      exact ⟨h.1, ih h.2 h1⟩

/-- Insertion never makes a group with an empty key, whatever the terms are. -/
theorem parseItems_keys (e : Option (Str × Int)) (ts : List TTerm) (gs gs' : List TGroup)
    (h : KeysG gs) (hp : parseItems e ts gs = .ok gs') : KeysG gs' := by
  induction ts generalizing gs gs' with
  | nil => simp [parseItems] at hp
  | cons t ts ih =>
    rw [parseItems] at hp
    obtain ⟨r, hr, hp⟩ := R.bind_eq_ok.1 hp
    have hk : KeysG r.1 := by
      by_cases hkey : t.key = []
      · unfold findOrAppend at hr; rw [if_pos hkey] at hr
        simp only [R.ok.injEq] at hr
        subst hr
        exact h
      · obtain ⟨a, b, nm, m, h1, h2⟩ := findOrAppend_spec gs t.key hkey
        rw [hr] at h1
        simp only [R.ok.injEq] at h1
        subst h1
        rcases h2 with rfl | ⟨rfl, rfl, rfl⟩
        · exact h
        · rw [keysG_append] at h ⊢
          exact ⟨h.1, hkey, trivial, trivial, h.2⟩
    cases hg : r.1[r.2]? with
    | none => rw [hg] at hp; simp at hp
    | some g =>
      obtain ⟨k, nm, m⟩ := g
      rw [hg] at hp
      dsimp only at hp
      obtain ⟨k1, k2, k3⟩ := keysG_get hk hg
      have hf : ∀ c c', KeysI c → TItem.descend ts.isEmpty e (parseItems e ts) c = .ok c' →
          KeysI c' := by
        intro c c' hc hd
        obtain ⟨u, fin, items⟩ := c
        unfold TItem.descend at hd
        split at hd
        · simp only [R.ok.injEq] at hd
          subst hd
          exact hc
        · obtain ⟨it, h1, h2⟩ := R.bind_eq_ok.1 hd
          simp only [R.ok.injEq] at h2
          subst h2
          exact ih _ _ hc h1
      split at hp
      · obtain ⟨m', h1, h2⟩ := R.bind_eq_ok.1 hp
        simp only [R.ok.injEq] at h2
        subst h2
        exact keysG_set hk k1 (insertTerm_keys k2 hf h1) k3
      · obtain ⟨m', h1, h2⟩ := R.bind_eq_ok.1 hp
        simp only [R.ok.injEq] at h2
        subst h2
        exact keysG_set hk k1 k2 (insertTerm_keys k3 hf h1)

/-! ## Slices and maps -/

theorem findTag_spec (tags : List Tag) (h : TagsSorted tags) (key : Str) (hk : key ≠ []) (start : Nat)
    (hst : start < tags.length ∨ start = 0) :
    (∃ n g, findTag tags key start = .ok (some n) ∧ tags[n]? = some g ∧ g.key = key ∧
      (tagsMap tags).get key = some g.value) ∨
    (findTag tags key start = .ok none ∧ (∀ g ∈ tags, g.key ≠ key) ∧ (tagsMap tags).get key = none) := by
  obtain ⟨r, h1, h2⟩ := findKey_spec (tags.map Tag.key) (List.pairwise_map.2 h) key hk start
    (by simpa using hst)
  cases r with
  | none =>
    right
    have hno : ∀ g ∈ tags, g.key ≠ key := fun g hg e => h2 (List.mem_map.2 ⟨g, hg, e⟩)
    refine ⟨h1, hno, ?_⟩
    rw [tagsMap_scan tags h, scanTag_of_not_mem hno]
    rfl
  | some n =>
    left
    simp only [FoundOk, List.getElem?_map] at h2
    cases hg : tags[n]? with
    | none => rw [hg] at h2; simp at h2
    | some g =>
      rw [hg] at h2
      simp only [Option.map_some, Option.some.injEq] at h2
      refine ⟨n, g, h1, hg ▸ rfl, h2, ?_⟩
      rw [tagsMap_scan tags h]
      rcases scanTag_spec key tags with ⟨e1, e2⟩ | ⟨p, x, xs, e1, e2, e3, e4⟩
      · exact absurd h2 (e2 g (List.mem_of_getElem? hg))
      · rw [e2]
        simp only [List.head?_cons, Option.map_some, Option.some.injEq]
        congr 1
        -- equal keys are at equal places
        obtain ⟨hn, hgn⟩ := List.getElem?_eq_some_iff.1 hg
        have hpl : p.length < tags.length := by rw [e1]; simp
        have hx : tags[p.length]'hpl = x := by simp [e1]
        rcases Nat.lt_trichotomy p.length n with hlt | heq | hlt
        · have := List.pairwise_iff_getElem.1 h p.length n hpl hn hlt
          rw [hx, hgn, e3, h2, keyLt_irrefl] at this
          simp at this
        · subst heq
          rw [← hx, hgn]
        · have := List.pairwise_iff_getElem.1 h n p.length hn hpl hlt
          rw [hx, hgn, e3, h2, keyLt_irrefl] at this
          simp at this

mutual
theorem groupsSlice_eq (lib : GoLib) (tags : List Tag) (h : TagsSorted tags) (pos : Nat)
    (hpos : pos < tags.length ∨ pos = 0) (gs : List (Str × List TItem × List TItem)) (hk : KeysG gs) :
    groupsSlice lib tags pos gs = groupsMap lib (tagsMap tags) gs := by
  match gs with
  | [] => rfl
  | (k, nm, m) :: gs =>
    obtain ⟨h1, h2, h3, h4⟩ := hk
    rw [groupsSlice, groupsMap]
    rcases findTag_spec tags h k h1 pos hpos with ⟨n, g, f1, f2, f3, f4⟩ | ⟨f1, f2, f3⟩
    · rw [f1, f4]
      dsimp only
      rw [f2]
      dsimp only
      rw [childsSlice_eq lib tags h (some g.value) m h2, childsSlice_eq lib tags h (some g.value) nm h3,
        groupsSlice_eq lib tags h n (.inl (List.getElem?_eq_some_iff.1 f2).1) gs h4]
    · rw [f1, f3]
      dsimp only
      rw [childsSlice_eq lib tags h none nm h3, groupsSlice_eq lib tags h pos hpos gs h4]
theorem childsSlice_eq (lib : GoLib) (tags : List Tag) (h : TagsSorted tags) (v : Option Str)
    (cs : List TItem) (hk : KeysC cs) :
    childsSlice lib tags v cs = childsMap lib (tagsMap tags) v cs := by
  match cs with
  | [] => rfl
  | c :: cs =>
    rw [childsSlice, childsMap, childSlice_eq lib tags h v c hk.1, childsSlice_eq lib tags h v cs hk.2]
theorem childSlice_eq (lib : GoLib) (tags : List Tag) (h : TagsSorted tags) (v : Option Str)
    (c : TItem) (hk : KeysI c) : childSlice lib tags v c = childMap lib (tagsMap tags) v c := by
  match c with
  | .node t fin gs =>
    rw [childSlice, childMap, groupsSlice_eq lib tags h 0 (.inr rfl) gs hk]
end

end GoMatcher
