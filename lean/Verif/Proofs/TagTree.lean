import Verif.Model.TagTree
import Verif.Proofs.TagTerm

/-! # The tree of tag queries: paths, insertion, matching -/

namespace GoMatcher

/-! ## Paths -/

/-- A step down the tree: key of the group, whether the child is in `Matched`, term of the child. -/
abbrev Step := Str × Bool × TTerm

/-- What identifies a step. -/
def Step.sig (s : Step) : Str × Bool × (Str × TagOp × Str) := (s.1, s.2.1, s.2.2.id)

/-- Where a term belongs. -/
def sigOf (t : TTerm) : Str × Bool × (Str × TagOp × Str) := (t.key, t.op.isMatched, t.id)

mutual
/-- The entries below the groups with the steps that lead to them, in the order of the search. -/
def pathsG : List (Str × List TItem × List TItem) → List (List Step × (Str × Int))
  | [] => []
  | (k, nm, m) :: gs => pathsC k true m ++ pathsC k false nm ++ pathsG gs
def pathsC (k : Str) (b : Bool) : List TItem → List (List Step × (Str × Int))
  | [] => []
  | c :: cs => pathsI k b c ++ pathsC k b cs
def pathsI (k : Str) (b : Bool) : TItem → List (List Step × (Str × Int))
  | .node t fin gs => (fin.toList.map fun e => ([(k, b, t)], e)) ++
      (pathsG gs).map (fun p => ((k, b, t) :: p.1, p.2))
end

mutual
/-- All steps in the tree. -/
def stepsG : List (Str × List TItem × List TItem) → List Step
  | [] => []
  | (k, nm, m) :: gs => stepsC k true m ++ stepsC k false nm ++ stepsG gs
def stepsC (k : Str) (b : Bool) : List TItem → List Step
  | [] => []
  | c :: cs => stepsI k b c ++ stepsC k b cs
def stepsI (k : Str) (b : Bool) : TItem → List Step
  | .node t _ gs => (k, b, t) :: stepsG gs
end

theorem pathsC_cons (k : Str) (b : Bool) (c : TItem) (cs : List TItem) :
    pathsC k b (c :: cs) = pathsI k b c ++ pathsC k b cs := rfl

theorem stepsC_cons (k : Str) (b : Bool) (c : TItem) (cs : List TItem) :
    stepsC k b (c :: cs) = stepsI k b c ++ stepsC k b cs := rfl

theorem pathsI_eq (k : Str) (b : Bool) (c : TItem) : pathsI k b c =
    (c.fin.toList.map fun e => ([(k, b, c.term)], e)) ++
      (pathsG c.items).map (fun p => ((k, b, c.term) :: p.1, p.2)) := by
  cases c; rfl

theorem stepsI_eq (k : Str) (b : Bool) (c : TItem) :
    stepsI k b c = (k, b, c.term) :: stepsG c.items := by
  cases c; rfl

theorem pathsC_append (k : Str) (b : Bool) (xs ys : List TItem) :
    pathsC k b (xs ++ ys) = pathsC k b xs ++ pathsC k b ys := by
  induction xs with
  | nil => rfl
  | cons x xs ih => rw [List.cons_append, pathsC_cons, pathsC_cons, ih, List.append_assoc]

theorem stepsC_append (k : Str) (b : Bool) (xs ys : List TItem) :
    stepsC k b (xs ++ ys) = stepsC k b xs ++ stepsC k b ys := by
  induction xs with
  | nil => rfl
  | cons x xs ih => rw [List.cons_append, stepsC_cons, stepsC_cons, ih, List.append_assoc]

theorem pathsG_append (xs ys : List TGroup) : pathsG (xs ++ ys) = pathsG xs ++ pathsG ys := by
  induction xs with
  | nil => rfl
  | cons x xs ih =>
    obtain ⟨k, nm, m⟩ := x
    rw [List.cons_append, pathsG, pathsG, ih]
    simp only [List.append_assoc]

theorem stepsG_append (xs ys : List TGroup) : stepsG (xs ++ ys) = stepsG xs ++ stepsG ys := by
  induction xs with
  | nil => rfl
  | cons x xs ih =>
    obtain ⟨k, nm, m⟩ := x
    rw [List.cons_append, stepsG, stepsG, ih]
    simp only [List.append_assoc]

/-! ## `findOrAppend` -/

theorem placeLoop_spec (ks : List Str) (key : Str) (fuel low high : Nat) (hf : high + 1 - low < fuel)
    (hh : low ≤ high → high < ks.length) (hl : high ≤ ks.length) :
    ∃ r, placeLoop ks key fuel low high = .ok r ∧
      match r with
      | .ok mid => ks[mid]? = some key
      | .error h => h ≤ ks.length := by
  induction fuel generalizing low high with
  | zero => omega
  | succ fuel ih =>
    rw [placeLoop]
    by_cases h1 : low ≤ high
    · rw [if_pos h1]
      have hlen := hh h1
      have hm : (low + high) / 2 < ks.length := by omega
      dsimp only
      rw [List.getElem?_eq_getElem hm]
      dsimp only
      split
      · rename_i e
        exact ⟨_, rfl, by dsimp only; rw [List.getElem?_eq_getElem hm, ← e]⟩
      · split
        · split
          · exact ⟨_, rfl, by dsimp only; omega⟩
          · exact ih _ _ (by omega) (fun _ => by omega) (by omega)
        · split
          · exact ⟨_, rfl, by dsimp only; omega⟩
          · exact ih _ _ (by omega) (fun _ => by omega) hl
    · rw [if_neg h1]
      exact ⟨_, rfl, hl⟩

theorem findOrAppend_spec (gs : List TGroup) (key : Str) (hk : key ≠ []) :
    ∃ a b nm m, findOrAppend gs key = .ok (a ++ (key, nm, m) :: b, a.length) ∧
      (gs = a ++ (key, nm, m) :: b ∨ (nm = [] ∧ m = [] ∧ gs = a ++ b)) := by
  unfold findOrAppend
  rw [if_neg hk]
  cases gs with
  | nil => exact ⟨[], [], [], [], rfl, .inr ⟨rfl, rfl, rfl⟩⟩
  | cons g rest =>
    dsimp only
    by_cases hn : key = nameKey
    · rw [if_pos hn]
      by_cases hg : g.1 = nameKey
      · rw [if_pos hg]
        obtain ⟨k, nm, m⟩ := g
        dsimp only at hg
        subst hg
        subst hn
        exact ⟨[], rest, nm, m, rfl, .inl rfl⟩
      · rw [if_neg hg]
        exact ⟨[], g :: rest, [], [], rfl, .inr ⟨rfl, rfl, rfl⟩⟩
    · rw [if_neg hn]
      generalize hgs : g :: rest = gs
      have hlen : 0 < gs.length := by rw [← hgs]; simp
      obtain ⟨r, hr, hs⟩ := placeLoop_spec (gs.map Prod.fst) key (gs.length + 1)
        (if g.1 = nameKey then 1 else 0) (gs.length - 1) (by split <;> omega)
        (by intro _; simp only [List.length_map]; omega) (by simp only [List.length_map]; omega)
      rw [hr, R.bind_ok]
      cases r with
      | ok mid =>
        dsimp only at hs ⊢
        rw [List.getElem?_map] at hs
        cases hm : gs[mid]? with
        | none => rw [hm] at hs; simp at hs
        | some x =>
          rw [hm] at hs
          simp only [Option.map_some, Option.some.injEq] at hs
          obtain ⟨hlt, hx⟩ := List.getElem?_eq_some_iff.1 hm
          obtain ⟨k, nm, m⟩ := x
          dsimp only at hs
          subst hs
          have hsplit : gs = gs.take mid ++ (k, nm, m) :: gs.drop (mid + 1) := by
            rw [← hx, ← List.drop_eq_getElem_cons hlt, List.take_append_drop]
          refine ⟨gs.take mid, gs.drop (mid + 1), nm, m, ?_, .inl hsplit⟩
          rw [← hsplit, List.length_take, Nat.min_eq_left (by omega)]
      | error h =>
        simp only [List.length_map] at hs
        dsimp only
        split
        · rename_i e
          exact ⟨gs, [], [], [], by rw [e], .inr ⟨rfl, rfl, by simp⟩⟩
        · split
          · exact ⟨[], gs, [], [], rfl, .inr ⟨rfl, rfl, rfl⟩⟩
          · refine ⟨gs.take h, gs.drop h, [], [], ?_, .inr ⟨rfl, rfl, by simp⟩⟩
            rw [List.length_take, Nat.min_eq_left (by omega)]

/-! ## Insertion -/

theorem insertTerm_spec (f : TItem → R TItem) (P : TItem → TItem → Prop) (t : TTerm) (cs : List TItem)
    (h : ∀ c, c ∈ cs ∨ c = .node t none [] → c.term.id = t.id → ∃ c', f c = .ok c' ∧ P c c') :
    ∃ c c', P c c' ∧ c.term.id = t.id ∧ ((∃ a b, cs = a ++ c :: b ∧
        insertTerm f t cs = .ok (a ++ c' :: b)) ∨
      (c = .node t none [] ∧ insertTerm f t cs = .ok (cs ++ [c']))) := by
  induction cs with
  | nil =>
    obtain ⟨c', h1, h2⟩ := h (.node t none []) (.inr rfl) rfl
    exact ⟨_, c', h2, rfl, .inr ⟨rfl, by simp [insertTerm, h1]⟩⟩
  | cons x cs ih =>
    by_cases he : t.id = x.term.id
    · obtain ⟨c', h1, h2⟩ := h x (.inl (by simp)) he.symm
      exact ⟨x, c', h2, he.symm, .inl ⟨[], cs, rfl, by simp [insertTerm, he, h1]⟩⟩
    · obtain ⟨c, c', h1, h2, h3⟩ := ih (fun c hc => h c (by
        rcases hc with hc | hc
        · exact .inl (by simp [hc])
        · exact .inr hc))
      refine ⟨c, c', h1, h2, ?_⟩
      rcases h3 with ⟨a, b, e1, e2⟩ | ⟨e1, e2⟩
      · exact .inl ⟨x :: a, b, by rw [e1]; rfl, by simp [insertTerm, he, e2]⟩
      · exact .inr ⟨e1, by simp [insertTerm, he, e2]⟩

/-- What an insertion below some groups does. -/
structure Inserted (ts : List TTerm) (e : Str × Int) (old new : List (List Step × (Str × Int)))
    (so sn : List Step) : Prop where
  paths : (∀ p ∈ old, p.1.map Step.sig ≠ ts.map sigOf) →
    ∃ p : List Step, p.map Step.sig = ts.map sigOf ∧ new.Perm ((p, e) :: old)
  steps : ∀ s ∈ sn, s ∈ so ∨ ∃ t ∈ ts, s = (t.key, t.op.isMatched, t)

theorem perm_mid {α : Type} {A B C C' : List α} {x : α} (h : C'.Perm (x :: C)) :
    (A ++ C' ++ B).Perm (x :: (A ++ C ++ B)) := by
  have h1 : (A ++ C').Perm (A ++ x :: C) := List.Perm.append_left A h
  have h2 : (A ++ x :: C).Perm (x :: (A ++ C)) := List.perm_middle
  exact (List.Perm.append_right B (h1.trans h2))

theorem Inserted.around {ts e o n so sn} (h : Inserted ts e o n so sn)
    (A B : List (List Step × (Str × Int))) (SA SB : List Step) :
    Inserted ts e (A ++ o ++ B) (A ++ n ++ B) (SA ++ so ++ SB) (SA ++ sn ++ SB) where
  paths hf := by
    obtain ⟨p, hp, hperm⟩ := h.paths (fun p hp => hf p (by simp [hp]))
    exact ⟨p, hp, perm_mid hperm⟩
  steps s hs := by
    simp only [List.mem_append] at hs ⊢
    rcases hs with (hs | hs) | hs
    · exact .inl (.inl (.inl hs))
    · rcases h.steps s hs with h | h
      · exact .inl (.inl (.inr h))
      · exact .inr h
    · exact .inl (.inr hs)

/-- Insertion into a list of children. -/
theorem insertTerm_paths (f : TItem → R TItem) (t : TTerm) (ts : List TTerm) (e : Str × Int)
    (cs : List TItem)
    (h : ∀ c : TItem, c.term.id = t.id → ∃ c', f c = .ok c' ∧
      Inserted (t :: ts) e (pathsI t.key t.op.isMatched c) (pathsI t.key t.op.isMatched c')
        (stepsI t.key t.op.isMatched c) (stepsI t.key t.op.isMatched c')) :
    ∃ cs', insertTerm f t cs = .ok cs' ∧
      Inserted (t :: ts) e (pathsC t.key t.op.isMatched cs) (pathsC t.key t.op.isMatched cs')
        (stepsC t.key t.op.isMatched cs) (stepsC t.key t.op.isMatched cs') := by
  obtain ⟨c, c', hI, hid, hc⟩ := insertTerm_spec f (fun c c' =>
    Inserted (t :: ts) e (pathsI t.key t.op.isMatched c) (pathsI t.key t.op.isMatched c')
        (stepsI t.key t.op.isMatched c) (stepsI t.key t.op.isMatched c')) t cs (fun c _ => h c)
  rcases hc with ⟨a, b, rfl, e2⟩ | ⟨rfl, e2⟩
  · refine ⟨_, e2, ?_⟩
    simp only [pathsC_append, pathsC_cons, stepsC_append, stepsC_cons, ← List.append_assoc]
    exact hI.around _ _ _ _
  · refine ⟨_, e2, ?_⟩
    have hne : pathsI t.key t.op.isMatched (.node t none []) = [] := rfl
    have h1 := hI.around (pathsC t.key t.op.isMatched cs) [] (stepsC t.key t.op.isMatched cs) []
    rw [hne] at h1
    simp only [List.append_nil] at h1
    simp only [pathsC_append, pathsC_cons, stepsC_append, stepsC_cons]
    refine ⟨fun hf => ?_, fun s hs => ?_⟩
    · have := h1.paths hf
      simpa [pathsC] using this
    · have := h1.steps s (by simpa [stepsC] using hs)
      rcases this with h | h
      · simp only [List.mem_append] at h
        rcases h with h | h
        · exact .inl h
        · simp only [stepsI_eq, TItem.term, TItem.items, stepsG, List.mem_singleton] at h
          exact .inr ⟨t, by simp, h⟩
      · exact .inr h

/-- Insertion below groups, for terms with keys. -/
theorem parseItems_spec (e : Str × Int) (ts : List TTerm) (hne : ts ≠ []) (hk : ∀ t ∈ ts, t.key ≠ [])
    (gs : List TGroup) : ∃ gs', parseItems (some e) ts gs = .ok gs' ∧
      Inserted ts e (pathsG gs) (pathsG gs') (stepsG gs) (stepsG gs') := by
  induction ts generalizing gs with
  | nil => exact absurd rfl hne
  | cons t ts ih =>
    simp only [List.forall_mem_cons] at hk
    obtain ⟨a, b, nm, m, hfa, hgs⟩ := findOrAppend_spec gs t.key hk.1
    rw [parseItems, hfa, R.bind_ok]
    dsimp only
    rw [List.getElem?_append_right (Nat.le_refl _), Nat.sub_self, List.getElem?_cons_zero]
    dsimp only
    -- the function applied to the child
    have hf : ∀ c : TItem, c.term.id = t.id → ∃ c',
        TItem.descend ts.isEmpty (some e) (parseItems (some e) ts) c = .ok c' ∧
        Inserted (t :: ts) e (pathsI t.key t.op.isMatched c) (pathsI t.key t.op.isMatched c')
          (stepsI t.key t.op.isMatched c) (stepsI t.key t.op.isMatched c') := by
      intro c hc
      obtain ⟨u, fin, items⟩ := c
      simp only [TItem.term] at hc
      have hsig : Step.sig (t.key, t.op.isMatched, u) = sigOf t := by
        simp [Step.sig, sigOf, hc]
      cases hts : ts with
      | nil =>
        refine ⟨_, rfl, fun hfr => ?_, fun s hs => .inl hs⟩
        refine ⟨[(t.key, t.op.isMatched, u)], by simpa using hsig, ?_⟩
        cases fin with
        | none => exact List.Perm.refl _
        | some e0 =>
          exfalso
          apply hfr ([(t.key, t.op.isMatched, u)], e0)
          · simp [pathsI]
          · simpa using hsig
      | cons t1 ts1 =>
        rw [← hts]
        obtain ⟨gs', h1, h2⟩ := ih (by simp [hts]) hk.2 items
        refine ⟨.node u fin gs', ?_, ?_⟩
        · have hemp : ts.isEmpty = false := by simp [hts]
          simp [TItem.descend, TItem.items, TItem.term, TItem.fin, h1, hemp]
        refine ⟨fun hfr => ?_, fun s hs => ?_⟩
        · obtain ⟨p, hp, hperm⟩ := h2.paths (by
            intro p hp heq
            apply hfr ((t.key, t.op.isMatched, u) :: p.1, p.2)
            · simp only [pathsI, List.mem_append, List.mem_map]
              exact .inr ⟨p, hp, rfl⟩
            · simp [heq, hsig])
          refine ⟨(t.key, t.op.isMatched, u) :: p, by simp [hp, hsig], ?_⟩
          simp only [pathsI]
          have := (hperm.map (fun p : List Step × (Str × Int) =>
            ((t.key, t.op.isMatched, u) :: p.1, p.2)))
          have h3 := perm_mid (A := fin.toList.map fun e => ([(t.key, t.op.isMatched, u)], e))
            (B := []) this
          simpa using h3
        · simp only [stepsI, List.mem_cons] at hs ⊢
          rcases hs with hs | hs
          · exact .inl (.inl hs)
          · rcases h2.steps s hs with h | ⟨v, hv, h⟩
            · exact .inl (.inr h)
            · exact .inr ⟨v, .inr hv, h⟩
    -- old contents of the groups
    have hold : pathsG gs = pathsG a ++ (pathsC t.key true m ++ pathsC t.key false nm) ++ pathsG b ∧
        stepsG gs = stepsG a ++ (stepsC t.key true m ++ stepsC t.key false nm) ++ stepsG b := by
      rcases hgs with rfl | ⟨rfl, rfl, rfl⟩
      · simp [pathsG_append, stepsG_append, pathsG, stepsG]
      · simp [pathsG_append, stepsG_append, pathsC, stepsC]
    have hset : ∀ x : TGroup, (a ++ (t.key, nm, m) :: b).set a.length x = a ++ x :: b := by
      intro x
      simp
    have hnew : ∀ nm m, pathsG (a ++ (t.key, nm, m) :: b) =
          pathsG a ++ (pathsC t.key true m ++ pathsC t.key false nm) ++ pathsG b ∧
        stepsG (a ++ (t.key, nm, m) :: b) =
          stepsG a ++ (stepsC t.key true m ++ stepsC t.key false nm) ++ stepsG b := by
      intro nm m
      simp [pathsG_append, stepsG_append, pathsG, stepsG]
    rw [hold.1, hold.2]
    cases hop : t.op.isMatched with
    | true =>
      obtain ⟨m', h1, h2⟩ := insertTerm_paths _ t ts e m hf
      rw [if_pos rfl, h1, R.bind_ok, hset]
      refine ⟨_, rfl, ?_⟩
      rw [(hnew _ _).1, (hnew _ _).2]
      rw [hop] at h2
      have := (h2.around [] (pathsC t.key false nm) [] (stepsC t.key false nm)).around
        (pathsG a) (pathsG b) (stepsG a) (stepsG b)
      simpa using this
    | false =>
      obtain ⟨nm', h1, h2⟩ := insertTerm_paths _ t ts e nm hf
      rw [if_neg (by simp), h1, R.bind_ok, hset]
      refine ⟨_, rfl, ?_⟩
      rw [(hnew _ _).1, (hnew _ _).2]
      rw [hop] at h2
      have := (h2.around (pathsC t.key true m) [] (stepsC t.key true m) []).around
        (pathsG a) (pathsG b) (stepsG a) (stepsG b)
      simpa using this

/-! ## Matching -/

/-- A step can be taken. -/
def stepHolds (lib : GoLib) (tags : GoMap Str Str) (s : Step) : Bool :=
  match tags.get s.1 with
  | some v => match s.2.2.matches lib v with
    | .ok b => b
    | _ => false
  | none => !s.2.1

/-- Every question put by the search is answered. -/
def StepAnswers (lib : GoLib) (tags : GoMap Str Str) (s : Step) : Prop :=
  ∀ v, tags.get s.1 = some v → ∃ b, s.2.2.matches lib v = .ok b

/-- The reported entries. -/
def report (lib : GoLib) (tags : GoMap Str Str) (P : List (List Step × (Str × Int))) : Events :=
  (P.filter fun p => p.1.all (stepHolds lib tags)).map Prod.snd

theorem report_append (lib : GoLib) (tags : GoMap Str Str) (P Q : List (List Step × (Str × Int))) :
    report lib tags (P ++ Q) = report lib tags P ++ report lib tags Q := by
  simp [report, List.filter_append]

theorem addR_ok {a b : R (Events × Nat)} {x y : Events} (ha : a = .ok (x, x.length))
    (hb : b = .ok (y, y.length)) : addR a b = .ok (x ++ y, (x ++ y).length) := by
  subst ha; subst hb
  simp [addR, addEv]

mutual
theorem groupsMap_spec (lib : GoLib) (tags : GoMap Str Str) (gs : List (Str × List TItem × List TItem))
    (h : ∀ s ∈ stepsG gs, StepAnswers lib tags s) :
    groupsMap lib tags gs = .ok (report lib tags (pathsG gs), (report lib tags (pathsG gs)).length) := by
  match gs with
  | [] => rfl
  | (k, nm, m) :: gs =>
    have h1 : ∀ s ∈ stepsC k true m, StepAnswers lib tags s := fun s hs => h s (by simp [stepsG, hs])
    have h2 : ∀ s ∈ stepsC k false nm, StepAnswers lib tags s := fun s hs => h s (by simp [stepsG, hs])
    have h3 : ∀ s ∈ stepsG gs, StepAnswers lib tags s := fun s hs => h s (by simp [stepsG, hs])
    rw [groupsMap, pathsG, report_append]
    apply addR_ok _ (groupsMap_spec lib tags gs h3)
    rw [report_append]
    have c1 := childsMap_spec lib tags k true m h1
    have c2 := childsMap_spec lib tags k false nm h2
    cases hg : tags.get k with
    | some v =>
      rw [hg] at c1 c2
      dsimp only
      exact addR_ok (c1 (by simp)) (c2 (by simp))
    | none =>
      rw [hg] at c2
      dsimp only
      rw [c2 (by simp)]
      have hnil : report lib tags (pathsC k true m) = [] := by
        clear c1 c2 h1
        induction m with
        | nil => rfl
        | cons c m ih =>
          rw [pathsC_cons, report_append, ih (fun s hs => h s (by
            simp only [stepsG, stepsC_cons, List.mem_append] at hs ⊢
            rcases hs with (hs | hs) | hs
            · exact .inl (.inl (.inr hs))
            · exact .inl (.inr hs)
            · exact .inr hs)), List.append_nil]
          unfold report
          rw [List.filter_eq_nil_iff.2, List.map_nil]
          intro p hp
          simp only [pathsI_eq, List.mem_append, List.mem_map] at hp
          rcases hp with ⟨e, _, rfl⟩ | ⟨q, _, rfl⟩ <;> simp [stepHolds, hg]
      rw [hnil]
      rfl
theorem childsMap_spec (lib : GoLib) (tags : GoMap Str Str) (k : Str) (b : Bool) (cs : List TItem)
    (h : ∀ s ∈ stepsC k b cs, StepAnswers lib tags s) :
    (tags.get k = none → b = false) →
    childsMap lib tags (tags.get k) cs =
      .ok (report lib tags (pathsC k b cs), (report lib tags (pathsC k b cs)).length) := by
  intro hb
  match cs with
  | [] => rfl
  | c :: cs =>
    have h1 : ∀ s ∈ stepsI k b c, StepAnswers lib tags s := fun s hs => h s (by simp [stepsC, hs])
    have h2 : ∀ s ∈ stepsC k b cs, StepAnswers lib tags s := fun s hs => h s (by simp [stepsC, hs])
    rw [childsMap, pathsC, report_append]
    exact addR_ok (childMap_spec lib tags k b c h1 hb) (childsMap_spec lib tags k b cs h2 hb)
theorem childMap_spec (lib : GoLib) (tags : GoMap Str Str) (k : Str) (b : Bool) (c : TItem)
    (h : ∀ s ∈ stepsI k b c, StepAnswers lib tags s) :
    (tags.get k = none → b = false) →
    childMap lib tags (tags.get k) c =
      .ok (report lib tags (pathsI k b c), (report lib tags (pathsI k b c)).length) := by
  intro hb
  match c with
  | .node t fin gs =>
    have h1 : ∀ s ∈ stepsG gs, StepAnswers lib tags s := fun s hs => h s (by simp [stepsI, hs])
    have h0 := h (k, b, t) (by simp [stepsI])
    rw [childMap, pathsI]
    have hask : askTerm lib t (tags.get k) = .ok (stepHolds lib tags (k, b, t)) := by
      unfold stepHolds
      dsimp only
      cases hg : tags.get k with
      | none => simp [askTerm, hb hg]
      | some v =>
        obtain ⟨x, hx⟩ := h0 v hg
        dsimp only at hx
        simp [askTerm, hx]
    rw [hask, report_append]
    cases hs : stepHolds lib tags (k, b, t) with
    | false =>
      have e1 : report lib tags (fin.toList.map fun e => ([(k, b, t)], e)) = [] := by
        cases fin <;> simp [report, hs]
      have e2 : report lib tags ((pathsG gs).map fun p => ((k, b, t) :: p.1, p.2)) = [] := by
        unfold report
        rw [List.filter_eq_nil_iff.2, List.map_nil]
        intro p hp
        obtain ⟨q, _, rfl⟩ := List.mem_map.1 hp
        simp [hs]
      rw [e1, e2]
      rfl
    | true =>
      have e1 : report lib tags (fin.toList.map fun e => ([(k, b, t)], e)) = fin.toList := by
        cases fin <;> simp [report, hs]
      have e2 : report lib tags ((pathsG gs).map fun p => ((k, b, t) :: p.1, p.2)) =
          report lib tags (pathsG gs) := by
        unfold report
        rw [List.filter_map, List.map_map]
        congr 1
        apply List.filter_congr
        intro p _
        simp [hs]
      rw [e1, e2]
      simp only [whenR, R.bind_ok, if_true]
      apply addR_ok _ (groupsMap_spec lib tags gs h1)
      cases fin <;> rfl
end

end GoMatcher
