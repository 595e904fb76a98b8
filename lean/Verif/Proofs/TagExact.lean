import Verif.Proofs.TagHist

/-! # The search in a tag tree, whenever it returns -/

namespace GoMatcher

/-- Entries with their number. -/
def CountedAs (a : R (Events × Nat)) (x : Events) : Prop := ∀ r, a = .ok r → r = (x, x.length)

theorem CountedAs.addR {a b : R (Events × Nat)} {x y : Events} (ha : CountedAs a x) (hb : CountedAs b y) :
    CountedAs (addR a b) (x ++ y) := by
  intro r hr
  unfold GoMatcher.addR at hr
  obtain ⟨u, h1, hr⟩ := R.bind_eq_ok.1 hr
  obtain ⟨v, h2, hr⟩ := R.bind_eq_ok.1 hr
  have e1 := ha u h1
  have e2 := hb v h2
  subst e1 e2
  cases hr
  simp [addEv]

theorem report_none {lib : GoLib} {tags : GoMap Str Str} {k : Str} (hg : tags.get k = none) (m : List TItem) :
    report lib tags (pathsC k true m) = [] := by
  induction m with
  | nil => rfl
  | cons c m ih =>
    rw [pathsC_cons, report_append, ih, List.append_nil]
    unfold report
    rw [List.filter_eq_nil_iff.2, List.map_nil]
    intro p hp
    simp only [pathsI_eq, List.mem_append, List.mem_map] at hp
    rcases hp with ⟨e, _, rfl⟩ | ⟨q, _, rfl⟩ <;> simp [stepHolds, hg]

mutual
/-- Whenever the search returns, it reports the entries all of whose steps hold. -/
theorem groupsMap_counted (lib : GoLib) (tags : GoMap Str Str) (gs : List (Str × List TItem × List TItem)) :
    CountedAs (groupsMap lib tags gs) (report lib tags (pathsG gs)) := by
  match gs with
  | [] => intro r hr; cases hr; rfl
  | (k, nm, m) :: gs =>
    rw [groupsMap, pathsG, report_append]
    refine CountedAs.addR ?_ (groupsMap_counted lib tags gs)
    rw [report_append]
    have c1 := childsMap_counted lib tags k true m
    have c2 := childsMap_counted lib tags k false nm
    cases hg : tags.get k with
    | some v =>
      rw [hg] at c1 c2
      exact CountedAs.addR (c1 (by simp)) (c2 (by simp))
    | none =>
      rw [hg] at c2
      rw [report_none hg, List.nil_append]
      exact c2 (by simp)
theorem childsMap_counted (lib : GoLib) (tags : GoMap Str Str) (k : Str) (b : Bool) (cs : List TItem) :
    (tags.get k = none → b = false) →
    CountedAs (childsMap lib tags (tags.get k) cs) (report lib tags (pathsC k b cs)) := by
  intro hb
  match cs with
  | [] => intro r hr; cases hr; rfl
  | c :: cs =>
    rw [childsMap, pathsC, report_append]
    exact CountedAs.addR (childMap_counted lib tags k b c hb) (childsMap_counted lib tags k b cs hb)
theorem childMap_counted (lib : GoLib) (tags : GoMap Str Str) (k : Str) (b : Bool) (c : TItem) :
    (tags.get k = none → b = false) →
    CountedAs (childMap lib tags (tags.get k) c) (report lib tags (pathsI k b c)) := by
  intro hb
  match c with
  | .node t fin gs =>
    rw [childMap, pathsI, report_append]
    intro r hr
    unfold whenR at hr
    obtain ⟨a, ha, hr⟩ := R.bind_eq_ok.1 hr
    have hask : stepHolds lib tags (k, b, t) = a := by
      unfold stepHolds
      dsimp only
      cases hg : tags.get k with
      | none =>
        rw [hg] at ha
        cases ha
        simp [hb hg]
      | some v =>
        rw [hg] at ha
        simp only [askTerm] at ha
        simp [ha]
    cases a with
    | false =>
      have e1 : report lib tags (fin.toList.map fun e => ([(k, b, t)], e)) = [] := by
        cases fin <;> simp [report, hask]
      have e2 : report lib tags ((pathsG gs).map fun p => ((k, b, t) :: p.1, p.2)) = [] := by
        unfold report
        rw [List.filter_eq_nil_iff.2, List.map_nil]
        intro p hp
        obtain ⟨q, _, rfl⟩ := List.mem_map.1 hp
        simp [hask]
      rw [e1, e2]
      simp only [Bool.false_eq_true, if_false] at hr
      cases hr
      rfl
    | true =>
      have e1 : report lib tags (fin.toList.map fun e => ([(k, b, t)], e)) = fin.toList := by
        cases fin <;> simp [report, hask]
      have e2 : report lib tags ((pathsG gs).map fun p => ((k, b, t) :: p.1, p.2)) =
          report lib tags (pathsG gs) := by
        unfold report
        rw [List.filter_map, List.map_map]
        congr 1
        apply List.filter_congr
        intro p _
        simp [hask]
      rw [e1, e2]
      simp only [if_true] at hr
      refine CountedAs.addR ?_ (groupsMap_counted lib tags gs) r hr
      intro r hr
      cases hr
      cases fin <;> rfl
end

end GoMatcher
