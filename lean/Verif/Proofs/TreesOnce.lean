import Verif.Proofs.TreeOnce
import Verif.Proofs.GTreeOnly

/-! # How often searches in the trees of dotted globs and of tag queries report an index

A search visits every node at most once, and an index stands at one node. -/

namespace GoMatcher

section
variable {i : Int}

theorem atMost_ite {c : Prop} [Decidable c] {n : Nat} {a b : R Ev} (ha : AtMost i n a)
    (hb : AtMost i n b) : AtMost i n (if c then a else b) := by
  split
  · exact ha
  · exact hb

theorem atMost_addBind {n m : Nat} {a b : R Ev} (ha : AtMost i n a) (hb : AtMost i m b) :
    AtMost i (n + m) (do
      let x ← a
      let y ← b
      .ok (addEv x y)) := atMost_addR ha hb

/-- How often the index stands at the end of a path. -/
def occFin (i : Int) (tm : Option (Str × Int)) : Nat := reps i (storeFin tm).1

theorem atMost_occFin (tm : Option (Str × Int)) : AtMost i (occFin i tm) (.ok (storeFin tm)) := by
  rintro _ ⟨⟩
  exact Nat.le_refl _

theorem occFin_some (e : Str × Int) : occFin i (some e) = if e.2 = i then 1 else 0 := by
  unfold occFin reps storeFin
  simp only [List.countP_cons, List.countP_nil, decide_eq_true_eq, Nat.zero_add]

theorem occFin_none : occFin i none = 0 := rfl

/-! ## Dotted globs -/

mutual
/-- How often the index stands in the tree. -/
def GTree.occ (i : Int) : GTree → Nat
  | .node _ tm cm cs => occFin i tm + (occM i cm + occC i cs)
def occM (i : Int) : List (Str × GTree) → Nat
  | [] => 0
  | (_, c) :: cm => c.occ i + occM i cm
def occC (i : Int) : List GTree → Nat
  | [] => 0
  | c :: cs => c.occ i + occC i cs
end

theorem occ_leaf (g : Option Glob) : (GTree.leaf g).occ i = 0 := by
  simp [GTree.leaf, GTree.occ, occM, occC, occFin_none]

theorem atMost_storeTerm (t : GTree) : AtMost i (t.occ i) (.ok (storeTerm t)) := by
  obtain ⟨g, tm, cm, cs⟩ := t
  rw [GTree.occ]
  exact atMost_mono (atMost_occFin tm) (Nat.le_add_right _ _)

mutual
theorem atMost_matchItems (t : GTree) (path : Str) : AtMost i (t.occ i) (t.matchItems path) := by
  match t with
  | .node g tm cm cs =>
    rw [GTree.matchItems, GTree.occ]
    refine atMost_ite (atMost_noEv _) (atMost_mono (atMost_addBind (atMost_mapItems cm _ _)
      (atMost_childItems cs _ _)) (Nat.le_add_left _ _))
theorem atMost_mapItems (cm : List (Str × GTree)) (p r : Str) :
    AtMost i (occM i cm) (mapItems cm p r) := by
  match cm with
  | [] => rw [mapItems]; exact atMost_noEv _
  | (k, c) :: cm =>
    rw [mapItems, occM]
    refine atMost_ite (atMost_mono (atMost_ite (atMost_storeTerm c) (atMost_matchItems c r))
      (Nat.le_add_right _ _)) (atMost_mono (atMost_mapItems cm p r) (Nat.le_add_left _ _))
theorem atMost_childItems (cs : List GTree) (p r : Str) :
    AtMost i (occC i cs) (childItems cs p r) := by
  match cs with
  | [] => rw [childItems]; exact atMost_noEv _
  | c :: cs =>
    rw [childItems, occC]
    refine atMost_bind fun m _ => ?_
    have hb := atMost_childItems cs p r
    cases m with
    | true => exact atMost_addBind (atMost_ite (atMost_storeTerm c) (atMost_matchItems c r)) hb
    | false => exact atMost_addBind (atMost_noEv _) hb
end

mutual
theorem atMost_matchByParts (t : GTree) (ps : List Str) : AtMost i (t.occ i) (t.matchByParts ps) := by
  match t with
  | .node g tm cm cs =>
    cases ps with
    | nil => rw [GTree.matchByParts]; exact atMost_ite (atMost_panic _) (atMost_noEv _)
    | cons p ps =>
      rw [GTree.matchByParts, GTree.occ]
      exact atMost_mono (atMost_addBind (atMost_mapParts cm _ _) (atMost_childParts cs _ _))
        (Nat.le_add_left _ _)
theorem atMost_mapParts (cm : List (Str × GTree)) (p : Str) (r : List Str) :
    AtMost i (occM i cm) (mapParts cm p r) := by
  match cm with
  | [] => rw [mapParts]; exact atMost_noEv _
  | (k, c) :: cm =>
    rw [mapParts, occM]
    refine atMost_ite (atMost_mono (atMost_ite (atMost_storeTerm c) (atMost_matchByParts c r))
      (Nat.le_add_right _ _)) (atMost_mono (atMost_mapParts cm p r) (Nat.le_add_left _ _))
theorem atMost_childParts (cs : List GTree) (p : Str) (r : List Str) :
    AtMost i (occC i cs) (childParts cs p r) := by
  match cs with
  | [] => rw [childParts]; exact atMost_noEv _
  | c :: cs =>
    rw [childParts, occC]
    refine atMost_bind fun m _ => ?_
    have hb := atMost_childParts cs p r
    cases m with
    | true => exact atMost_addBind (atMost_ite (atMost_storeTerm c) (atMost_matchByParts c r)) hb
    | false => exact atMost_addBind (atMost_noEv _) hb
end

theorem occ_insertMap (f : GTree → GTree) (g : Glob) (d : Nat) (hf : ∀ c, (f c).occ i ≤ c.occ i + d)
    (cm : List (Str × GTree)) : occM i (insertMap f g cm) ≤ occM i cm + d := by
  induction cm with
  | nil =>
    have := hf (GTree.leaf (some g))
    rw [occ_leaf] at this
    simpa [insertMap, occM] using this
  | cons x cm ih =>
    obtain ⟨k, c⟩ := x
    have := hf c
    rw [insertMap]
    split <;> simp only [occM] <;> omega

theorem occ_insertChilds (f : GTree → GTree) (g : Glob) (d : Nat) (hf : ∀ c, (f c).occ i ≤ c.occ i + d)
    (cs : List GTree) : occC i (insertChilds f g cs) ≤ occC i cs + d := by
  induction cs with
  | nil =>
    have := hf (GTree.leaf (some g))
    rw [occ_leaf] at this
    simpa [insertChilds, occC] using this
  | cons c cs ih =>
    have := hf c
    rw [insertChilds]
    split <;> simp only [occC] <;> omega

/-- Insertion brings in its own entry once. -/
theorem occ_gInsert (gs : List Glob) (e : Str × Int) (t : GTree) :
    (t.insert gs e).occ i ≤ t.occ i + if e.2 = i then 1 else 0 := by
  induction gs generalizing t with
  | nil =>
    obtain ⟨g, tm, cm, cs⟩ := t
    rw [GTree.insert, GTree.occ, GTree.occ, occFin_some]
    omega
  | cons g gs ih =>
    obtain ⟨x, tm, cm, cs⟩ := t
    rw [GTree.insert]
    split
    · have := occ_insertMap (fun c => c.insert gs e) g _ ih cm
      rw [GTree.occ, GTree.occ]
      omega
    · have := occ_insertChilds (fun c => c.insert gs e) g _ ih cs
      rw [GTree.occ, GTree.occ]
      omega

/-- How often the index stands in the trees of all levels. -/
def occR (i : Int) : List (Nat × GTree) → Nat
  | [] => 0
  | (_, t) :: m => t.occ i + occR i m

theorem occR_get {m : GoMap Nat GTree} {n : Nat} {t : GTree} (h : m.get n = some t) :
    t.occ i ≤ occR i m := by
  induction m with
  | nil => cases h
  | cons x m ih =>
    obtain ⟨k, c⟩ := x
    rw [GoMap.get] at h
    split at h
    · cases h
      exact Nat.le_add_right _ _
    · exact Nat.le_trans (ih h) (Nat.le_add_left _ _)

theorem occR_set (m : GoMap Nat GTree) (n d : Nat) (t : GTree)
    (h : t.occ i ≤ ((m.get n).getD (GTree.leaf none)).occ i + d) :
    occR i (m.set n t) ≤ occR i m + d := by
  induction m with
  | nil =>
    rw [GoMap.get, Option.getD_none, occ_leaf] at h
    simpa [GoMap.set, occR] using h
  | cons x m ih =>
    obtain ⟨k, c⟩ := x
    rw [GoMap.get] at h
    rw [GoMap.set]
    split
    · rename_i hk
      rw [if_pos hk, Option.getD_some] at h
      simp only [occR]
      omega
    · rename_i hk
      rw [if_neg hk] at h
      have := ih h
      simp only [occR]
      omega

theorem occ_addGGlob (root : GoMap Nat GTree) (g : GGlob) (idx : Int) :
    occR i (addGGlob root g idx) ≤ occR i root + if idx = i then 1 else 0 :=
  occR_set _ _ _ _ (occ_gInsert _ _ _)

/-- What a call does to the places of an index. -/
theorem gg_occ (t t' : GGlobTree) (op : GOp) (r : AddRes) (h : op.apply t = .ok (t', r))
    (ht : occR i t.root ≤ if (t.globsIndex.get i).isSome then 1 else 0) :
    occR i t'.root ≤ if (t'.globsIndex.get i).isSome then 1 else 0 := by
  have key : ∀ (g : GGlob) (idx : Int) (q : Str), t.globsIndex.get idx = none →
      occR i (addGGlob t.root g idx) ≤ if ((t.globsIndex.set idx q).get i).isSome then 1 else 0 := by
    intro g idx q hn
    refine Nat.le_trans (occ_addGGlob _ _ _) ?_
    rw [GoMap.get_set]
    by_cases hi : idx = i
    · subst hi
      rw [hn] at ht
      simp only [Option.isSome_none, Bool.false_eq_true, if_false] at ht
      simp only [if_true, Option.isSome_some]
      omega
    · have hi' : ¬ i = idx := fun h => hi h.symm
      rw [if_neg hi]
      simp only [hi, if_false, Nat.add_zero]
      exact ht
  cases op with
  | add s idx =>
    simp only [GOp.apply, GGlobTree.add] at h
    split at h
    · cases h; exact ht
    split at h
    · cases h; exact ht
    split at h
    · cases h; exact ht
    split at h
    · cases h; exact ht
    rename_i hn
    obtain ⟨pr, hpr, h⟩ := R.bind_eq_ok.1 h
    cases pr with
    | error e => cases h; exact ht
    | ok g =>
      dsimp only at h
      split at h
      · cases h; exact ht
      · cases h
        exact key g idx _ hn
  | addGlob g idx =>
    simp only [GOp.apply, R.ok.injEq] at h
    unfold GGlobTree.addGlob at h
    split at h
    · cases h; exact ht
    split at h
    · cases h; exact ht
    split at h
    · cases h; exact ht
    split at h
    · cases h; exact ht
    · rename_i hn
      cases h
      exact key g idx _ hn

/-! ## Tag queries -/

mutual
/-- How often the index stands below the groups. -/
def occG (i : Int) : List (Str × List TItem × List TItem) → Nat
  | [] => 0
  | (_, nm, m) :: gs => occT i m + occT i nm + occG i gs
def occT (i : Int) : List TItem → Nat
  | [] => 0
  | c :: cs => occI i c + occT i cs
def occI (i : Int) : TItem → Nat
  | .node _ f gs => occFin i f + occG i gs
end

theorem occG_append (a b : List TGroup) : occG i (a ++ b) = occG i a + occG i b := by
  induction a with
  | nil => simp [occG]
  | cons x a ih =>
    obtain ⟨k, nm, m⟩ := x
    rw [List.cons_append, occG, occG, ih]
    omega

theorem insertTerm_occ {f : TItem → R TItem} {t : TTerm} {cs cs' : List TItem} {d : Nat}
    (hf : ∀ c c', f c = .ok c' → occI i c' ≤ occI i c + d) (hi : insertTerm f t cs = .ok cs') :
    occT i cs' ≤ occT i cs + d := by
  induction cs generalizing cs' with
  | nil =>
    rw [insertTerm] at hi
    obtain ⟨c, h1, h2⟩ := R.bind_eq_ok.1 hi
    cases h2
    have := hf _ _ h1
    simpa [occT, occI, occG, occFin_none] using this
  | cons x cs ih =>
    rw [insertTerm] at hi
    split at hi
    · obtain ⟨c, h1, h2⟩ := R.bind_eq_ok.1 hi
      cases h2
      have := hf _ _ h1
      simp only [occT]
      omega
    · obtain ⟨c, h1, h2⟩ := R.bind_eq_ok.1 hi
      cases h2
      have := ih h1
      simp only [occT]
      omega

theorem findOrAppend_occ {gs gs' : List TGroup} {key : Str} {n : Nat}
    (hf : findOrAppend gs key = .ok (gs', n)) : occG i gs' = occG i gs := by
  by_cases hk : key = []
  · unfold findOrAppend at hf
    rw [if_pos hk] at hf
    cases hf
    rfl
  · obtain ⟨a, b, nm, m, h1, h2⟩ := findOrAppend_spec gs key hk
    rw [hf] at h1
    cases h1
    rcases h2 with rfl | ⟨rfl, rfl, rfl⟩
    · rfl
    · rw [occG_append, occG_append, occG]
      simp [occT]

theorem occG_set {gs : List TGroup} {n : Nat} {g g' : TGroup} {d : Nat} (hg : gs[n]? = some g)
    (h : occG i [g'] ≤ occG i [g] + d) : occG i (gs.set n g') ≤ occG i gs + d := by
  obtain ⟨hn, rfl⟩ := List.getElem?_eq_some_iff.1 hg
  have e1 : gs = gs.take n ++ ([gs[n]] ++ gs.drop (n + 1)) := by
    rw [List.singleton_append, List.getElem_cons_drop, List.take_append_drop]
  have e2 : gs.set n g' = gs.take n ++ ([g'] ++ gs.drop (n + 1)) := by
    rw [List.set_eq_take_append_cons_drop, if_pos hn]
    rfl
  rw [e2]
  conv => rhs; rw [e1]
  rw [occG_append, occG_append, occG_append, occG_append]
  omega

theorem parseItems_occ (e : Option (Str × Int)) (ts : List TTerm) (gs gs' : List TGroup)
    (hp : parseItems e ts gs = .ok gs') : occG i gs' ≤ occG i gs + occFin i e := by
  induction ts generalizing gs gs' with
  | nil => cases hp
  | cons t ts ih =>
    rw [parseItems] at hp
    obtain ⟨⟨gs1, n⟩, hr, hp⟩ := R.bind_eq_ok.1 hp
    rw [← findOrAppend_occ hr]
    dsimp only at hp
    cases hg : gs1[n]? with
    | none => rw [hg] at hp; cases hp
    | some g =>
      obtain ⟨k, nm, m⟩ := g
      rw [hg] at hp
      dsimp only at hp
      have hf : ∀ c c', TItem.descend ts.isEmpty e (parseItems e ts) c = .ok c' →
          occI i c' ≤ occI i c + occFin i e := by
        intro c c' hd
        obtain ⟨u, fin, items⟩ := c
        unfold TItem.descend at hd
        split at hd
        · cases hd
          cases e with
          | none => simp [TItem.finish]
          | some y =>
            simp only [TItem.finish, occI]
            omega
        · obtain ⟨it, h2, h3⟩ := R.bind_eq_ok.1 hd
          cases h3
          have := ih _ _ h2
          simp only [TItem.items] at this
          simp only [TItem.fin, occI]
          omega
      split at hp
      · obtain ⟨m', h2, h3⟩ := R.bind_eq_ok.1 hp
        cases h3
        refine occG_set hg ?_
        have := insertTerm_occ hf h2
        simp only [occG]
        omega
      · obtain ⟨m', h2, h3⟩ := R.bind_eq_ok.1 hp
        cases h3
        refine occG_set hg ?_
        have := insertTerm_occ hf h2
        simp only [occG]
        omega

theorem atMost_whenR {m : R Bool} {n : Nat} {a : R Ev} (h : AtMost i n a) :
    AtMost i n (whenR m a) := by
  refine atMost_bind fun b _ => ?_
  cases b with
  | true => exact h
  | false => exact atMost_noEv n

mutual
theorem atMost_groupsMap (lib : GoLib) (tags : GoMap Str Str) (gs : List (Str × List TItem × List TItem)) :
    AtMost i (occG i gs) (groupsMap lib tags gs) := by
  match gs with
  | [] => exact atMost_noEv _
  | (k, nm, m) :: gs =>
    rw [groupsMap, occG]
    refine atMost_addR ?_ (atMost_groupsMap lib tags gs)
    cases tags.get k with
    | some v => exact atMost_addR (atMost_childsMap lib tags _ m) (atMost_childsMap lib tags _ nm)
    | none => exact atMost_mono (atMost_childsMap lib tags _ nm) (Nat.le_add_left _ _)
theorem atMost_childsMap (lib : GoLib) (tags : GoMap Str Str) (v : Option Str) (cs : List TItem) :
    AtMost i (occT i cs) (childsMap lib tags v cs) := by
  match cs with
  | [] => exact atMost_noEv _
  | c :: cs =>
    rw [childsMap, occT]
    exact atMost_addR (atMost_childMap lib tags v c) (atMost_childsMap lib tags v cs)
theorem atMost_childMap (lib : GoLib) (tags : GoMap Str Str) (v : Option Str) (c : TItem) :
    AtMost i (occI i c) (childMap lib tags v c) := by
  match c with
  | .node t fin gs =>
    rw [childMap, occI]
    exact atMost_whenR (atMost_addR (atMost_occFin fin) (atMost_groupsMap lib tags gs))
end

mutual
theorem atMost_groupsSlice (lib : GoLib) (tags : List Tag) (pos : Nat)
    (gs : List (Str × List TItem × List TItem)) :
    AtMost i (occG i gs) (groupsSlice lib tags pos gs) := by
  match gs with
  | [] => exact atMost_noEv _
  | (k, nm, m) :: gs =>
    rw [groupsSlice, occG]
    split
    · exact atMost_addR (atMost_mono (atMost_childsSlice lib tags _ nm) (Nat.le_add_left _ _))
        (atMost_groupsSlice lib tags _ gs)
    · split
      · exact atMost_panic _
      · exact atMost_addR (atMost_addR (atMost_childsSlice lib tags _ m)
          (atMost_childsSlice lib tags _ nm)) (atMost_groupsSlice lib tags _ gs)
    · exact atMost_panic _
    · rintro _ ⟨⟩
theorem atMost_childsSlice (lib : GoLib) (tags : List Tag) (v : Option Str) (cs : List TItem) :
    AtMost i (occT i cs) (childsSlice lib tags v cs) := by
  match cs with
  | [] => exact atMost_noEv _
  | c :: cs =>
    rw [childsSlice, occT]
    exact atMost_addR (atMost_childSlice lib tags v c) (atMost_childsSlice lib tags v cs)
theorem atMost_childSlice (lib : GoLib) (tags : List Tag) (v : Option Str) (c : TItem) :
    AtMost i (occI i c) (childSlice lib tags v c) := by
  match c with
  | .node t fin gs =>
    rw [childSlice, occI]
    exact atMost_whenR (atMost_addR (atMost_occFin fin) (atMost_groupsSlice lib tags 0 gs))
end

end

end GoMatcher
