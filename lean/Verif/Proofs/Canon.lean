import Verif.Proofs.ParseLoc
import Verif.Proofs.TreeSafe

/-! # Items that the tree regards as equal -/

namespace GoMatcher

/-- The same item, but for sizes and search tables. -/
inductive Same : Item → Item → Prop
  | refl (x : Item) : Same x x
  | list {l l' : StringList} (hv : l.vals = l'.vals) (hm : l.minSize = l'.minSize) :
      Same (.list l) (.list l')
  | group {vals vals' : List Item} {mn mn' mx mx' : Int}
      (h : vals.map groupItems = vals'.map groupItems) (h0 : mn = 0 ↔ mn' = 0) :
      Same (.group vals mn mx) (.group vals' mn' mx')

theorem Same.symm {x y : Item} (h : Same x y) : Same y x := by
  cases h with
  | refl => exact .refl _
  | list hv hm => exact .list hv.symm hm.symm
  | group h h0 => exact .group h.symm h0.symm

theorem Same.trans {x y z : Item} (h : Same x y) (h' : Same y z) : Same x z := by
  cases h with
  | refl => exact h'
  | list hv hm =>
    cases h' with
    | refl => exact .list hv hm
    | list hv' hm' => exact .list (hv.trans hv') (hm.trans hm')
  | group h h0 =>
    cases h' with
    | refl => exact .group h h0
    | group h' h0' => exact .group (h.trans h') (h0.trans h0')

/-! ## From `Equal` -/

theorem ranges_equal {a b : RunesRanges} (ha : a.needMerge = false) (hb : b.needMerge = false)
    (h : a.equal b = true) : a = b := by
  cases a
  cases b
  simp only [RunesRanges.equal, Bool.and_eq_true, beq_iff_eq] at h
  simp_all

theorem locS_equal {x y : Item} (hx : LocS x) (hy : LocS y) (h : x.equal y = true) : x = y := by
  cases x <;> first | exact hx.elim | skip
  all_goals (cases y <;> first | exact hy.elim | skip)
  all_goals first
    | (simp only [Item.equal, Bool.false_eq_true] at h; done)
    | (simp only [Item.equal, beq_iff_eq] at h; rw [h]; done)
    | (simp only [Item.equal] at h; rw [ranges_equal hx hy h])

theorem locS_equalItems {xs ys : List Item} (hx : ∀ x ∈ xs, LocS x) (hy : ∀ y ∈ ys, LocS y)
    (h : Item.equalItems xs ys = true) : xs = ys := by
  induction xs generalizing ys with
  | nil =>
    cases ys with
    | nil => rfl
    | cons y ys => simp [Item.equalItems] at h
  | cons x xs ih =>
    cases ys with
    | nil => simp [Item.equalItems] at h
    | cons y ys =>
      simp only [Item.equalItems, Bool.and_eq_true] at h
      rw [locS_equal (hx x (by simp)) (hy y (by simp)) h.1,
        ih (fun x h => hx x (by simp [h])) (fun y h => hy y (by simp [h])) h.2]

theorem value_equal {v w : Item} (hv : ∀ x ∈ groupItems v, LocS x) (hw : ∀ x ∈ groupItems w, LocS x)
    (h : v.equal w = true) : groupItems v = groupItems w := by
  have single : ∀ z : Item, (∀ i a b, z ≠ .chain i a b) → groupItems z = [z] := by
    intro z hz
    cases z <;> first | rfl | exact absurd rfl (hz _ _ _)
  by_cases hc : ∃ i a b, v = .chain i a b
  · obtain ⟨i, a, b, rfl⟩ := hc
    cases w <;> simp only [Item.equal, Bool.false_eq_true] at h
    exact locS_equalItems hv hw h
  · have hc' : ∀ i a b, v ≠ .chain i a b := fun i a b e => hc ⟨i, a, b, e⟩
    have hcw : ∀ i a b, w ≠ .chain i a b := by
      rintro i a b rfl
      cases v <;> simp only [Item.equal, Bool.false_eq_true] at h
      exact hc ⟨_, _, _, rfl⟩
    rw [single v hc', single w hcw] at *
    rw [locS_equal (hv v (by simp)) (hw w (by simp)) h]

theorem values_equal {vs ws : List Item} (hv : ∀ v ∈ vs, ∀ x ∈ groupItems v, LocS x)
    (hw : ∀ v ∈ ws, ∀ x ∈ groupItems v, LocS x) (h : Item.equalItems vs ws = true) :
    vs.map groupItems = ws.map groupItems := by
  induction vs generalizing ws with
  | nil =>
    cases ws with
    | nil => rfl
    | cons y ys => simp [Item.equalItems] at h
  | cons x xs ih =>
    cases ws with
    | nil => simp [Item.equalItems] at h
    | cons y ys =>
      simp only [Item.equalItems, Bool.and_eq_true] at h
      rw [List.map_cons, List.map_cons, value_equal (hv x (by simp)) (hw y (by simp)) h.1,
        ih (fun x h => hv x (by simp [h])) (fun y h => hw y (by simp [h])) h.2]

theorem mem_of_values {vs ws : List Item} (h : vs.map groupItems = ws.map groupItems) {w : Item}
    (hw : w ∈ ws) : ∃ v ∈ vs, groupItems v = groupItems w := by
  have : groupItems w ∈ vs.map groupItems := by rw [h]; exact List.mem_map_of_mem hw
  obtain ⟨v, hv, e⟩ := List.mem_map.1 this
  exact ⟨v, hv, e⟩

theorem anySem_values {vs ws : List Item} (h : vs.map groupItems = ws.map groupItems)
    (cs : List Char) (hs : AnySem vs cs) : AnySem ws cs := by
  obtain ⟨v, hv, hc⟩ := (anySem_iff _ _).1 hs
  obtain ⟨w, hw, e⟩ := mem_of_values h.symm hv
  refine (anySem_iff _ _).2 ⟨w, hw, ?_⟩
  rw [← seqSem_groupItems, e, seqSem_groupItems]
  exact hc

theorem loc_equal {x y : Item} (hx : Loc x) (hy : Loc y) (h : x.equal y = true) : Same x y := by
  by_cases hs : LocS x ∧ LocS y
  · rw [locS_equal hs.1 hs.2 h]
    exact .refl _
  · cases x with
    | list l =>
      cases y <;> simp only [Item.equal, Bool.false_eq_true] at h
      simp only [Bool.and_eq_true, beq_iff_eq] at h
      exact .list h.2 h.1.1
    | group vals mn mx =>
      cases y <;> simp only [Item.equal, Bool.false_eq_true] at h
      rename_i vals' mn' mx'
      have e := values_equal hx.2.2 hy.2.2 h
      refine .group e ⟨fun h0 => ?_, fun h0 => ?_⟩
      · have := hy.1.min [] (anySem_values e [] (hx.1.opt h0))
        simp only [utf8_nil, List.length_nil] at this
        have := hy.2.1
        omega
      · have := hx.1.min [] (anySem_values e.symm [] (hy.1.opt h0))
        simp only [utf8_nil, List.length_nil] at this
        have := hx.2.1
        omega
    | chain => exact hx.elim
    | _ =>
      exfalso
      apply hs
      refine ⟨hx, ?_⟩
      cases y <;> first | exact hy | (simp only [Item.equal, Bool.false_eq_true] at h; done)

/-! ## What is kept -/

theorem Same.sem {x y : Item} (h : Same x y) (cs : List Char) (hs : x.Sem cs) : y.Sem cs := by
  cases h with
  | refl => exact hs
  | list hv hm => simpa only [Item.Sem, hv, hm] using hs
  | group h _ => exact anySem_values h cs hs

theorem writeString_groupItems (v : Item) : Item.writeItems (groupItems v) = v.writeString := by
  cases v <;> simp [groupItems, Item.writeItems, Item.writeString]

theorem writeAlts_values {vs ws : List Item} (b : Bool)
    (h : vs.map groupItems = ws.map groupItems) : Item.writeAlts b vs = Item.writeAlts b ws := by
  induction vs generalizing ws b with
  | nil =>
    cases ws with
    | nil => rfl
    | cons y ys => cases h
  | cons x xs ih =>
    cases ws with
    | nil => cases h
    | cons y ys =>
      simp only [List.map_cons, List.cons.injEq] at h
      rw [Item.writeAlts, Item.writeAlts, ih true h.2, ← writeString_groupItems, h.1,
        writeString_groupItems]

theorem Same.write {x y : Item} (h : Same x y) : x.writeString = y.writeString := by
  cases h with
  | refl => rfl
  | list hv hm => rw [Item.writeString, Item.writeString, hv, hm]
  | group h _ => rw [Item.writeString, Item.writeString, writeAlts_values _ h]

theorem Same.flat {x y : Item} (h : Same x y) (hf : FlatItem x) : FlatItem y := by
  cases h with
  | refl => exact hf
  | list => trivial
  | group h _ =>
    intro v hv
    obtain ⟨w, hw, e⟩ := mem_of_values h hv
    rw [← e]
    exact hf w hw

theorem Same.flatTerm {x y : Item} (h : Same x y) (hf : FlatTerm x) : FlatTerm y := by
  cases h with
  | refl => exact hf
  | list => trivial
  | group h _ =>
    intro v hv
    obtain ⟨w, hw, e⟩ := mem_of_values h hv
    rw [← e]
    exact hf w hw

theorem Same.starFree {x y : Item} (h : Same x y) (hf : StarFree x) : StarFree y := by
  cases h with
  | refl => exact hf
  | list => trivial
  | group h _ =>
    intro v hv
    obtain ⟨w, hw, e⟩ := mem_of_values h hv
    rw [← e]
    exact hf w hw

/-! ## Sequences -/

/-- Item by item the same. -/
def SameL : List Item → List Item → Prop
  | [], [] => True
  | x :: xs, y :: ys => Same x y ∧ SameL xs ys
  | _, _ => False

theorem SameL.refl (xs : List Item) : SameL xs xs := by
  induction xs with
  | nil => trivial
  | cons x xs ih => exact ⟨.refl x, ih⟩

theorem SameL.symm {xs ys : List Item} (h : SameL xs ys) : SameL ys xs := by
  induction xs generalizing ys with
  | nil =>
    cases ys with
    | nil => trivial
    | cons => exact h.elim
  | cons x xs ih =>
    cases ys with
    | nil => exact h.elim
    | cons y ys => exact ⟨h.1.symm, ih h.2⟩

theorem SameL.append {xs ys xs' ys' : List Item} (h : SameL xs ys) (h' : SameL xs' ys') :
    SameL (xs ++ xs') (ys ++ ys') := by
  induction xs generalizing ys with
  | nil =>
    cases ys with
    | nil => exact h'
    | cons => exact h.elim
  | cons x xs ih =>
    cases ys with
    | nil => exact h.elim
    | cons y ys => exact ⟨h.1, ih h.2⟩

theorem SameL.forall {P : Item → Prop} (hP : ∀ x y, Same x y → P x → P y) {xs ys : List Item}
    (h : SameL xs ys) (hx : ∀ x ∈ xs, P x) : ∀ y ∈ ys, P y := by
  induction xs generalizing ys with
  | nil =>
    cases ys with
    | nil => intro y hy; cases hy
    | cons => exact h.elim
  | cons x xs ih =>
    cases ys with
    | nil => exact h.elim
    | cons y ys =>
      intro z hz
      rcases List.mem_cons.1 hz with rfl | hz
      · exact hP x z h.1 (hx x (by simp))
      · exact ih h.2 (fun x h => hx x (by simp [h])) z hz

theorem SameL.sem {xs ys : List Item} (h : SameL xs ys) (cs : List Char) (hs : SeqSem xs cs) :
    SeqSem ys cs := by
  induction xs generalizing ys cs with
  | nil =>
    cases ys with
    | nil => exact hs
    | cons => exact h.elim
  | cons x xs ih =>
    cases ys with
    | nil => exact h.elim
    | cons y ys =>
      obtain ⟨a, b, e, ha, hb⟩ := hs
      exact ⟨a, b, e, h.1.sem a ha, ih h.2 b hb⟩

theorem SameL.write {xs ys : List Item} (h : SameL xs ys) :
    Item.writeItems xs = Item.writeItems ys := by
  induction xs generalizing ys with
  | nil =>
    cases ys with
    | nil => rfl
    | cons => exact h.elim
  | cons x xs ih =>
    cases ys with
    | nil => exact h.elim
    | cons y ys => rw [Item.writeItems, Item.writeItems, h.1.write, ih h.2]

theorem SameL.cons_left {x : Item} {xs ys : List Item} (h : SameL (x :: xs) ys) :
    ∃ y ys', ys = y :: ys' ∧ Same x y ∧ SameL xs ys' := by
  cases ys with
  | nil => exact h.elim
  | cons y ys => exact ⟨y, ys, rfl, h.1, h.2⟩

theorem Good.same {ex a : Bool} {xs ys : List Item} (hg : Good ex a xs) (h : SameL xs ys)
    (hl : ∀ y ∈ ys, Loc y) : Good ex a ys := by
  induction hg generalizing ys with
  | nil a =>
    cases ys with
    | nil => exact .nil a
    | cons => exact h.elim
  | lit hf hr ih =>
    obtain ⟨y, ys, rfl, h1, h2⟩ := h.cons_left
    have hr' := ih h2 (fun y hy => hl y (by simp [hy]))
    cases h1 with
    | refl => exact .lit hf hr'
    | list => exact absurd hf.toDoneItem.flag (by simp [Item.matchAt])
    | group => exact absurd hf.toDoneItem.flag (by simp [Item.matchAt])
  | any hr ih =>
    obtain ⟨y, ys, rfl, h1, h2⟩ := h.cons_left
    cases h1
    exact .any (ih h2 (fun y hy => hl y (by simp [hy])))
  | star hn hr ih =>
    obtain ⟨y, ys, rfl, h1, h2⟩ := h.cons_left
    cases h1
    exact .star hn (ih h2 (fun y hy => hl y (by simp [hy])))
  | @list a l rest hw hk hr ho ih1 ih2 =>
    obtain ⟨y, ys, rfl, h1, h2⟩ := h.cons_left
    have hl' : ∀ y ∈ ys, Loc y := fun y hy => hl y (by simp [hy])
    have hy := hl y (by simp)
    have key : ∀ l' : StringList, l.vals = l'.vals → ListOk l rest → ListOk l' ys := by
      intro l' hv hk
      rcases hk with hk | rfl | ⟨n, r, rfl⟩
      · exact Or.inl (by rw [← hv]; exact hk)
      · cases ys with
        | nil => exact Or.inr (Or.inl rfl)
        | cons => exact h2.elim
      · obtain ⟨z, zs, rfl, h3, h4⟩ := h2.cons_left
        cases h3
        exact Or.inr (Or.inr ⟨n, zs, rfl⟩)
    cases h1 with
    | refl => exact .list hw (fun h1 h2 => key l rfl (hk h1 h2)) (ih1 h2 hl') (fun ha h0 => ih2 ha h0 h2 hl')
    | list hv hm =>
      exact .list hy (fun h1 h2 => key _ hv (hk h1 h2)) (ih1 h2 hl')
        (fun ha h0 => ih2 ha (by rw [hm]; exact h0) h2 hl')
  | @group a vals mn mx rest hw hne hr ho ih1 ih2 =>
    obtain ⟨y, ys, rfl, h1, h2⟩ := h.cons_left
    have hl' : ∀ y ∈ ys, Loc y := fun y hy => hl y (by simp [hy])
    have hy := hl y (by simp)
    have hin : ∀ {vals : List Item} {mn mx : Int}, Loc (.group vals mn mx) → ∀ v ∈ vals,
        ∀ z ∈ groupItems v ++ ys, Loc z := by
      intro vals mn mx hloc v hv z hz
      rcases List.mem_append.1 hz with hz | hz
      · exact (hloc.2.2 v hv z hz).loc
      · exact hl' z hz
    cases h1 with
    | refl =>
      exact .group hw hne (fun v hv => ih1 v hv ((SameL.refl _).append h2) (hin hy v hv))
        (fun h0 => ih2 h0 h2 hl')
    | group hv hm =>
      refine .group hy.1 (fun h1 h2 v' hv' => ?_) (fun v' hv' => ?_)
        (fun h0 => ih2 (hm.2 h0) h2 hl')
      · obtain ⟨v, hv, e⟩ := mem_of_values hv hv'
        rw [← e]
        exact hne h1 h2 v hv
      · obtain ⟨v, hv, e⟩ := mem_of_values hv hv'
        refine ih1 v hv ?_ (hin hy v' hv')
        rw [e]
        exact (SameL.refl _).append h2

theorem NoPan.same {a : Bool} {xs ys : List Item} (hg : NoPan a xs) (h : SameL xs ys) :
    NoPan a ys := by
  induction hg generalizing ys with
  | nil a =>
    cases ys with
    | nil => exact .nil a
    | cons => exact h.elim
  | lit hf hr ih =>
    obtain ⟨y, ys, rfl, h1, h2⟩ := h.cons_left
    cases h1 with
    | refl => exact .lit hf (ih h2)
    | list => exact hf.elim
    | group => exact hf.elim
  | any hr ih =>
    obtain ⟨y, ys, rfl, h1, h2⟩ := h.cons_left
    cases h1
    exact .any (ih h2)
  | star hr ih =>
    obtain ⟨y, ys, rfl, h1, h2⟩ := h.cons_left
    cases h1
    exact .star (ih h2)
  | @list a l rest hr ho ih1 ih2 =>
    obtain ⟨y, ys, rfl, h1, h2⟩ := h.cons_left
    cases h1 with
    | refl => exact .list (ih1 h2) (fun ha h0 => ih2 ha h0 h2)
    | list hv hm => exact .list (ih1 h2) (fun ha h0 => ih2 ha (by rw [hm]; exact h0) h2)
  | @group a vals mn mx rest hr ho ih1 ih2 =>
    obtain ⟨y, ys, rfl, h1, h2⟩ := h.cons_left
    cases h1 with
    | refl =>
      exact .group (fun v hv => ih1 v hv ((SameL.refl _).append h2)) (fun h0 => ih2 h0 h2)
    | group hv hm =>
      refine .group (fun v' hv' => ?_) (fun h0 => ih2 (hm.2 h0) h2)
      obtain ⟨v, hv, e⟩ := mem_of_values hv hv'
      refine ih1 v hv ?_
      rw [e]
      exact (SameL.refl _).append h2

end GoMatcher
