import Verif.Proofs.TreeSem
import Verif.Proofs.MatchSafe

/-! # Trees on which the search ends without a panic, for all byte strings -/

namespace GoMatcher

open Item.size (sizeL)

/-- Paths without a panic or an endless loop. -/
def PSafe (a : Bool) (l : List Item) : Prop := NoPan a l ∧ ∀ x ∈ l, FlatTerm x

theorem Simple.flatTerm {x : Item} (h : Simple x) : FlatTerm x := by
  cases x <;> first | trivial | exact h.elim

theorem PSafe.of_false {l : List Item} (h : PSafe true l) : PSafe false l := ⟨h.1.of_false, h.2⟩

theorem pSafe_lit {a : Bool} {it : Item} {r : List Item} (hl : IsLitItem it) (h : PSafe a (it :: r)) :
    LitSafe a it ∧ PSafe false r := by
  obtain ⟨h, h2⟩ := h
  have h2' : ∀ x ∈ r, FlatTerm x := fun x hx => h2 x (List.mem_cons_of_mem _ hx)
  cases h with
  | lit hd hr => exact ⟨hd, hr, h2'⟩
  | any _ => exact hl.elim
  | star _ => exact hl.elim
  | list _ _ => exact hl.elim
  | group _ _ => exact hl.elim

theorem pSafe_any {a : Bool} {n : Nat} {r : List Item} (h : PSafe a (.any n :: r)) :
    a = false ∧ PSafe false r := by
  obtain ⟨h, h2⟩ := h
  have h2' : ∀ x ∈ r, FlatTerm x := fun x hx => h2 x (List.mem_cons_of_mem _ hx)
  cases h with
  | lit hd hr => exact hd.elim
  | any hr => exact ⟨rfl, hr, h2'⟩

theorem pSafe_star {a : Bool} {n : Nat} {r : List Item} (h : PSafe a (.star n :: r)) :
    PSafe true r := by
  obtain ⟨h, h2⟩ := h
  have h2' : ∀ x ∈ r, FlatTerm x := fun x hx => h2 x (List.mem_cons_of_mem _ hx)
  cases h with
  | lit hd hr => exact hd.elim
  | star hr => exact ⟨hr, h2'⟩

theorem pSafe_strs {a : Bool} {l : StringList} {r : List Item} (h : PSafe a (.list l :: r)) :
    PSafe false r ∧ (a = true → l.minSize = 0 → PSafe true r) := by
  obtain ⟨h, h2⟩ := h
  have h2' : ∀ x ∈ r, FlatTerm x := fun x hx => h2 x (List.mem_cons_of_mem _ hx)
  cases h with
  | lit hd hr => exact hd.elim
  | list hr ho => exact ⟨⟨hr, h2'⟩, fun h h' => ⟨ho h h', h2'⟩⟩

theorem pSafe_group {a : Bool} {vals : List Item} {mn mx : Int} {r : List Item}
    (h : PSafe a (.group vals mn mx :: r)) :
    (∀ v ∈ vals, PSafe a (groupItems v ++ r)) ∧ (mn = 0 → PSafe a r) := by
  obtain ⟨h, h2⟩ := h
  have h2' : ∀ x ∈ r, FlatTerm x := fun x hx => h2 x (List.mem_cons_of_mem _ hx)
  cases h with
  | lit hd hr => exact hd.elim
  | group hr ho =>
    refine ⟨fun v hv => ⟨hr v hv, ?_⟩, fun h => ⟨ho h, h2'⟩⟩
    intro x hx
    rcases List.mem_append.1 hx with hx | hx
    · have hf : FlatTerm (.group vals mn mx) := h2 _ List.mem_cons_self
      exact ((hf v hv).1 x hx).flatTerm
    · exact h2' x hx

theorem pSafe_chain {a : Bool} {xs : List Item} {mn mx : Int} {r : List Item}
    (h : PSafe a (.chain xs mn mx :: r)) : False := by
  cases h.1 with
  | lit hd hr => exact hd.elim

/-! ## Fuel -/

def OkM (N : Nat) (M : TMatcher) : Prop := ∀ t s, t.Live →
  (∀ p e, t.Below p e → PSafe false (t.item :: its p)) →
  t.item.size + sizeOf t.childs + s.length < N → IsOk (M t s)

def OkS (N : Nat) (S : TMatcher) : Prop := ∀ t s, t.Live →
  (∀ p e, t.Below p e → PSafe true (t.item :: its p)) →
  t.item.size + sizeOf t.childs + s.length < N → IsOk (S t s)

def OkI (N : Nat) (I : IMatcher) : Prop := ∀ t s items, t.Live → (∀ x ∈ items, Simple x) →
  StarLast items → (∀ p e, t.Below p e → PSafe false (items ++ its p)) →
  sizeL items + sizeOf t.childs + s.length < N → IsOk (I t s items)

def OkJ (N : Nat) (J : IMatcher) : Prop := ∀ t s items, t.Live → (∀ x ∈ items, Simple x) →
  StarLast items → (∀ p e, t.Below p e → PSafe true (items ++ its p)) →
  sizeL items + sizeOf t.childs + s.length < N → IsOk (J t s items)

theorem skipRunes_pos {s : Str} {k n : Nat} (h0 : k ≠ 0) (h : skipRunes s k = some n) : 0 < n := by
  cases k with
  | zero => exact absurd rfl h0
  | succ k =>
    unfold skipRunes at h
    simp only at h
    split at h
    · simp at h
    · simp only [Option.map_eq_some_iff] at h
      obtain ⟨m, hm, e⟩ := h
      have : (decodeRune s).2 ≠ 0 := by simp_all
      omega

theorem sizeL_le (l : List Item) (h : ∀ x ∈ l, x.size ≤ sizeOf x) : sizeL l ≤ sizeOf l := by
  induction l with
  | nil => simp [sizeL]
  | cons x xs ih =>
    have h1 := h x List.mem_cons_self
    have h2 := ih (fun y hy => h y (List.mem_cons_of_mem _ hy))
    simp only [sizeL, List.cons.sizeOf_spec]
    omega

theorem item_size_le (i : Item) : i.size ≤ sizeOf i := by
  match i with
  | .group vals mn mx =>
    have := sizeL_le vals (fun x hx => item_size_le x)
    simp only [Item.size, Item.group.sizeOf_spec]
    omega
  | .chain vals mn mx =>
    have := sizeL_le vals (fun x hx => item_size_le x)
    simp only [Item.size, Item.chain.sizeOf_spec]
    omega
  | .str _ | .byte _ | .rune _ | .any _ | .star _ | .ranges _ | .list _ =>
    simp [Item.size]
    try omega
termination_by sizeOf i
decreasing_by
  all_goals
    have := List.sizeOf_lt_of_mem hx
    simp
    omega

theorem Tree.need_child {t c : Tree} (h : c ∈ t.childs) :
    c.item.size + sizeOf c.childs < sizeOf t.childs := by
  have h1 := List.sizeOf_lt_of_mem h
  have h2 : c.item.size + sizeOf c.childs ≤ sizeOf c := by
    cases c with
    | node i r tm cs =>
      have := item_size_le i
      simp only [Tree.item, Tree.childs, Tree.node.sizeOf_spec]
      omega
  omega

section
variable {N : Nat} {M S : TMatcher} {I J : IMatcher} {L : Bool → TMatcher}

theorem isOk_next (hM : OkM N M) {t : Tree} {s : Str} (hl : t.Live)
    (hp : ∀ p e, t.Below p e → PSafe false (its p)) (hn : sizeOf t.childs + s.length ≤ N) :
    IsOk (t.next M s) := by
  unfold Tree.next
  refine isOk_addR.2 ⟨isOk_when.2 fun _ => isOk_ok _, isOk_forChilds.2 fun c hc => ?_⟩
  have := Tree.need_child hc
  exact hM c s (hl.child hc) (fun p e h => hp _ _ (.child hc h)) (by omega)

theorem isOk_starChilds (hS : OkS N S) {t : Tree} {s : Str} (hl : t.Live)
    (hp : ∀ p e, t.Below p e → PSafe true (its p)) (hn : sizeOf t.childs + s.length ≤ N) :
    IsOk (forChilds (fun c => S c s) t.childs) := by
  refine isOk_forChilds.2 fun c hc => ?_
  have := Tree.need_child hc
  exact hS c s (hl.child hc) (fun p e h => hp _ _ (.child hc h)) (by omega)

theorem isOk_starNext (hS : OkS N S) {t : Tree} {s : Str} (hl : t.Live)
    (hp : ∀ p e, t.Below p e → PSafe true (its p)) (hn : sizeOf t.childs + s.length ≤ N) :
    IsOk (t.starNext S s) := by
  unfold Tree.starNext
  exact isOk_addR.2 ⟨isOk_ok _, isOk_starChilds hS hl hp hn⟩

theorem isOk_starListInner {s : Str} {k : Str → R Ev} {vals : List Str} {off : Option Nat}
    (h : ∀ u : Str, u.length ≤ s.length → IsOk (k u)) :
    ∃ r, starListInnerEv s k vals off = .ok r := by
  induction vals generalizing off with
  | nil => exact ⟨_, rfl⟩
  | cons v vs ih =>
    unfold starListInnerEv
    split
    · exact ih
    · rename_i i _
      obtain ⟨a, ha⟩ := h (s.drop (i + v.length)) (by simp)
      obtain ⟨b, hb⟩ := ih (off := maxOff off i)
      rw [ha, R.bind_ok, hb, R.bind_ok]
      exact ⟨_, rfl⟩

theorem isOk_starList {k : Str → R Ev} {vals : List Str} {fuel : Nat} {s : Str}
    (hf : s.length < fuel) (h : ∀ u : Str, u.length ≤ s.length → IsOk (k u)) :
    ∃ r, starListEv vals k fuel s = .ok r ∧ r.2.length ≤ s.length := by
  induction fuel generalizing s with
  | zero => omega
  | succ fuel ih =>
    unfold starListEv
    obtain ⟨a, ha⟩ := isOk_starListInner (vals := vals) (off := none) h
    rw [ha, R.bind_ok]
    cases ho : a.2 with
    | none => exact ⟨_, rfl, Nat.le_refl _⟩
    | some o =>
      dsimp only
      have h2 : (s.drop o).length ≤ s.length := by simp
      by_cases hn : (decodeRune (s.drop o)).2 < 1
      · rw [if_pos hn]
        exact ⟨_, rfl, h2⟩
      · rw [if_neg hn]
        have h1 := rune_drop_lt hn
        obtain ⟨b, hb, hb2⟩ := ih (s := (s.drop o).drop (decodeRune (s.drop o)).2) (by omega)
          (fun u hu => h u (by omega))
        rw [hb, R.bind_ok]
        exact ⟨_, rfl, by dsimp only; omega⟩

theorem isOk_again {k : Str → R Ev} {s : Str} (h : ∀ u : Str, u.length < s.length → IsOk (k u)) :
    IsOk (againEv k s) := by
  unfold againEv
  dsimp only
  split
  · exact isOk_noEv
  · rename_i hn
    exact h _ (rune_drop_lt hn)

/-- A round in front: literals and `?`. -/
theorem isOk_doneStep {it : Item} {s : Str} {K : FindFlag → Str → R Ev} (h1 : (it.matchAt s).2 = .done)
    (h2 : ∀ o, (it.matchAt s).1 = some o → o ≤ s.length)
    (hK : ∀ u : Str, u.length ≤ s.length → IsOk (K .done u)) :
    IsOk (if (s.length : Int) < it.minLen then noEv
      else match it.matchAt s with
        | (none, _) => noEv
        | (some offset, flag) => do
          let s ← sliceFrom s offset
          K flag s) := by
  split
  · exact isOk_noEv
  · cases hm : it.matchAt s with
    | mk o fl =>
      rw [hm] at h1 h2
      cases o with
      | none => exact isOk_noEv
      | some o =>
        dsimp only at h1 h2 ⊢
        subst h1
        rw [sliceFrom_le (h2 o rfl), R.bind_ok]
        exact hK _ (by simp)

theorem okM_matchStep (hM : OkM N M) (hS : OkS N S) (hI : OkI N I) :
    OkM (N + 1) (fun t s => t.matchStep M S I s) := by
  intro t s hl hp hn
  obtain ⟨p0, e0, hb0⟩ := hl.path
  have hp0 := hp p0 e0 hb0
  have hpos := size_pos t.item
  have lit : (t.item.matchAt s).2 = .done → (∀ o, (t.item.matchAt s).1 = some o → o ≤ s.length) →
      (∀ p e, t.Below p e → PSafe false (its p)) → IsOk (t.matchStep M S I s) := by
    intro h1 h2 h3
    refine isOk_doneStep (K := fun f s => t.matchFlag M S I f s) h1 h2 ?_
    intro u hu
    have : t.matchFlag M S I .done u = t.next M u := by
      unfold Tree.matchFlag; rfl
    rw [this]
    exact isOk_next hM hl h3 (by omega)
  have lit' : IsLitItem t.item → IsOk (t.matchStep M S I s) := fun h =>
    let hm := lit_matchAt (pSafe_lit h hp0).1 s
    lit hm.1 hm.2 (fun p e hb => (pSafe_lit h (hp p e hb)).2)
  dsimp only
  cases hit : t.item with
  | str _ => exact lit' (by rw [hit]; trivial)
  | byte _ => exact lit' (by rw [hit]; trivial)
  | rune _ => exact lit' (by rw [hit]; trivial)
  | ranges _ => exact lit' (by rw [hit]; trivial)
  | chain _ _ _ => rw [hit] at hp0; exact (pSafe_chain hp0).elim
  | any n =>
    simp only [hit] at hp lit
    exact lit rfl (fun o ho => skipRunes_le ho) (fun p e hb => (pSafe_any (hp p e hb)).2)
  | star n =>
    simp only [hit] at hp
    unfold Tree.matchStep
    rw [hit]
    split
    · exact isOk_noEv
    · simp only [Item.matchAt]
      cases hk : skipRunes s n with
      | none => exact isOk_noEv
      | some k =>
        dsimp only
        rw [sliceFrom_le (skipRunes_le hk), R.bind_ok]
        unfold Tree.matchFlag
        dsimp only
        split
        · exact isOk_ok _
        · exact isOk_starChilds hS hl (fun p e hb => pSafe_star (hp p e hb)) (by simp; omega)
  | list l =>
    simp only [hit] at hp
    unfold Tree.matchStep
    rw [hit]
    split
    · exact isOk_noEv
    · simp only [Item.matchAt, sliceFrom_zero, R.bind_ok]
      unfold Tree.matchFlag
      simp only [hit]
      have hk : ∀ u : Str, u.length ≤ s.length → IsOk (t.next M u) := fun u hu =>
        isOk_next hM hl (fun p e hb => (pSafe_strs (hp p e hb)).1) (by omega)
      exact isOk_addR.2 ⟨isOk_when.2 fun _ => hk s (Nat.le_refl _),
        isOk_listEv.2 fun v _ _ => hk _ (by simp)⟩
  | group vals mn mx =>
    simp only [hit] at hp hp0
    unfold Tree.matchStep
    rw [hit]
    have hf : FlatTerm (.group vals mn mx) := hp0.2 _ List.mem_cons_self
    split
    · exact isOk_noEv
    · simp only [Item.matchAt, sliceFrom_zero, R.bind_ok]
      unfold Tree.matchFlag
      simp only [hit]
      refine isOk_addR.2 ⟨isOk_when.2 fun h0 => ?_, isOk_groupEv.2 fun v hv => ?_⟩
      · exact isOk_next hM hl (fun p e hb => (pSafe_group (hp p e hb)).2 h0) (by omega)
      · refine hI t s _ hl (hf v hv).1 (hf v hv).2 (fun p e hb => (pSafe_group (hp p e hb)).1 v hv) ?_
        have := sizeL_groupItems hv
        rw [hit] at hn
        simp only [Item.size] at hn
        omega

theorem okI_itemsStep (hM : OkM N M) (hS : OkS N S) (hI : OkI N I) (hJ : OkJ N J) :
    OkI (N + 1) (fun t s items => t.itemsStep M S I J s items) := by
  intro t s items hl hsi hst hp hn
  dsimp only
  obtain ⟨p0, e0, hb0⟩ := hl.path
  cases items with
  | nil =>
    unfold Tree.itemsStep
    refine isOk_next hM hl hp ?_
    simp only [sizeL] at hn
    omega
  | cons it rest =>
    have hsi' : ∀ x ∈ rest, Simple x := fun x hx => hsi x (List.mem_cons_of_mem _ hx)
    have hp0 := hp p0 e0 hb0
    have hpos := size_pos it
    have hr1 := sizeL_pos rest
    simp only [sizeL] at hn
    have lit : (it.matchAt s).2 = .done → (∀ o, (it.matchAt s).1 = some o → o ≤ s.length) →
        (∀ p e, t.Below p e → PSafe false (rest ++ its p)) →
        IsOk (t.itemsStep M S I J s (it :: rest)) := by
      intro h1 h2 h3
      refine isOk_doneStep (K := fun f s => t.itemsFlag M S I J it f s rest) h1 h2 ?_
      intro u hu
      have : t.itemsFlag M S I J it .done u rest = I t u rest := by
        unfold Tree.itemsFlag; rfl
      rw [this]
      exact hI t u rest hl hsi' hst.2 h3 (by omega)
    have lit' : IsLitItem it → IsOk (t.itemsStep M S I J s (it :: rest)) := fun h =>
      let hm := lit_matchAt (pSafe_lit h hp0).1 s
      lit hm.1 hm.2 (fun p e hb => (pSafe_lit h (hp p e hb)).2)
    cases it with
    | str _ => exact lit' trivial
    | byte _ => exact lit' trivial
    | rune _ => exact lit' trivial
    | ranges _ => exact lit' trivial
    | any n => exact lit rfl (fun o ho => skipRunes_le ho) (fun p e hb => (pSafe_any (hp p e hb)).2)
    | list _ => exact (hsi _ List.mem_cons_self).elim
    | group _ _ _ => exact (hsi _ List.mem_cons_self).elim
    | chain _ _ _ => exact (hsi _ List.mem_cons_self).elim
    | star n =>
      have hp' : ∀ p e, t.Below p e → PSafe true (rest ++ its p) := fun p e hb =>
        pSafe_star (hp p e hb)
      unfold Tree.itemsStep
      dsimp only
      split
      · exact isOk_noEv
      · simp only [Item.matchAt]
        cases hk : skipRunes s n with
        | none => exact isOk_noEv
        | some k =>
          dsimp only
          rw [sliceFrom_le (skipRunes_le hk), R.bind_ok]
          unfold Tree.itemsFlag
          dsimp only
          by_cases hr : rest = []
          · subst hr
            rw [if_pos rfl]
            exact isOk_starNext hS hl hp' (by simp; omega)
          · rw [if_neg hr]
            have hn0 : n ≠ 0 := by
              rintro rfl
              exact hr (hst.1 rfl)
            have hk1 := skipRunes_pos hn0 hk
            have hk2 := skipRunes_le hk
            refine isOk_addR.2 ⟨hJ t _ rest hl hsi' hst.2 hp' (by simp; omega), ?_⟩
            refine hI t _ _ hl hsi hst hp ?_
            simp only [sizeL, List.length_drop]
            omega

theorem okJ_starItemsStep (hS : OkS N S) (hI : OkI N I) (hJ : OkJ N J) :
    OkJ (N + 1) (fun t s items => t.starItemsStep M S I J s items) := by
  intro t s items hl hsi hst hp hn
  dsimp only
  obtain ⟨p0, e0, hb0⟩ := hl.path
  cases items with
  | nil =>
    unfold Tree.starItemsStep
    refine isOk_starNext hS hl hp ?_
    simp only [sizeL] at hn
    omega
  | cons it rest =>
    have hsi' : ∀ x ∈ rest, Simple x := fun x hx => hsi x (List.mem_cons_of_mem _ hx)
    have hp0 := hp p0 e0 hb0
    have hpos := size_pos it
    have hr1 := sizeL_pos rest
    have hn' := hn
    simp only [sizeL] at hn
    have lit : IsLitItem it → IsOk (t.starItemsStep M S I J s (it :: rest)) := by
      intro h
      obtain ⟨x, hf, hx⟩ := lit_find (pSafe_lit h hp0).1 s
      unfold Tree.starItemsStep
      dsimp only
      split
      · exact isOk_noEv
      · rw [hf, R.bind_ok]
        cases x with
        | none => exact isOk_noEv
        | some x =>
          obtain ⟨o, l⟩ := x
          obtain ⟨h1, h2, h3⟩ := hx o l rfl
          dsimp only
          rw [sliceFrom_le h1, R.bind_ok]
          unfold Tree.starItemsFlag
          have e : sliceFromInt (s.drop o) l = .ok ((s.drop o).drop l.toNat) := by
            unfold sliceFromInt
            rw [if_pos ⟨h2, by rw [List.length_drop]; omega⟩]
          dsimp only
          rw [e, R.bind_ok]
          refine isOk_addR.2 ⟨?_, isOk_again fun u hu => ?_⟩
          · exact hI t _ rest hl hsi' hst.2 (fun p e hb => (pSafe_lit h (hp p e hb)).2)
              (by simp; omega)
          · rw [List.length_drop] at hu
            exact hJ t u _ hl hsi hst hp (by omega)
    cases it with
    | str _ => exact lit trivial
    | byte _ => exact lit trivial
    | rune _ => exact lit trivial
    | ranges _ => exact lit trivial
    | any n => exact absurd (pSafe_any hp0).1 (by simp)
    | list _ => exact (hsi _ List.mem_cons_self).elim
    | group _ _ _ => exact (hsi _ List.mem_cons_self).elim
    | chain _ _ _ => exact (hsi _ List.mem_cons_self).elim
    | star n =>
      have hp' : ∀ p e, t.Below p e → PSafe true (rest ++ its p) := fun p e hb =>
        pSafe_star (hp p e hb)
      unfold Tree.starItemsStep
      dsimp only
      split
      · exact isOk_noEv
      · simp only [Item.find, R.bind_ok, sliceFrom_zero]
        unfold Tree.starItemsFlag
        dsimp only
        split
        · rename_i hr
          subst hr
          exact isOk_starNext hS hl hp' (by omega)
        · exact hJ t s rest hl hsi' hst.2 hp' (by omega)

def OkL (N : Nat) (L : Bool → TMatcher) : Prop := ∀ opt, OkS N (L opt)

theorem okL_starStep (hM : OkM N M) (hS : OkS N S) (hJ : OkJ N J) (hL : OkL N L) :
    OkL (N + 1) (fun opt t s => t.starStep M S J L opt s) := by
  intro opt t s hl hp hn
  dsimp only
  obtain ⟨p0, e0, hb0⟩ := hl.path
  have hp0 := hp p0 e0 hb0
  have hpos := size_pos t.item
  have lit : IsLitItem t.item → IsOk (t.starStep M S J L opt s) := by
    intro h
    obtain ⟨x, hf, hx⟩ := lit_find (pSafe_lit h hp0).1 s
    unfold Tree.starStep
    split
    · exact isOk_noEv
    · rw [hf, R.bind_ok]
      cases x with
      | none => exact isOk_noEv
      | some x =>
        obtain ⟨o, l⟩ := x
        obtain ⟨h1, h2, h3⟩ := hx o l rfl
        dsimp only
        rw [sliceFrom_le h1, R.bind_ok]
        unfold Tree.starFlag
        have e : sliceFromInt (s.drop o) l = .ok ((s.drop o).drop l.toNat) := by
          unfold sliceFromInt
          rw [if_pos ⟨h2, by rw [List.length_drop]; omega⟩]
        dsimp only
        rw [e, R.bind_ok]
        refine isOk_addR.2 ⟨?_, isOk_again fun u hu => ?_⟩
        · split
          · exact isOk_ok _
          · refine isOk_forChilds.2 fun c hc => ?_
            have := Tree.need_child hc
            refine hM c _ (hl.child hc) (fun p e hb => (pSafe_lit h (hp _ _ (.child hc hb))).2) ?_
            simp
            omega
        · rw [List.length_drop] at hu
          exact hL opt t u hl hp (by omega)
  cases hit : t.item with
  | str _ => exact lit (by rw [hit]; trivial)
  | byte _ => exact lit (by rw [hit]; trivial)
  | rune _ => exact lit (by rw [hit]; trivial)
  | ranges _ => exact lit (by rw [hit]; trivial)
  | chain _ _ _ => rw [hit] at hp0; exact (pSafe_chain hp0).elim
  | any n => rw [hit] at hp0; exact absurd (pSafe_any hp0).1 (by simp)
  | star n =>
    simp only [hit] at hp
    unfold Tree.starStep
    rw [hit]
    split
    · exact isOk_noEv
    · simp only [Item.find, R.bind_ok, sliceFrom_zero]
      unfold Tree.starFlag
      dsimp only
      split
      · exact isOk_ok _
      · exact isOk_starChilds hS hl (fun p e hb => pSafe_star (hp p e hb)) (by omega)
  | list l =>
    have hp1 := hp
    simp only [hit] at hp
    unfold Tree.starStep
    rw [hit]
    split
    · exact isOk_noEv
    · simp only [Item.find, R.bind_ok, sliceFrom_zero]
      unfold Tree.starFlag
      simp only [hit]
      have hk : ∀ u : Str, u.length ≤ s.length → IsOk (t.next M u) := fun u hu =>
        isOk_next hM hl (fun p e hb => (pSafe_strs (hp p e hb)).1) (by omega)
      refine isOk_addR.2 ⟨isOk_when.2 fun h0 => ?_, ?_⟩
      · exact isOk_starNext hS hl (fun p e hb => (pSafe_strs (hp p e hb)).2 rfl h0.1) (by omega)
      · obtain ⟨r, hr, hr2⟩ := isOk_starList (vals := l.vals) (Nat.lt_succ_self s.length) hk
        rw [hr, R.bind_ok]
        refine isOk_addR.2 ⟨isOk_ok _, isOk_again fun u hu => isOk_again fun v hv => ?_⟩
        exact hL _ t v hl hp1 (by omega)
  | group vals mn mx =>
    simp only [hit] at hp hp0
    unfold Tree.starStep
    rw [hit]
    have hf : FlatTerm (.group vals mn mx) := hp0.2 _ List.mem_cons_self
    split
    · exact isOk_noEv
    · simp only [Item.find, R.bind_ok, sliceFrom_zero]
      unfold Tree.starFlag
      simp only [hit]
      refine isOk_addR.2 ⟨isOk_when.2 fun h0 => ?_, isOk_groupEv.2 fun v hv => ?_⟩
      · exact isOk_starNext hS hl (fun p e hb => (pSafe_group (hp p e hb)).2 h0) (by omega)
      · refine hJ t s _ hl (hf v hv).1 (hf v hv).2 (fun p e hb => (pSafe_group (hp p e hb)).1 v hv) ?_
        have := sizeL_groupItems hv
        rw [hit] at hn
        simp only [Item.size] at hn
        omega

end

/-- The search ends without a panic when the fuel is large enough. -/
theorem tree_safe (N : Nat) :
    OkM N (Tree.matchT N) ∧ OkL N (Tree.starT N) ∧ OkI N (Tree.itemsT N) ∧
      OkJ N (Tree.starItemsT N) := by
  induction N with
  | zero =>
    refine ⟨?_, ?_, ?_, ?_⟩
    · intro t s _ _ h; omega
    · intro opt t s _ _ h; omega
    · intro t s items _ _ _ _ h; omega
    · intro t s items _ _ _ _ h; omega
  | succ N ih =>
    obtain ⟨hM, hL, hI, hJ⟩ := ih
    exact ⟨okM_matchStep hM (hL true) hI, okL_starStep hM (hL true) hJ hL,
      okI_itemsStep hM (hL true) hI hJ, okJ_starItemsStep (hL true) hI hJ⟩

end GoMatcher
