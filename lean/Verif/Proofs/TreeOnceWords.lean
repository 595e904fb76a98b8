import Verif.Proofs.TreeOnceHist
import Verif.Proofs.StarEnd
import Verif.Spec.Skeleton

/-! # Globs with words in braces that fit a text in one way only -/

namespace GoMatcher

/-- No word is the beginning of another one. -/
def WordsApart (vals : List Str) : Prop := vals.Pairwise fun a b => ¬ a <+: b ∧ ¬ b <+: a

/-- An item that can be passed in one way only. -/
def OneWay : Item → Prop
  | .list l => l.minSize ≠ 0 ∧ WordsApart l.vals
  | it => Solid it ∧ it.isStar = false

/-- An item that can be passed up to the end of the text in one way only. -/
def OneEnd : Item → Prop
  | .list l => l.vals.Pairwise (· ≠ ·) ∧ [] ∉ l.vals
  | it => Solid it

/-- All items but the last can be passed in one way only. -/
def OneWays : List Item → Prop
  | [] => True
  | [it] => OneWay it ∨ OneEnd it
  | it :: rest => OneWay it ∧ OneWays rest

theorem OneWays.tail {it : Item} {rest : List Item} (h : OneWays (it :: rest)) : OneWays rest := by
  cases rest with
  | nil => trivial
  | cons => exact h.2

section
variable {i : Int}

theorem atMost_listEv {s : Str} {k : Str → R Ev} {vals : List Str} (h : WordsApart vals)
    (hk : ∀ u, AtMost i 1 (k u)) : AtMost i 1 (listEv s k vals) := by
  induction vals with
  | nil => exact atMost_noEv 1
  | cons v vs ih =>
    obtain ⟨h1, h2⟩ := List.pairwise_cons.1 h
    rw [listEv]
    split
    · rename_i hv
      have hv' : v <+: s := List.isPrefixOf_iff_prefix.1 hv
      have : listEv s k vs = noEv := by
        have : ∀ w ∈ vs, hasPrefix s w = false := by
          intro w hw
          rw [Bool.eq_false_iff]
          intro hc
          rcases List.prefix_or_prefix_of_prefix hv' (List.isPrefixOf_iff_prefix.1 hc) with h | h
          · exact (h1 w hw).1 h
          · exact (h1 w hw).2 h
        clear ih h1 h2 h
        induction vs with
        | nil => rfl
        | cons w vs ih =>
          rw [listEv, if_neg (by rw [this w (by simp)]; simp)]
          exact ih fun x hx => this x (by simp [hx])
      rw [this]
      exact atMost_addR (m := 0) (hk _) (atMost_noEv 0)
    · exact ih h2

/-- Only the word that is the text counts. -/
theorem atMost_listEnd {s : Str} {k : Str → R Ev} {vals : List Str} (h : vals.Pairwise (· ≠ ·))
    (hk : ∀ u, AtMost i 1 (k u)) (hk0 : ∀ u, u ≠ [] → AtMost i 0 (k u)) :
    AtMost i (if s ∈ vals then 1 else 0) (listEv s k vals) := by
  induction vals with
  | nil => exact atMost_noEv 0
  | cons v vs ih =>
    obtain ⟨h1, h2⟩ := List.pairwise_cons.1 h
    rw [listEv]
    by_cases hv : hasPrefix s v = true
    · rw [if_pos hv]
      have hv' : v <+: s := List.isPrefixOf_iff_prefix.1 hv
      obtain ⟨u, rfl⟩ := hv'
      rw [List.drop_left]
      by_cases hu : u = []
      · subst hu
        rw [List.append_nil] at ih ⊢
        rw [if_neg (fun hc => h1 v hc rfl)] at ih
        rw [if_pos (by simp)]
        exact atMost_addR (m := 0) (hk _) (ih h2)
      · have e : (v ++ u ∈ v :: vs) ↔ v ++ u ∈ vs := by
          constructor
          · intro hm
            rcases List.mem_cons.1 hm with hm | hm
            · exact absurd (by simpa using hm) hu
            · exact hm
          · intro hm
            simp [hm]
        have := atMost_addR (hk0 u hu) (ih h2)
        rw [Nat.zero_add] at this
        simp only [e]
        exact this
    · rw [if_neg hv]
      refine atMost_mono (ih h2) ?_
      split
      · rw [if_pos (by simp [*])]
        exact Nat.le_refl 1
      · exact Nat.zero_le _

theorem once_words (fuel : Nat) (s : Str) (t : Tree) (ps : List (Item × Bool)) (h : t.OnPath i ps)
    (hs : OneWays (t.item :: its ps)) : AtMost i 1 (Tree.matchT fuel t s) := by
  induction fuel generalizing s t ps with
  | zero => rintro _ ⟨⟩
  | succ fuel ih =>
    have hnext : ∀ u, AtMost i 1 (t.next (Tree.matchT fuel) u) := by
      intro u
      refine atMost_next (fun c hc => quiet_matchT fuel hc u) h (fun _ _ => Nat.le_refl 1) ?_
      rintro c qs rfl hq
      exact ih u c qs hq (by simpa using hs.tail)
    rw [Tree.matchT]
    unfold Tree.matchStep
    split
    · exact atMost_noEv 1
    split
    · exact atMost_noEv 1
    rename_i off flag hm
    refine atMost_bind fun u _ => ?_
    by_cases hl : ∃ l, t.item = .list l
    · obtain ⟨l, hl⟩ := hl
      rw [hl] at hs hm
      simp only [Item.matchAt, Prod.mk.injEq] at hm
      obtain ⟨-, rfl⟩ := hm
      unfold Tree.matchFlag
      rw [hl]
      dsimp only
      have hcase : OneWay (.list l) ∨ (ps = [] ∧ OneEnd (.list l)) := by
        cases ps with
        | nil =>
          rcases hs with hs | hs
          · exact .inl hs
          · exact .inr ⟨rfl, hs⟩
        | cons => exact .inl hs.1
      rcases hcase with ⟨h0, hv⟩ | ⟨rfl, hv, hn⟩
      · unfold whenEv
        rw [if_neg h0]
        have := atMost_addR (i := i) (atMost_noEv 0) (atMost_listEv (s := u) hv hnext)
        rwa [Nat.zero_add] at this
      · have h0 : ∀ u, u ≠ [] → AtMost i 0 (t.next (Tree.matchT fuel) u) := by
          intro u hu
          refine atMost_next (fun c hc => quiet_matchT fuel hc u) h (fun _ h => absurd h hu) ?_
          rintro c qs ⟨⟩
        have h2 := atMost_listEnd (s := u) hv hnext h0
        by_cases hu : u = []
        · subst hu
          rw [if_neg hn] at h2
          refine atMost_addR (n := 1) (m := 0) ?_ h2
          unfold whenEv
          split
          · exact hnext _
          · exact atMost_noEv 1
        · have h1 : AtMost i 0 (whenEv (l.minSize = 0) (t.next (Tree.matchT fuel) u)) := by
            unfold whenEv
            split
            · exact h0 u hu
            · exact atMost_noEv 0
          refine atMost_mono (atMost_addR h1 h2) ?_
          split <;> omega
    · have hsol : Solid t.item ∧ (t.item.isStar = false ∨ ps = []) := by
        have hw : OneWay t.item → Solid t.item ∧ (t.item.isStar = false ∨ ps = []) := by
          intro hw
          cases hi : t.item <;> rw [hi] at hw <;> first
            | exact ⟨hw.1, .inl hw.2⟩
            | exact absurd ⟨_, hi⟩ hl
        cases ps with
        | nil =>
          rcases hs with hs | hs
          · exact hw hs
          · refine ⟨?_, .inr rfl⟩
            cases hi : t.item <;> rw [hi] at hs <;> first
              | exact hs
              | exact absurd ⟨_, hi⟩ hl
        | cons => exact hw hs.1
      obtain ⟨hsol, hst⟩ := hsol
      by_cases hst' : ∃ n, t.item = .star n
      · obtain ⟨n, hst'⟩ := hst'
        rw [hst'] at hst hm
        have e' : ps = [] := by
          rcases hst with h | h
          · cases h
          · exact h
        subst e'
        have hf : flag = .star := by
          simp only [Item.matchAt, Prod.mk.injEq] at hm
          exact hm.2.symm
        subst hf
        unfold Tree.matchFlag
        dsimp only
        split
        · exact atMost_fin _
        · cases h with
          | here hc => exact atMost_mono (atMost_quiet (fun c hc => quiet_starT fuel true hc u) _ hc) (Nat.zero_le 1)
      · have hf : flag = .done := by
          have := solid_matchAt hsol (fun n e => hst' ⟨n, e⟩) s
          rw [hm] at this
          exact this
        subst hf
        unfold Tree.matchFlag
        dsimp only
        exact hnext u

end

/-! ## What `Equal` does not look at -/

theorem bare_list {a : Item} {l : StringList} (h : a.bare = (Item.list l).bare) :
    ∃ l', a = .list l' ∧ l'.vals = l.vals ∧ l'.minSize = l.minSize := by
  cases a <;> simp only [Item.bare, reduceCtorEq] at h
  rw [Item.list.injEq] at h
  have h1 := congrArg StringList.vals h
  have h2 := congrArg StringList.minSize h
  exact ⟨_, rfl, h1, h2⟩

theorem bare_isStar {a b : Item} (h : a.bare = b.bare) : a.isStar = b.isStar := by
  cases a <;> cases b <;> simp only [Item.bare, reduceCtorEq] at h <;> rfl

theorem bare_oneWay {a b : Item} (h : a.bare = b.bare) (hb : OneWay b) : OneWay a := by
  by_cases hl : ∃ l, b = .list l
  · obtain ⟨l, rfl⟩ := hl
    obtain ⟨l', rfl, h1, h2⟩ := bare_list h
    unfold OneWay
    dsimp only
    rw [h1, h2]
    exact hb
  · have hb' : Solid b ∧ b.isStar = false := by
      cases b <;> first | exact hb | exact absurd ⟨_, rfl⟩ hl
    have ha : Solid a ∧ a.isStar = false := ⟨bare_solid h hb'.1, by rw [bare_isStar h]; exact hb'.2⟩
    cases a <;> first | exact ha | exact ha.1.elim

theorem bare_oneEnd {a b : Item} (h : a.bare = b.bare) (hb : OneEnd b) : OneEnd a := by
  by_cases hl : ∃ l, b = .list l
  · obtain ⟨l, rfl⟩ := hl
    obtain ⟨l', rfl, h1, h2⟩ := bare_list h
    unfold OneEnd
    dsimp only
    rw [h1]
    exact hb
  · have hb' : Solid b := by
      cases b <;> first | exact hb | exact absurd ⟨_, rfl⟩ hl
    have ha : Solid a := bare_solid h hb'
    cases a <;> first | exact ha | exact ha.elim

theorem bare_oneWays {xs ys : List Item} (h : xs.map Item.bare = ys.map Item.bare)
    (hw : OneWays ys) : OneWays xs := by
  induction ys generalizing xs with
  | nil =>
    cases xs with
    | nil => trivial
    | cons => cases h
  | cons y ys ih =>
    cases xs with
    | nil => cases h
    | cons x xs =>
      simp only [List.map_cons, List.cons.injEq] at h
      have ht := ih h.2 hw.tail
      cases xs with
      | nil =>
        cases ys with
        | nil =>
          rcases hw with hw | hw
          · exact .inl (bare_oneWay h.1 hw)
          · exact .inr (bare_oneEnd h.1 hw)
        | cons => cases h.2
      | cons x' xs =>
        cases ys with
        | nil => cases h.2
        | cons y' ys => exact ⟨bare_oneWay h.1 hw.1, ht⟩

/-! ## Parsing -/

theorem firm_way {x : Item} (h : OneWay x) : Firm x := by
  by_cases hl : ∃ l, x = .list l
  · obtain ⟨l, rfl⟩ := hl
    exact firm_list l
  · cases x <;> first | exact firm_solid h.1 | exact absurd ⟨_, rfl⟩ hl

theorem firm_end {x : Item} (h : OneEnd x) : Firm x := by
  by_cases hl : ∃ l, x = .list l
  · obtain ⟨l, rfl⟩ := hl
    exact firm_list l
  · cases x <;> first | exact firm_solid h | exact absurd ⟨_, rfl⟩ hl

theorem firm_ways {xs : List Item} (h : OneWays xs) : ∀ x ∈ xs, Firm x := by
  induction xs with
  | nil => rintro _ ⟨⟩
  | cons y ys ih =>
    intro x hx
    rcases List.mem_cons.1 hx with rfl | hx
    · cases ys with
      | nil =>
        rcases h with h | h
        · exact firm_way h
        · exact firm_end h
      | cons => exact firm_way h.1
    · exact ih h.tail x hx

/-- A property of all items but the last, and one of the last. -/
def Ends (P Q : Item → Prop) (l : List Item) : Prop := (∀ x ∈ l.dropLast, P x) ∧ ∀ x ∈ l, Q x

theorem Ends.append_right {P Q : Item → Prop} {a b : List Item} (h : Ends P Q (a ++ b)) : Ends P Q b := by
  refine ⟨fun x hx => h.1 x ?_, fun x hx => h.2 x (by simp [hx])⟩
  cases b with
  | nil => cases hx
  | cons y b => rw [List.dropLast_append_of_ne_nil (by simp)]; simp [hx]

theorem Ends.append_left {P Q : Item → Prop} {a b : List Item} (h : Ends P Q (a ++ b)) : Ends P Q a := by
  refine ⟨fun x hx => h.1 x ?_, fun x hx => h.2 x (by simp [hx])⟩
  cases b with
  | nil => simpa using hx
  | cons y b =>
    rw [List.dropLast_append_of_ne_nil (by simp)]
    exact List.mem_append_left _ (List.dropLast_subset _ hx)

theorem Ends.cons {P Q : Item → Prop} {x : Item} {l : List Item} (hq : Q x) (hp : l ≠ [] → P x)
    (h : Ends P Q l) : Ends P Q (x :: l) := by
  refine ⟨fun y hy => ?_, fun y hy => ?_⟩
  · cases l with
    | nil => cases hy
    | cons z l =>
      rw [List.dropLast_cons_of_ne_nil (by simp)] at hy
      rcases List.mem_cons.1 hy with rfl | hy
      · exact hp (by simp)
      · exact h.1 y hy
  · rcases List.mem_cons.1 hy with rfl | hy
    · exact hq
    · exact h.2 y hy

theorem Ends.norm {P Q : Item → Prop} (hP : ∀ x y m, mergeItem x y = some m → P x → P y → P m)
    (hQ : ∀ x y m, mergeItem x y = some m → Q x → Q y → Q m) {l : List Item} (h : Ends P Q l) :
    Ends P Q (norm l) := by
  cases l with
  | nil => exact h
  | cons x l =>
    show Ends P Q (normAux x l)
    induction l generalizing x with
    | nil => exact h
    | cons y l ih =>
      have hd : (x :: y :: l).dropLast = x :: (y :: l).dropLast := rfl
      have hl : Ends P Q (y :: l) := h.append_right (a := [x])
      have hx : P x := h.1 x (by rw [hd]; simp)
      rw [normAux]
      split
      · rename_i m hm
        refine ih m (.cons (hQ x y m hm (h.2 x (by simp)) (h.2 y (by simp))) (fun hne => ?_)
          (hl.append_right (a := [y])))
        refine hP x y m hm hx (hl.1 y ?_)
        rw [List.dropLast_cons_of_ne_nil hne]
        simp
      · exact .cons (h.2 x (by simp)) (fun _ => hx) (ih y hl)

/-- Groups are left out of account. -/
def WayG (x : Item) : Prop := NoGroup x → OneWay x
def EndG (x : Item) : Prop := NoGroup x → OneWay x ∨ OneEnd x

theorem mergeItem_noGroups {x y m : Item} (h : mergeItem x y = some m) :
    (NoGroup x ∧ ∀ l, x ≠ .list l) ∧ NoGroup y ∧ ∀ l, y ≠ .list l := by
  unfold mergeItem at h
  split at h <;> first | cases h; done | exact ⟨⟨nofun, nofun⟩, nofun, nofun⟩

theorem OneWay.solid {x : Item} (h : OneWay x) (hl : ∀ l, x ≠ .list l) : Solid x ∧ x.isStar = false := by
  cases x <;> first | exact h | exact absurd rfl (hl _)

theorem OneEnd.solid {x : Item} (h : OneEnd x) (hl : ∀ l, x ≠ .list l) : Solid x := by
  cases x <;> first | exact h | exact absurd rfl (hl _)

theorem oneWay_of {x : Item} (h : Solid x) (hs : x.isStar = false) : OneWay x := by
  cases x <;> first | exact ⟨h, hs⟩ | exact h.elim

theorem oneEnd_of {x : Item} (h : Solid x) : OneEnd x := by
  cases x <;> first | exact h | exact h.elim

theorem merge_wayG (x y m : Item) (h : mergeItem x y = some m) (hx : WayG x) (hy : WayG y) : WayG m := by
  intro _
  obtain ⟨⟨a1, a2⟩, b1, b2⟩ := mergeItem_noGroups h
  obtain ⟨c1, c2⟩ := (hx a1).solid a2
  obtain ⟨d1, d2⟩ := (hy b1).solid b2
  exact oneWay_of (mergeItem_calm h c1 d1).1 (mergeItem_starless h c2 d2)

theorem merge_endG (x y m : Item) (h : mergeItem x y = some m) (hx : EndG x) (hy : EndG y) : EndG m := by
  intro _
  obtain ⟨⟨a1, a2⟩, b1, b2⟩ := mergeItem_noGroups h
  have hx' : Solid x := (hx a1).elim (fun h => (h.solid a2).1) (fun h => h.solid a2)
  have hy' : Solid y := (hy b1).elim (fun h => (h.solid b2).1) (fun h => h.solid b2)
  exact .inr (oneEnd_of (mergeItem_calm h hx' hy').1)

theorem isLit_solid {x : Item} {w : List Char} (h : IsLit x w) (hne : w ≠ []) :
    Solid x ∧ x.isStar = false := by
  cases x <;> first | exact h.elim | skip
  · refine ⟨?_, rfl⟩
    rw [show _ = utf8 w from h]
    exact fun hc => hne ((utf8_eq_nil _).1 hc)
  all_goals exact ⟨trivial, rfl⟩

theorem chunk_way {c : List Sub} {it : Item} (h : Chunk c it) :
    EndG it ∧ ((∀ s ∈ c, s ≠ .star) → WayG it) := by
  cases h with
  | lits hne h =>
    have := isLit_solid h hne
    exact ⟨fun _ => .inl (oneWay_of this.1 this.2), fun _ _ => oneWay_of this.1 this.2⟩
  | any => exact ⟨fun _ => .inl ⟨trivial, rfl⟩, fun _ _ => ⟨trivial, rfl⟩⟩
  | stars k => exact ⟨fun _ => .inr trivial, fun h => absurd rfl (h .star (by simp [List.replicate_succ]))⟩
  | cls h =>
    rcases h.kind with ⟨c, hc⟩ | ⟨rs, rfl, _⟩
    · have := isLit_solid hc (by simp)
      exact ⟨fun _ => .inl (oneWay_of this.1 this.2), fun _ _ => oneWay_of this.1 this.2⟩
    · exact ⟨fun _ => .inl ⟨trivial, rfl⟩, fun _ _ => ⟨trivial, rfl⟩⟩

theorem strLt_ne {a b : Str} (h : strLt a b = true) : a ≠ b := by
  rintro rfl
  simp [strLt, strLe_refl] at h

theorem alt_way {alts : List (List Sub)} {it : Item} (h : AltRes alts (some it)) (hp : plainAlts alts = true) :
    EndG it ∧ ((∀ a ∈ alts, ∀ b ∈ alts, a <+: b → a = b) → WayG it) := by
  cases h with
  | lit hne _ h =>
    have := isLit_solid h hne
    exact ⟨fun _ => .inl (oneWay_of this.1 this.2), fun _ _ => oneWay_of this.1 this.2⟩
  | @list l _ hw hsem h0 _ _ _ _ _ hsort htwo =>
    have hnd : l.vals.Pairwise (· ≠ ·) := hsort.imp strLt_ne
    refine ⟨fun _ => .inr ⟨hnd, fun hc => ?_⟩, fun hpre _ => ⟨fun hm => ?_, ?_⟩⟩
    · obtain ⟨ws, e, hne⟩ := hw.vals _ hc
      exact hne ((utf8_eq_nil _).1 e.symm)
    · obtain ⟨a, ha, b, hb, hab⟩ := htwo
      have h1 := hpre [] (h0 hm) a ha List.nil_prefix
      have h2 := hpre [] (h0 hm) b hb List.nil_prefix
      exact hab (h1.symm.trans h2)
    · have word : ∀ v ∈ l.vals, ∃ w : List Char, v = utf8 w ∧ w.map Sub.lit ∈ alts := by
        intro v hv
        obtain ⟨w, rfl, hne⟩ := hw.vals v hv
        obtain ⟨a, ha, hf⟩ := (hsem w).1 (.inl hv)
        refine ⟨w, rfl, ?_⟩
        have hlit : a.all Sub.isLit = true := List.all_eq_true.1 hp a ha
        obtain ⟨u, rfl⟩ : ∃ u : List Char, a = u.map Sub.lit := allLit_map hlit
        rw [subsFit_lits] at hf
        rw [hf]
        exact ha
      have key : ∀ v ∈ l.vals, ∀ v' ∈ l.vals, v <+: v' → v = v' := by
        intro v hv v' hv' hpp
        obtain ⟨w, rfl, hw1⟩ := word v hv
        obtain ⟨w', rfl, hw2⟩ := word v' hv'
        obtain ⟨q, rfl⟩ := hasPrefix_utf8 (List.isPrefixOf_iff_prefix.2 hpp)
        have := hpre _ hw1 _ hw2 (by rw [List.map_append]; exact List.prefix_append _ _)
        rw [List.map_append] at this
        have : q = [] := by simpa using this
        rw [this, List.append_nil]
      refine hnd.imp_of_mem ?_
      intro a b ha hb hab
      exact ⟨fun h => hab (key a ha b hb h), fun h => hab (key b hb a ha h).symm⟩
  | star hp' _ => rw [hp] at hp'; cases hp'
  | group => exact ⟨fun h => absurd rfl (h _ _ _), fun _ h => absurd rfl (h _ _ _)⟩

theorem raw_ways {ts : List Tok} {raws : List Item} (h : RawToks ts raws)
    (h1 : ∀ t ∈ ts.dropLast, t.OneWay) (h2 : ∀ t ∈ ts, t.Wordy) : Ends WayG EndG raws := by
  have pre : ∀ {a ts : List Tok}, ts ≠ [] → (∀ t ∈ (a ++ ts).dropLast, t.OneWay) →
      (∀ t ∈ a, t.OneWay) ∧ ∀ t ∈ ts.dropLast, t.OneWay := by
    intro a ts hne h
    rw [List.dropLast_append_of_ne_nil hne] at h
    exact ⟨fun t ht => h t (by simp [ht]), fun t ht => h t (by simp [ht])⟩
  have post : ∀ {a ts : List Tok}, (∀ t ∈ (a ++ ts).dropLast, t.OneWay) → ∀ t ∈ ts.dropLast, t.OneWay := by
    intro a ts h
    cases ts with
    | nil => rintro _ ⟨⟩
    | cons t ts => exact (pre (by simp) h).2
  have ne : ∀ {ts : List Tok} {raws : List Item}, RawToks ts raws → raws ≠ [] → ts ≠ [] := by
    rintro ts raws h hr rfl
    have : ∀ {ts : List Tok} {raws : List Item}, RawToks ts raws → ts = [] → raws = [] := by
      intro ts raws h
      cases h with
      | nil => intro _; rfl
      | chunk h _ => intro e; exact absurd (by simpa using (List.append_eq_nil_iff.1 e).1) h.ne_nil
      | skip => intro e; cases e
      | alt => intro e; cases e
    exact hr (this h rfl)
  induction h with
  | nil => exact ⟨nofun, nofun⟩
  | @chunk c it ts raws h hr ih =>
    obtain ⟨k1, k2⟩ := chunk_way h
    refine .cons k1 (fun hne => k2 fun s hs => ?_) (ih (post h1) fun t ht => h2 t (by simp [ht]))
    exact (pre (ne hr hne) h1).1 (.sub s) (by simp [hs])
  | @skip alts ts raws hne h hr ih => exact ih (post (a := [.alt alts]) h1) fun t ht => h2 t (by simp [ht])
  | @alt alts it ts raws hne h hr ih =>
    obtain ⟨k1, k2⟩ := alt_way h (h2 (.alt alts) (by simp))
    refine .cons k1 (fun hne => k2 ?_) (ih (post (a := [.alt alts]) h1) fun t ht => h2 t (by simp [ht]))
    exact ((pre (a := [.alt alts]) (ne hr hne) h1).1 (.alt alts) (by simp)).2

theorem oneWays_of {l : List Item} (h : Ends WayG EndG l) (hg : ∀ x ∈ l, NoGroup x) : OneWays l := by
  induction l with
  | nil => trivial
  | cons x l ih =>
    have ht := ih (h.append_right (a := [x])) fun y hy => hg y (by simp [hy])
    cases l with
    | nil => exact h.2 x (by simp) (hg x (by simp))
    | cons y l => exact ⟨h.1 x (by simp [List.dropLast]) (hg x (by simp)), ht⟩

/-- The items of a glob with words in braces. -/
theorem globOk_ways {ts : List Tok} {g : Glob} (h : GlobOk ts g) (hng : ∀ x ∈ g.items, NoGroup x)
    (h1 : ∀ t ∈ ts.dropLast, t.OneWay) (h2 : ∀ t ∈ ts, t.Wordy) : OneWays g.items := by
  obtain ⟨l0, mid, l1, raws, lits, rest, tail, W, V, rfl, hr, rfl, f2, f3, f4, f5, f6⟩ := h.layout
  have hmid : ∀ t ∈ mid.dropLast, t.OneWay := by
    intro t ht
    refine h1 t ?_
    have hm : mid ≠ [] := by rintro rfl; cases ht
    rw [List.dropLast_append_of_ne_nil (by simp [hm])]
    refine List.mem_append_right _ ?_
    cases l1 with
    | nil => simpa using ht
    | cons c l1 =>
      rw [List.dropLast_append_of_ne_nil (by simp)]
      exact List.mem_append_left _ (List.dropLast_subset _ ht)
  have he := raw_ways hr hmid fun t ht => h2 t (by simp [ht])
  have hn := he.append_right.norm merge_wayG merge_endG
  rw [f3] at hn
  exact oneWays_of hn.append_left hng

end GoMatcher
