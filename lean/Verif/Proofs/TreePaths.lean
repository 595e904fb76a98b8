import Verif.Model.GlobTree
import Verif.Proofs.MatchComplete

/-! # Paths of the batch tree, and what the loops of the tree search store -/

namespace GoMatcher

/-- `p` leads from `t` (without its own item) to a node that reports `e`. -/
inductive Tree.Below : Tree → List (Item × Bool) → Str × Int → Prop
  | here {t : Tree} {e : Str × Int} (h : t.term = some e) : Below t [] e
  | child {t c : Tree} {p : List (Item × Bool)} {e : Str × Int} (hc : c ∈ t.childs)
      (h : Below c p e) : Below t ((c.item, c.rev) :: p) e

/-- Every node leads to a report. -/
inductive Tree.Live : Tree → Prop
  | mk {t : Tree} (h : ∃ p e, t.Below p e) (hc : ∀ c ∈ t.childs, Live c) : Live t

/-- The items of a path. -/
def its (p : List (Item × Bool)) : List Item := p.map Prod.fst

@[simp] theorem its_nil : its [] = [] := rfl
@[simp] theorem its_cons (i : Item) (r : Bool) (p : List (Item × Bool)) :
    its ((i, r) :: p) = i :: its p := rfl

/-! ## Results -/

def IsOk (x : R Ev) : Prop := ∃ r, x = .ok r

/-- The search ends and stores `e`. -/
def Sto (x : R Ev) (e : Str × Int) : Prop := ∃ r, x = .ok r ∧ e ∈ r.1

theorem Sto.isOk {x : R Ev} {e : Str × Int} (h : Sto x e) : IsOk x := ⟨_, h.choose_spec.1⟩

theorem addEvR_ok {a b : R Ev} {r : Ev} :
    addR a b = .ok r ↔ ∃ x y, a = .ok x ∧ b = .ok y ∧ r = addEv x y := by
  unfold addR
  cases a <;> cases b <;> simp [eq_comm]

theorem isOk_addR {a b : R Ev} : IsOk (addR a b) ↔ IsOk a ∧ IsOk b := by
  unfold IsOk
  constructor
  · rintro ⟨r, h⟩
    obtain ⟨x, y, h1, h2, _⟩ := addEvR_ok.1 h
    exact ⟨⟨x, h1⟩, ⟨y, h2⟩⟩
  · rintro ⟨⟨x, h1⟩, ⟨y, h2⟩⟩
    exact ⟨_, addEvR_ok.2 ⟨x, y, h1, h2, rfl⟩⟩

theorem sto_addR {a b : R Ev} {e : Str × Int} :
    Sto (addR a b) e ↔ (IsOk a ∧ IsOk b) ∧ (Sto a e ∨ Sto b e) := by
  constructor
  · rintro ⟨r, h, he⟩
    obtain ⟨x, y, h1, h2, rfl⟩ := addEvR_ok.1 h
    refine ⟨⟨⟨x, h1⟩, ⟨y, h2⟩⟩, ?_⟩
    rcases List.mem_append.1 he with he | he
    · exact Or.inl ⟨x, h1, he⟩
    · exact Or.inr ⟨y, h2, he⟩
  · rintro ⟨⟨⟨x, h1⟩, ⟨y, h2⟩⟩, h⟩
    refine ⟨_, addEvR_ok.2 ⟨x, y, h1, h2, rfl⟩, ?_⟩
    rcases h with ⟨z, h3, he⟩ | ⟨z, h3, he⟩
    · rw [h1] at h3; cases h3; exact List.mem_append_left _ he
    · rw [h2] at h3; cases h3; exact List.mem_append_right _ he

theorem not_sto_noEv {e : Str × Int} : ¬ Sto noEv e := by
  rintro ⟨r, h, he⟩
  cases h
  cases he

theorem isOk_noEv : IsOk noEv := ⟨_, rfl⟩

theorem sto_fin {t : Option (Str × Int)} {e : Str × Int} :
    Sto (.ok (storeFin t)) e ↔ t = some e := by
  constructor
  · rintro ⟨r, h, he⟩
    cases h
    cases t with
    | none => cases he
    | some x => rw [List.mem_singleton.1 he]
  · rintro rfl
    exact ⟨_, rfl, by simp [storeFin]⟩

theorem isOk_ok (r : Ev) : IsOk (.ok r) := ⟨_, rfl⟩

theorem sto_when {c : Prop} [Decidable c] {a : R Ev} {e : Str × Int} :
    Sto (whenEv c a) e ↔ c ∧ Sto a e := by
  unfold whenEv
  by_cases h : c
  · simp [h]
  · simp [h, not_sto_noEv]

theorem isOk_when {c : Prop} [Decidable c] {a : R Ev} : IsOk (whenEv c a) ↔ (c → IsOk a) := by
  unfold whenEv
  by_cases h : c
  · simp [h]
  · simp [h, isOk_noEv]

theorem isOk_forChilds {k : Tree → R Ev} {cs : List Tree} :
    IsOk (forChilds k cs) ↔ ∀ c ∈ cs, IsOk (k c) := by
  induction cs with
  | nil => simp [forChilds, isOk_noEv]
  | cons c cs ih => simp [forChilds, isOk_addR, ih]

theorem sto_forChilds {k : Tree → R Ev} {cs : List Tree} {e : Str × Int} :
    Sto (forChilds k cs) e ↔ (∀ c ∈ cs, IsOk (k c)) ∧ ∃ c ∈ cs, Sto (k c) e := by
  induction cs with
  | nil => simp [forChilds, not_sto_noEv]
  | cons c cs ih =>
    simp only [forChilds, sto_addR, ih, isOk_forChilds]
    simp only [List.mem_cons, forall_eq_or_imp, exists_eq_or_imp]
    constructor
    · rintro ⟨⟨h1, h2⟩, h3 | ⟨_, h3⟩⟩
      · exact ⟨⟨h1, h2⟩, Or.inl h3⟩
      · exact ⟨⟨h1, h2⟩, Or.inr h3⟩
    · rintro ⟨⟨h1, h2⟩, h3 | h3⟩
      · exact ⟨⟨h1, h2⟩, Or.inl h3⟩
      · exact ⟨⟨h1, h2⟩, Or.inr ⟨h2, h3⟩⟩

theorem isOk_groupEv {k : Item → R Ev} {vs : List Item} :
    IsOk (groupEv k vs) ↔ ∀ v ∈ vs, IsOk (k v) := by
  induction vs with
  | nil => simp [groupEv, isOk_noEv]
  | cons c cs ih => simp [groupEv, isOk_addR, ih]

theorem sto_groupEv {k : Item → R Ev} {vs : List Item} {e : Str × Int} :
    Sto (groupEv k vs) e ↔ (∀ v ∈ vs, IsOk (k v)) ∧ ∃ v ∈ vs, Sto (k v) e := by
  induction vs with
  | nil => simp [groupEv, not_sto_noEv]
  | cons c cs ih =>
    simp only [groupEv, sto_addR, ih, isOk_groupEv]
    simp only [List.mem_cons, forall_eq_or_imp, exists_eq_or_imp]
    constructor
    · rintro ⟨⟨h1, h2⟩, h3 | ⟨_, h3⟩⟩
      · exact ⟨⟨h1, h2⟩, Or.inl h3⟩
      · exact ⟨⟨h1, h2⟩, Or.inr h3⟩
    · rintro ⟨⟨h1, h2⟩, h3 | h3⟩
      · exact ⟨⟨h1, h2⟩, Or.inl h3⟩
      · exact ⟨⟨h1, h2⟩, Or.inr ⟨h2, h3⟩⟩

theorem isOk_listEv {s : Str} {k : Str → R Ev} {vs : List Str} :
    IsOk (listEv s k vs) ↔ ∀ v ∈ vs, hasPrefix s v = true → IsOk (k (s.drop v.length)) := by
  induction vs with
  | nil => simp [listEv, isOk_noEv]
  | cons v vs ih =>
    unfold listEv
    by_cases h : hasPrefix s v = true
    · rw [if_pos h, isOk_addR, ih]
      simp only [List.mem_cons, forall_eq_or_imp, h, true_implies]
    · rw [if_neg h, ih]
      simp only [List.mem_cons, forall_eq_or_imp, h, false_implies, true_and, Bool.false_eq_true]

theorem sto_listEv {s : Str} {k : Str → R Ev} {vs : List Str} {e : Str × Int} :
    Sto (listEv s k vs) e ↔ (∀ v ∈ vs, hasPrefix s v = true → IsOk (k (s.drop v.length))) ∧
      ∃ v ∈ vs, hasPrefix s v = true ∧ Sto (k (s.drop v.length)) e := by
  induction vs with
  | nil => simp [listEv, not_sto_noEv]
  | cons v vs ih =>
    unfold listEv
    by_cases h : hasPrefix s v = true
    · rw [if_pos h, sto_addR, ih, isOk_listEv]
      simp only [List.mem_cons, forall_eq_or_imp, exists_eq_or_imp, h, true_and, true_implies]
      constructor
      · rintro ⟨⟨h1, h2⟩, h3 | ⟨_, h3⟩⟩
        · exact ⟨⟨h1, h2⟩, Or.inl h3⟩
        · exact ⟨⟨h1, h2⟩, Or.inr h3⟩
      · rintro ⟨⟨h1, h2⟩, h3 | h3⟩
        · exact ⟨⟨h1, h2⟩, Or.inl h3⟩
        · exact ⟨⟨h1, h2⟩, Or.inr ⟨h2, h3⟩⟩
    · rw [if_neg h, ih]
      simp only [List.mem_cons, forall_eq_or_imp, exists_eq_or_imp, h, false_implies, true_and,
        false_and, false_or, Bool.false_eq_true]

/-! ## The list search -/

/-- Does the search store `e`? -/
def hasE (e : Str × Int) : R Ev → R Bool
  | .ok r => .ok (decide (e ∈ r.1))
  | .panic => .panic
  | .timeout => .timeout

theorem hasE_true {e : Str × Int} {x : R Ev} : hasE e x = .ok true ↔ Sto x e := by
  cases x <;> simp [hasE, Sto]

theorem hasE_false {e : Str × Int} {x : R Ev} : hasE e x = .ok false ↔ IsOk x ∧ ¬ Sto x e := by
  cases x <;> simp [hasE, Sto, IsOk]

theorem starListInner_ev {s : Str} {k : Str → R Ev} {vals : List Str} {off o : Option Nat} {r : Ev}
    (e : Str × Int) (h : starListInnerEv s k vals off = .ok (r, o)) :
    (e ∈ r.1 ∧ ∃ o', starListInner s (fun u => hasE e (k u)) vals off = .ok (true, o')) ∨
    (e ∉ r.1 ∧ starListInner s (fun u => hasE e (k u)) vals off = .ok (false, o)) := by
  induction vals generalizing off r with
  | nil =>
    simp only [starListInnerEv, R.ok.injEq, Prod.mk.injEq] at h
    obtain ⟨rfl, rfl⟩ := h
    right
    simp [starListInner]
  | cons v vs ih =>
    unfold starListInnerEv at h
    unfold starListInner
    cases hi : strIndex s v with
    | none =>
      simp only [hi] at h ⊢
      exact ih h
    | some i =>
      simp only [hi] at h ⊢
      cases hk : k (s.drop (i + v.length)) with
      | panic => simp [hk] at h
      | timeout => simp [hk] at h
      | ok a =>
        rw [hk, R.bind_ok] at h
        obtain ⟨b, hb, h⟩ := R.bind_eq_ok.1 h
        obtain ⟨b1, b2⟩ := b
        simp only [R.ok.injEq, Prod.mk.injEq] at h
        obtain ⟨rfl, rfl⟩ := h
        rw [show hasE e (.ok a) = .ok (decide (e ∈ a.1)) from rfl]
        by_cases hea : e ∈ a.1
        · left
          exact ⟨List.mem_append_left _ hea, _, by simp [hea]; rfl⟩
        · rcases ih hb with ⟨h1, o', h2⟩ | ⟨h1, h2⟩
          · left
            exact ⟨List.mem_append_right _ h1, o', by simpa [hea] using h2⟩
          · right
            refine ⟨?_, by simpa [hea] using h2⟩
            simp only [addEv, List.mem_append, not_or]
            exact ⟨hea, h1⟩

theorem starList_ev {vals : List Str} {k : Str → R Ev} {fuel : Nat} {s s' : Str} {r : Ev}
    (e : Str × Int) (h : starListEv vals k fuel s = .ok (r, s')) :
    starListLoop vals (fun u => hasE e (k u)) fuel s = .ok (decide (e ∈ r.1)) := by
  induction fuel generalizing s r with
  | zero => simp [starListEv] at h
  | succ fuel ih =>
    unfold starListEv at h
    unfold starListLoop
    obtain ⟨⟨a, o⟩, ha, h⟩ := R.bind_eq_ok.1 h
    rcases starListInner_ev e ha with ⟨h1, o', h2⟩ | ⟨h1, h2⟩
    · rw [h2]
      have : e ∈ r.1 := by
        cases o with
        | none => simp only [R.ok.injEq, Prod.mk.injEq] at h; rw [← h.1]; exact h1
        | some o =>
          dsimp only at h
          split at h
          · simp only [R.ok.injEq, Prod.mk.injEq] at h; rw [← h.1]; exact h1
          · obtain ⟨b, _, h⟩ := R.bind_eq_ok.1 h
            simp only [R.ok.injEq, Prod.mk.injEq] at h
            rw [← h.1]
            exact List.mem_append_left _ h1
      simp [this]
    · rw [h2]
      cases o with
      | none =>
        simp only [R.ok.injEq, Prod.mk.injEq] at h
        rw [← h.1]
        simp [h1]
      | some o =>
        dsimp only at h ⊢
        split at h
        · rename_i hn
          simp only [R.ok.injEq, Prod.mk.injEq] at h
          rw [if_pos hn, ← h.1]
          simp [h1]
        · rename_i hn
          obtain ⟨b, hb, h⟩ := R.bind_eq_ok.1 h
          simp only [R.ok.injEq, Prod.mk.injEq] at h
          rw [if_neg hn, ih (r := b.1) (by rw [hb, ← h.2]), ← h.1]
          simp [addEv, h1]

/-- Every position tried by the list search was answered, and the rest is a suffix of the text. -/
theorem starList_rest {vals : List Str} (hv : ValsOk vals) {k : Str → R Ev} {fuel : Nat}
    {cs : List Char} {s' : Str} {r : Ev} (h : starListEv vals k fuel (utf8 cs) = .ok (r, s')) :
    ∃ t, t <:+ cs ∧ s' = utf8 t := by
  induction fuel generalizing cs r with
  | zero => simp [starListEv] at h
  | succ fuel ih =>
    unfold starListEv at h
    obtain ⟨⟨a, o⟩, ha, h⟩ := R.bind_eq_ok.1 h
    cases o with
    | none =>
      simp only [R.ok.injEq, Prod.mk.injEq] at h
      exact ⟨cs, List.suffix_refl _, h.2.symm⟩
    | some o =>
      dsimp only at h
      have hpos : ∀ (vs : List Str) (off : Option Nat) (a : Ev) (o : Nat),
          (∀ v ∈ vs, v ∈ vals) → starListInnerEv (utf8 cs) k vs off = .ok (a, some o) →
          off = some o ∨ ∃ v ∈ vals, strIndex (utf8 cs) v = some o := by
        intro vs
        induction vs with
        | nil =>
          intro off a o _ h
          simp only [starListInnerEv, R.ok.injEq, Prod.mk.injEq] at h
          exact Or.inl h.2
        | cons v vs ih2 =>
          intro off a o hm h
          unfold starListInnerEv at h
          cases hi : strIndex (utf8 cs) v with
          | none =>
            simp only [hi] at h
            exact ih2 off a o (fun w hw => hm w (by simp [hw])) h
          | some i =>
            simp only [hi] at h
            obtain ⟨x, _, h⟩ := R.bind_eq_ok.1 h
            obtain ⟨⟨y, z⟩, hy, h⟩ := R.bind_eq_ok.1 h
            simp only [R.ok.injEq, Prod.mk.injEq] at h
            obtain ⟨_, rfl⟩ := h
            rcases ih2 _ _ _ (fun w hw => hm w (by simp [hw])) hy with h1 | h1
            · obtain ⟨mo, e1, e2, e3, e4⟩ := maxOff_some off i
              rw [h1] at e1
              cases e1
              rcases e4 with rfl | e4
              · exact Or.inr ⟨v, hm v (by simp), hi⟩
              · exact Or.inl e4
            · exact Or.inr h1
      rcases hpos vals none a o (fun _ h => h) ha with h1 | ⟨v, hvm, hi⟩
      · cases h1
      · obtain ⟨ws, rfl, hne⟩ := hv v hvm
        obtain ⟨p, q, e1, rfl, _⟩ := strIndex_split hi
        rw [e1, List.append_assoc, drop_utf8_append] at h
        obtain ⟨c, ws', rfl⟩ := List.exists_cons_of_ne_nil hne
        rw [List.cons_append, decodeRune_utf8_cons] at h
        dsimp only at h
        rw [if_neg (encode_width_pos c), drop_utf8_cons] at h
        obtain ⟨b, hb, h⟩ := R.bind_eq_ok.1 h
        simp only [R.ok.injEq, Prod.mk.injEq] at h
        obtain ⟨t, h1, h2⟩ := ih (r := b.1) (by rw [hb, ← h.2])
        refine ⟨t, h1.trans ⟨p ++ [c], ?_⟩, h2⟩
        rw [e1]
        simp

theorem sto_againEv {k : Str → R Ev} {cs : List Char} {e : Str × Int} :
    Sto (againEv k (utf8 cs)) e ↔ ∃ c t, cs = c :: t ∧ Sto (k (utf8 t)) e := by
  unfold againEv
  dsimp only
  cases cs with
  | nil =>
    simp [utf8, decodeRune, not_sto_noEv]
  | cons c t =>
    rw [decodeRune_utf8_cons]
    dsimp only
    rw [if_neg (encode_width_pos c), drop_utf8_cons]
    constructor
    · intro h; exact ⟨c, t, rfl, h⟩
    · rintro ⟨_, _, h, h2⟩; cases h; exact h2

theorem isOk_againEv {k : Str → R Ev} {cs : List Char} :
    IsOk (againEv k (utf8 cs)) ↔ ∀ c t, cs = c :: t → IsOk (k (utf8 t)) := by
  unfold againEv
  dsimp only
  cases cs with
  | nil => simp [utf8, decodeRune, isOk_noEv]
  | cons c t =>
    rw [decodeRune_utf8_cons]
    dsimp only
    rw [if_neg (encode_width_pos c), drop_utf8_cons]
    constructor
    · rintro h _ _ h2; cases h2; exact h
    · intro h; exact h c t rfl

end GoMatcher
