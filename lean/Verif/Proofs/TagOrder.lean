import Verif.Model.TagTerm
import Verif.Proofs.Lists

/-! # The order of query terms -/

namespace GoMatcher

theorem strLt_iff (a b : Str) : strLt a b = true ↔ strLe a b = true ∧ a ≠ b := by
  unfold strLt
  constructor
  · intro h
    have h' : strLe b a = false := by simpa using h
    refine ⟨?_, ?_⟩
    · rcases strLe_total a b with h1 | h1
      · exact h1
      · rw [h1] at h'; simp at h'
    · rintro rfl
      rw [strLe_refl] at h'
      simp at h'
  · rintro ⟨h1, h2⟩
    cases h : strLe b a with
    | false => rfl
    | true => exact absurd (strLe_antisymm _ _ h1 h) h2

theorem strLt_irrefl (a : Str) : strLt a a = false := by simp [strLt, strLe_refl]

theorem strLt_trans {a b c : Str} (h1 : strLt a b = true) (h2 : strLt b c = true) :
    strLt a c = true := by
  rw [strLt_iff] at *
  refine ⟨strLe_trans _ _ _ h1.1 h2.1, ?_⟩
  rintro rfl
  exact h1.2 (strLe_antisymm _ _ h1.1 h2.1)

theorem strLt_tri (a b : Str) : strLt a b = true ∨ a = b ∨ strLt b a = true := by
  by_cases h : a = b
  · exact .inr (.inl h)
  · rcases strLe_total a b with h1 | h1
    · exact .inl ((strLt_iff a b).2 ⟨h1, h⟩)
    · exact .inr (.inr ((strLt_iff b a).2 ⟨h1, fun e => h e.symm⟩))

theorem strLt_asymm {a b : Str} (h1 : strLt a b = true) : strLt b a = false := by
  cases h : strLt b a with
  | false => rfl
  | true =>
    have := strLt_trans h1 h
    rw [strLt_irrefl] at this
    simp at this

/-- The order of keys: `__name__` first, then by bytes. -/
def keyLt (a b : Str) : Bool :=
  if a = b then false else if a = nameKey then true else if b = nameKey then false else strLt a b

theorem keyLt_irrefl (a : Str) : keyLt a a = false := by simp [keyLt]

theorem keyLt_tri (a b : Str) : keyLt a b = true ∨ a = b ∨ keyLt b a = true := by
  unfold keyLt
  by_cases h : a = b
  · exact .inr (.inl h)
  · have h' : ¬ b = a := fun e => h e.symm
    simp only [h, h', if_false, false_or]
    by_cases h1 : a = nameKey
    · simp [h1]
    · by_cases h2 : b = nameKey
      · simp [h2]
      · simp only [h1, h2, if_false]
        rcases strLt_tri a b with h3 | h3 | h3
        · exact .inl h3
        · exact absurd h3 h
        · exact .inr h3

theorem keyLt_asymm {a b : Str} (h : keyLt a b = true) : keyLt b a = false := by
  unfold keyLt at *
  by_cases e : a = b
  · simp [e] at h
  · have e' : ¬ b = a := fun e' => e e'.symm
    simp only [e, e', if_false] at h ⊢
    by_cases h1 : a = nameKey
    · have : ¬ b = nameKey := fun h2 => e (by rw [h1, h2])
      simp [h1, this]
    · by_cases h2 : b = nameKey
      · simp [h1, h2] at h
      · simp only [h1, h2, if_false] at h ⊢
        exact strLt_asymm h

theorem keyLt_trans {a b c : Str} (h1 : keyLt a b = true) (h2 : keyLt b c = true) :
    keyLt a c = true := by
  have h3 := keyLt_asymm h2
  have h4 := keyLt_asymm h1
  unfold keyLt at *
  by_cases e1 : a = b
  · simp [e1] at h1
  by_cases e2 : b = c
  · simp [e2] at h2
  by_cases e3 : a = c
  · subst e3
    have e1' : ¬ b = a := fun e => e1 e.symm
    simp only [e1, e1', if_false] at h1 h2 h3 h4
    rw [h1] at h3
    simp at h3
  simp only [e1, e2, e3, if_false] at h1 h2 ⊢
  by_cases n1 : a = nameKey
  · simp [n1]
  by_cases n2 : b = nameKey
  · simp [n1, n2] at h1
  by_cases n3 : c = nameKey
  · simp [n2, n3] at h2
  simp only [n1, n2, n3, if_false] at h1 h2 ⊢
  exact strLt_trans h1 h2

theorem TagOp.num_inj {a b : TagOp} (h : a.num = b.num) : a = b := by
  cases a <;> cases b <;> simp_all [TagOp.num]

/-- The comparison as an order by key, then operator, then value. -/
theorem less_iff (a b : TTerm) : TTerm.less a b = true ↔
    keyLt a.key b.key = true ∨ (a.key = b.key ∧ (a.op.num < b.op.num ∨
      (a.op = b.op ∧ strLt a.value b.value = true))) := by
  unfold TTerm.less keyLt
  by_cases h : a.key = b.key
  · simp only [h, if_true, true_and, Bool.false_eq_true, false_or]
    by_cases h2 : a.op = b.op
    · simp [h2]
    · simp [h2]
  · simp only [h, if_false, false_and, or_false]

theorem less_irrefl (a : TTerm) : TTerm.less a a = false := by
  cases h : TTerm.less a a with
  | false => rfl
  | true =>
    rw [less_iff] at h
    simp [keyLt_irrefl, strLt_irrefl] at h

theorem less_trans {a b c : TTerm} (h1 : TTerm.less a b = true) (h2 : TTerm.less b c = true) :
    TTerm.less a c = true := by
  rw [less_iff] at *
  rcases h1 with h1 | ⟨e1, h1⟩ <;> rcases h2 with h2 | ⟨e2, h2⟩
  · exact .inl (keyLt_trans h1 h2)
  · left; rwa [← e2]
  · left; rwa [e1]
  · right
    refine ⟨by rw [e1, e2], ?_⟩
    rcases h1 with h1 | ⟨o1, h1⟩ <;> rcases h2 with h2 | ⟨o2, h2⟩
    · exact .inl (by omega)
    · left; rwa [← o2]
    · left; rwa [o1]
    · exact .inr ⟨by rw [o1, o2], strLt_trans h1 h2⟩

theorem less_tri (a b : TTerm) : TTerm.less a b = true ∨ a.id = b.id ∨ TTerm.less b a = true := by
  rw [less_iff, less_iff]
  unfold TTerm.id
  rcases keyLt_tri a.key b.key with h | h | h
  · exact .inl (.inl h)
  · rcases Nat.lt_trichotomy a.op.num b.op.num with h2 | h2 | h2
    · exact .inl (.inr ⟨h, .inl h2⟩)
    · have h2 := TagOp.num_inj h2
      rcases strLt_tri a.value b.value with h3 | h3 | h3
      · exact .inl (.inr ⟨h, .inr ⟨h2, h3⟩⟩)
      · exact .inr (.inl (by rw [h, h2, h3]))
      · exact .inr (.inr (.inr ⟨h.symm, .inr ⟨h2.symm, h3⟩⟩))
    · exact .inr (.inr (.inr ⟨h.symm, .inl h2⟩))
  · exact .inr (.inr (.inl h))

/-- `a` may stand before `b`. -/
def termLe (a b : TTerm) : Bool := !TTerm.less b a

theorem termLe_total (a b : TTerm) : termLe a b = true ∨ termLe b a = true := by
  unfold termLe
  cases h : TTerm.less b a with
  | false => exact .inl rfl
  | true =>
    right
    cases h2 : TTerm.less a b with
    | false => rfl
    | true =>
      have := less_trans h h2
      rw [less_irrefl] at this
      simp at this

theorem less_congr_id {a b : TTerm} (h : a.id = b.id) (c : TTerm) :
    TTerm.less a c = TTerm.less b c ∧ TTerm.less c a = TTerm.less c b := by
  simp only [TTerm.id, Prod.mk.injEq] at h
  obtain ⟨h1, h2, h3⟩ := h
  unfold TTerm.less
  rw [h1, h2, h3]
  exact ⟨rfl, rfl⟩

theorem termLe_trans (a b c : TTerm) (h1 : termLe a b = true) (h2 : termLe b c = true) :
    termLe a c = true := by
  unfold termLe at *
  simp only [Bool.not_eq_true'] at *
  cases h : TTerm.less c a with
  | false => rfl
  | true =>
    rcases less_tri b c with h3 | h3 | h3
    · have := less_trans h3 h
      rw [h1] at this; simp at this
    · rw [(less_congr_id h3 a).1, h] at h1
      simp at h1
    · rw [h2] at h3; simp at h3

theorem termLe_antisymm {a b : TTerm} (h1 : termLe a b = true) (h2 : termLe b a = true) :
    a.id = b.id := by
  unfold termLe at *
  simp only [Bool.not_eq_true'] at *
  rcases less_tri a b with h | h | h
  · rw [h2] at h; simp at h
  · exact h
  · rw [h1] at h; simp at h

/-- Two sorted arrangements of terms with the same ids have the same ids in the same order. -/
theorem sorted_ids_unique {l1 l2 : List TTerm} (h1 : l1.Pairwise fun a b => TTerm.less b a = false)
    (h2 : l2.Pairwise fun a b => TTerm.less b a = false)
    (hp : (l1.map TTerm.id).Perm (l2.map TTerm.id)) : l1.map TTerm.id = l2.map TTerm.id := by
  let mk : Str × TagOp × Str → TTerm := fun x => { key := x.1, op := x.2.1, value := x.2.2 }
  have hmk : ∀ t : TTerm, (mk t.id).id = t.id := fun _ => rfl
  have hle : ∀ l : List TTerm, l.Pairwise (fun a b => TTerm.less b a = false) →
      (l.map TTerm.id).Pairwise fun x y => TTerm.less (mk y) (mk x) = false := by
    intro l hl
    rw [List.pairwise_map]
    refine hl.imp ?_
    intro a b h
    rw [(less_congr_id (hmk b) (mk a.id)).1, (less_congr_id (hmk a) b).2]
    exact h
  refine List.Perm.eq_of_pairwise ?_ (hle l1 h1) (hle l2 h2) hp
  intro x y _ _ hxy hyx
  have := termLe_antisymm (a := mk x) (b := mk y) (by simp [termLe, hxy]) (by simp [termLe, hyx])
  exact this

/-- A library with the insertion sort of short slices and a trivial expression engine
(substring search), for examples. -/
def exLib : GoLib where
  reCompiles s := !s.contains 40
  reMatch r s := (strIndex s r).isSome
  sortTerms := sortBy termLe
  sort_perm := sortBy_perm termLe
  sort_sorted l := (sortBy_pairwise termLe termLe_total termLe_trans l).imp (by
    intro a b h
    simpa [termLe] using h)

end GoMatcher
