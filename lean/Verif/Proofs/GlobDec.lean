import Verif.Spec.Tidy

/-! # The specification of the glob language is decidable (used for examples) -/

namespace GoMatcher

instance (b : Bool) (s : Sub) : Decidable (s.Ok b) := by
  cases s <;> unfold Sub.Ok <;> infer_instance

instance (t : Tok) : Decidable t.Ok := by
  cases t <;> unfold Tok.Ok <;> infer_instance

instance (s : Sub) : Decidable s.noStarClass := by
  cases s <;> unfold Sub.noStarClass <;> infer_instance

instance (t : Tok) : Decidable t.noStarClass := by
  cases t <;> unfold Tok.noStarClass <;> infer_instance

instance decSubsShape (ex : Bool) : (p : Pos) → (ss : List Sub) → (K : Pos → Prop) →
    [∀ q, Decidable (K q)] → Decidable (subsShape ex p ss K)
  | p, [], _, i => i p
  | _, .lit _ :: ss, K, _ => decSubsShape ex .plain ss K
  | _, .cls _ :: ss, K, _ => decSubsShape ex .plain ss K
  | p, .any :: ss, K, _ =>
    have := decSubsShape ex p ss K
    (inferInstance : Decidable (p ≠ .behind ∧ subsShape ex p ss K))
  | p, .star :: ss, K, _ =>
    have := decSubsShape ex (if p = .behind then .behind else .after) ss K
    (inferInstance : Decidable ((p = .behind → ex = false) ∧
      subsShape ex (if p = .behind then .behind else .after) ss K))

instance decShape (ex : Bool) : (p : Pos) → (ts : List Tok) → Decidable (Shape ex p ts)
  | _, [] => isTrue trivial
  | p, .sub s :: ts =>
    have := fun q => decShape ex q ts
    (inferInstance : Decidable (subsShape ex p [s] (fun q => Shape ex q ts)))
  | p, .alt alts :: ts =>
    have := fun q => decShape ex q ts
    (inferInstance : Decidable (if plainAlts alts then
      Shape ex .plain ts ∧
      (p ≠ .plain → (ex = true → alts.length ≤ 1 ∨ endsOrStar ts = true) ∧
        ([] ∈ alts → Shape ex .behind ts))
      else if [.star] ∈ alts then subsShape ex p [.star] (fun q => Shape ex q ts)
      else ∀ a ∈ alts, subsShape ex p.cross a (fun q => Shape ex q.cross ts)))

/-- The two parts of `MaxOk`, token by token. -/
def Tok.noInnerStar : Tok → Prop
  | .alt alts => ∀ a ∈ alts, .star ∉ a
  | _ => True

def Tok.openEnd : Tok → Prop
  | .sub s => s = .star
  | .alt alts => ∃ a ∈ alts, a.getLast? = some .star

instance (t : Tok) : Decidable t.noInnerStar := by
  cases t <;> unfold Tok.noInnerStar <;> infer_instance

instance (t : Tok) : Decidable t.openEnd := by
  cases t <;> unfold Tok.openEnd <;> infer_instance

instance (ts : List Tok) : Decidable (MaxOk ts) :=
  decidable_of_iff ((∀ t ∈ ts, t.noInnerStar) ∨ (∃ t ∈ ts, t.openEnd)) (by
  unfold MaxOk
  apply or_congr
  · constructor
    · intro h t ht alts e
      have := h t ht
      subst e
      exact this
    · intro h t ht
      cases t with
      | sub s => trivial
      | alt alts => exact h _ ht alts rfl
  · constructor
    · rintro ⟨t, ht, h⟩
      refine ⟨t, ht, ?_⟩
      cases t with
      | sub s => exact Or.inl (by rw [show s = .star from h])
      | alt alts => exact Or.inr ⟨alts, rfl, h⟩
    · rintro ⟨t, ht, h⟩
      refine ⟨t, ht, ?_⟩
      rcases h with rfl | ⟨alts, rfl, h⟩
      · rfl
      · exact h)

/-- Cutting a list in two. -/
theorem exists_cut {α : Type} (cs : List α) (P : List α → List α → Prop) :
    (∃ i ∈ List.range (cs.length + 1), P (cs.take i) (cs.drop i)) ↔
      ∃ a b, cs = a ++ b ∧ P a b := by
  constructor
  · rintro ⟨i, _, h⟩
    exact ⟨_, _, (List.take_append_drop i cs).symm, h⟩
  · rintro ⟨a, b, rfl, h⟩
    exact ⟨a.length, by simp; omega, by simpa using h⟩

instance (s : Sub) (cs : List Char) : Decidable (s.Fits cs) :=
  match s, cs with
  | .lit c, cs => inferInstanceAs (Decidable (cs = [c]))
  | .any, cs => inferInstanceAs (Decidable (cs.length = 1))
  | .star, _ => isTrue trivial
  | .cls _, [] => isFalse (by rintro ⟨c, h, _⟩; cases h)
  | .cls es, [c] =>
    if h : ClassMem es c.toNat then isTrue ⟨c, rfl, h⟩
    else isFalse (by rintro ⟨d, e, h'⟩; injection e with e _; subst e; exact h h')
  | .cls _, _ :: _ :: _ => isFalse (by rintro ⟨c, h, _⟩; cases h)

instance decSubsFit : (ss : List Sub) → (cs : List Char) → Decidable (subsFit ss cs)
  | [], cs => inferInstanceAs (Decidable (cs = []))
  | s :: ss, cs =>
    have := fun b => decSubsFit ss b
    decidable_of_iff _ (exists_cut cs fun a b => s.Fits a ∧ subsFit ss b)

instance (t : Tok) (cs : List Char) : Decidable (t.Fits cs) := by
  cases t <;> unfold Tok.Fits <;> infer_instance

instance decFits : (ts : List Tok) → (cs : List Char) → Decidable (Fits ts cs)
  | [], cs => inferInstanceAs (Decidable (cs = []))
  | t :: ts, cs =>
    have := fun b => decFits ts b
    decidable_of_iff _ (exists_cut cs fun a b => t.Fits a ∧ Fits ts b)

end GoMatcher
