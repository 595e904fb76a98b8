import Verif.Proofs.MatchTerm

/-! # More fuel does not change an answer -/

namespace GoMatcher

/-- `y` agrees with `x` unless `x` ran out of fuel. -/
def R.Le {α : Type} (x y : R α) : Prop := x ≠ .timeout → y = x

theorem R.Le.refl {α : Type} (x : R α) : R.Le x x := fun _ => rfl

theorem R.Le.trans {α : Type} {x y z : R α} (h1 : R.Le x y) (h2 : R.Le y z) : R.Le x z := by
  intro h
  have := h1 h
  subst this
  exact h2 h

/-- Pointwise order of matchers. -/
def Matcher.Le (F G : Matcher) : Prop := ∀ s items next, R.Le (F s items next) (G s items next)

theorem le_fstR {x y : R (Bool × Bool)} (h : R.Le x y) : R.Le (fstR x) (fstR y) := by
  cases x with
  | timeout => simp [fstR, R.Le]
  | _ => rw [h (by simp)]; exact R.Le.refl _

theorem le_retR {x y : R Bool} (h : R.Le x y) : R.Le (retR x) (retR y) := by
  cases x with
  | timeout => simp [retR, R.Le]
  | _ => rw [h (by simp)]; exact R.Le.refl _

theorem le_orR {x y x' y' : R Bool} (h : R.Le x y) (h' : R.Le x' y') :
    R.Le (orR x x') (orR y y') := by
  cases x with
  | timeout => simp [orR, R.Le]
  | ok m => rw [h (by simp)]; cases m <;> simp [orR, R.Le.refl, h']
  | panic => rw [h (by simp)]; simp [orR, R.Le.refl]

theorem le_contWith {F F' G G' : Matcher} (hF : F.Le F') (hG : G.Le G') (rest : List Item)
    (next : NextItems) (t : Str) :
    R.Le (contWith F G rest next t) (contWith F' G' rest next t) := by
  unfold contWith
  split
  · split
    · exact R.Le.refl _
    · exact le_fstR (hF _ _ _)
  · exact le_fstR (hG _ _ _)

theorem le_listLoop {k k' : Str → R Bool} (h : ∀ t, R.Le (k t) (k' t)) (s : Str)
    (vals : List Str) : R.Le (listLoop s k vals) (listLoop s k' vals) := by
  induction vals with
  | nil => exact R.Le.refl _
  | cons v vs ih =>
    simp only [listLoop]
    split
    · exact le_orR (h _) ih
    · exact ih

theorem le_groupLoop {k k' : Item → R Bool} (h : ∀ t, R.Le (k t) (k' t))
    (vals : List Item) : R.Le (groupLoop k vals) (groupLoop k' vals) := by
  induction vals with
  | nil => exact R.Le.refl _
  | cons v vs ih => exact le_orR (h _) ih

theorem le_starListInner {k k' : Str → R Bool} (h : ∀ t, R.Le (k t) (k' t)) (s : Str)
    (vals : List Str) (off : Option Nat) :
    R.Le (starListInner s k vals off) (starListInner s k' vals off) := by
  induction vals generalizing off with
  | nil => exact R.Le.refl _
  | cons v vs ih =>
    simp only [starListInner]
    split
    · exact ih _
    · rename_i i _
      have h1 := h (s.drop (i + v.length))
      generalize k (s.drop (i + v.length)) = x at *
      cases x with
      | timeout => simp [R.Le]
      | panic => rw [h1 (by simp)]; exact R.Le.refl _
      | ok m =>
        rw [h1 (by simp)]
        cases m with
        | true => exact R.Le.refl _
        | false => exact ih _

theorem le_starListLoop {k k' : Str → R Bool} (h : ∀ t, R.Le (k t) (k' t)) (vals : List Str)
    (fuel : Nat) (s : Str) :
    R.Le (starListLoop vals k fuel s) (starListLoop vals k' fuel s) := by
  induction fuel generalizing s with
  | zero => exact R.Le.refl _
  | succ fuel ih =>
    simp only [starListLoop]
    have h1 := le_starListInner h s vals none
    generalize starListInner s k vals none = x at *
    cases x with
    | timeout => simp [R.Le]
    | panic => rw [h1 (by simp)]; exact R.Le.refl _
    | ok p =>
      rw [h1 (by simp)]
      match p with
      | (true, _) => exact R.Le.refl _
      | (false, none) => exact R.Le.refl _
      | (false, some o) =>
        dsimp only
        split
        · exact R.Le.refl _
        · exact ih _

theorem le_starOptLoop {k k' : Str → R Bool} (h : ∀ t, R.Le (k t) (k' t))
    (fuel : Nat) (s : Str) : R.Le (starOptLoop k fuel s) (starOptLoop k' fuel s) := by
  induction fuel generalizing s with
  | zero => exact R.Le.refl _
  | succ fuel ih =>
    refine le_orR (h _) ?_
    dsimp only
    split
    · exact R.Le.refl _
    · exact ih _

theorem le_matchStep {M M' S S' : Matcher} (hM : M.Le M') (hS : S.Le S') (s : Str)
    (items : List Item) (next : NextItems) :
    R.Le (matchStep M S s items next) (matchStep M' S' s items next) := by
  unfold matchStep
  split
  · split
    · exact R.Le.refl _
    · exact le_retR (le_fstR (hM _ _ _))
  · split
    · exact R.Le.refl _
    split
    · exact R.Le.refl _
    split
    · unfold matchFlag
      split
      · exact hM _ _ _
      · refine le_retR (le_orR ?_ (le_listLoop (fun t => le_contWith hM hM _ _ _) _ _))
        split
        · exact le_contWith hM hM _ _ _
        · exact R.Le.refl _
      · refine le_retR (le_orR ?_ (le_groupLoop (fun t => le_fstR (hM _ _ _)) _))
        split
        · exact le_contWith hM hM _ _ _
        · exact R.Le.refl _
      · split
        · split
          · exact R.Le.refl _
          · exact hS _ _ _
        · exact hS _ _ _
      · exact R.Le.refl _
    · exact R.Le.refl _
    · exact R.Le.refl _

theorem le_againStep {L L' : Matcher} (hL : L.Le L') (s : Str)
    (items : List Item) (next : NextItems) :
    R.Le (againStep L s items next) (againStep L' s items next) := by
  unfold againStep
  dsimp only
  split
  · exact R.Le.refl _
  · exact hL _ _ _

theorem le_loopFlag {M M' S S' L L' : Matcher} (hM : M.Le M') (hS : S.Le S') (hL : L.Le L')
    (it : Item) (flag : FindFlag) (length : Int) (s : Str) (rest : List Item)
    (next : NextItems) :
    R.Le (loopFlag M S L it flag length s rest next)
      (loopFlag M' S' L' it flag length s rest next) := by
  unfold loopFlag
  split
  · split
    · rename_i sub _
      have h1 := hM sub rest next
      generalize M sub rest next = x at *
      cases x with
      | timeout => simp [R.Le]
      | panic => rw [h1 (by simp)]; exact R.Le.refl _
      | ok p =>
        rw [h1 (by simp)]
        dsimp only
        split
        · exact R.Le.refl _
        · exact le_againStep hL _ _ _
    · exact R.Le.refl _
    · exact R.Le.refl _
  · refine le_retR (le_orR ?_ (le_starListLoop (fun t => le_contWith hM hM _ _ _) _ _ _))
    split
    · exact le_starOptLoop (fun t => le_contWith hM hS _ _ _) _ _
    · exact R.Le.refl _
  · refine le_retR (le_orR ?_ (le_groupLoop (fun t => le_fstR (hS _ _ _)) _))
    split
    · exact le_contWith hS hS _ _ _
    · exact R.Le.refl _
  · split
    · split
      · exact R.Le.refl _
      · have h1 := le_fstR (hS s next.next.1 next.next.2)
        generalize fstR (S s next.next.1 next.next.2) = x at *
        cases x with
        | timeout => simp [R.Le]
        | panic => rw [h1 (by simp)]; exact R.Le.refl _
        | ok p =>
          rw [h1 (by simp)]
          dsimp only
          split
          · exact R.Le.refl _
          · exact le_againStep hL _ _ _
    · exact le_againStep hL _ _ _
  · exact R.Le.refl _

theorem le_loopStep {M M' S S' L L' : Matcher} (hM : M.Le M') (hS : S.Le S') (hL : L.Le L')
    (s : Str) (items : List Item) (next : NextItems) :
    R.Le (loopStep M S L s items next) (loopStep M' S' L' s items next) := by
  unfold loopStep
  split
  · split
    · exact R.Le.refl _
    · exact le_retR (le_fstR (hM _ _ _))
  · split
    · exact R.Le.refl _
    split
    · exact R.Le.refl _
    · split
      · exact le_loopFlag hM hS hL _ _ _ _ _ _
      · exact R.Le.refl _
      · exact R.Le.refl _
    · exact R.Le.refl _
    · exact R.Le.refl _

theorem match_succ (fuel : Nat) :
    Matcher.Le (matchItems fuel) (matchItems (fuel + 1)) ∧
    Matcher.Le (matchStarItems fuel) (matchStarItems (fuel + 1)) ∧
    Matcher.Le (starLoop fuel) (starLoop (fuel + 1)) := by
  induction fuel with
  | zero =>
    refine ⟨?_, ?_, ?_⟩ <;> intro s items next h <;>
      simp [matchItems, matchStarItems, starLoop] at h
  | succ fuel ih =>
    obtain ⟨hM, hS, hL⟩ := ih
    refine ⟨?_, ?_, ?_⟩
    · intro s items next
      rw [matchItems, matchItems]
      exact le_matchStep hM hS _ _ _
    · intro s items next
      rw [matchStarItems, matchStarItems]
      unfold starStep
      split
      · split
        · exact R.Le.refl _
        · exact hS _ _ _
      · exact hL _ _ _
    · intro s items next
      rw [starLoop, starLoop]
      exact le_loopStep hM hS hL _ _ _

theorem matchItems_mono {f g : Nat} (h : f ≤ g) : Matcher.Le (matchItems f) (matchItems g) := by
  induction h with
  | refl => exact fun _ _ _ => R.Le.refl _
  | step _ ih => exact fun s i n => (ih s i n).trans ((match_succ _).1 s i n)

/-- With fuel above the bound the answer does not depend on the fuel. -/
theorem matchItems_fuel (s : Str) (items : List Item) (next : NextItems) {f g : Nat}
    (hf : 2 * meas s items next < f) (hg : f ≤ g) :
    matchItems g s items next = matchItems f s items next :=
  matchItems_mono hg s items next ((match_done f).1 s items next hf)

/-- `matchAll` is `matchItems` with any large fuel. -/
theorem matchAll_eq (s : Str) (items : List Item) {f : Nat}
    (hf : 2 * (s.length + Item.size.sizeL items) + 1 ≤ f) :
    matchAll s items = fstR (matchItems f s items []) := by
  have h1 : 2 * meas s items [] < 2 * (s.length + Item.size.sizeL items) + 1 := by
    simp only [meas, sizeN]; omega
  unfold matchAll
  rw [matchItems_fuel s items [] h1 (by omega : _ ≤ 2 * (s.length + Item.size.sizeL items) + 4),
    matchItems_fuel s items [] h1 hf]
  cases matchItems (2 * (s.length + Item.size.sizeL items) + 1) s items [] <;> rfl

end GoMatcher
