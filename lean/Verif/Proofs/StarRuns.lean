import Verif.Spec.StarRuns
import Verif.Proofs.StepsParse
import Verif.Proofs.TreeOnceHist

/-! # Star items of a glob without braces -/

namespace GoMatcher

def Item.isStar : Item → Bool
  | .star _ => true
  | _ => false

def nStars (l : List Item) : Nat := l.countP Item.isStar

/-- The same count as `starRuns` on items. -/
def itemRuns : Bool → List Item → Nat
  | _, [] => 0
  | p, .star _ :: xs => (if p then 0 else 1) + itemRuns true xs
  | p, .any _ :: xs => itemRuns p xs
  | _, _ :: xs => itemRuns false xs

theorem nStars_normAux (x : Item) (ys : List Item) :
    nStars (normAux x ys) = (if x.isStar then 1 else 0) + itemRuns x.isStar ys := by
  induction ys generalizing x with
  | nil => cases x <;> rfl
  | cons y ys ih =>
    rw [normAux]
    have hc : ∀ (x : Item) l, nStars (x :: l) = (if x.isStar then 1 else 0) + nStars l := by
      intro x l
      unfold nStars
      rw [List.countP_cons]
      exact Nat.add_comm _ _
    split
    · rename_i m hm
      rw [ih m]
      cases y <;> cases x <;> simp only [mergeItem, Option.some.injEq, reduceCtorEq] at hm <;>
        subst hm <;> simp [Item.isStar, itemRuns]
    · rename_i hm
      rw [hc, ih y]
      cases y <;> cases x <;> simp only [mergeItem, reduceCtorEq] at hm <;>
        simp [Item.isStar, itemRuns]

theorem nStars_norm (xs : List Item) : nStars (norm xs) = itemRuns false xs := by
  cases xs with
  | nil => rfl
  | cons x xs =>
    rw [norm, nStars_normAux]
    cases x <;> simp [Item.isStar, itemRuns]

theorem isLit_kind {it : Item} {ws : List Char} (h : IsLit it ws) :
    (∃ b, it = .byte b) ∨ (∃ r, it = .rune r) ∨ ∃ w, it = .str w := by
  cases it <;> first | exact h.elim | simp

theorem itemRuns_lit {it : Item} {ws : List Char} (h : IsLit it ws) (p : Bool) (xs : List Item) :
    itemRuns p (it :: xs) = itemRuns false xs := by
  rcases isLit_kind h with ⟨_, rfl⟩ | ⟨_, rfl⟩ | ⟨_, rfl⟩ <;> rfl

theorem itemRuns_lits {lits : List Item} {W : List Char} (h : LitsAre lits W) (xs : List Item) :
    itemRuns false (lits ++ xs) = itemRuns false xs := by
  induction h with
  | nil => rfl
  | cons h _ ih => rw [List.cons_append, itemRuns_lit h, ih]

theorem starRuns_lits (cs : List Char) (ss : List Sub) :
    starRuns false (cs.map Sub.lit ++ ss) = starRuns false ss := by
  induction cs with
  | nil => rfl
  | cons c cs ih => rw [List.map_cons, List.cons_append, starRuns, ih]

theorem starRuns_lits_end (ss : List Sub) (p : Bool) (cs : List Char) :
    starRuns p (ss ++ cs.map Sub.lit) = starRuns p ss := by
  induction ss generalizing p with
  | nil =>
    rw [List.nil_append]
    cases cs with
    | nil => rfl
    | cons c cs =>
      have := starRuns_lits cs []
      rw [List.append_nil] at this
      rw [List.map_cons]
      exact this
  | cons s ss ih => cases s <;> simp [starRuns, ih]

theorem starRuns_stars (k : Nat) (ss : List Sub) :
    starRuns true (List.replicate k .star ++ ss) = starRuns true ss := by
  induction k with
  | zero => rfl
  | succ k ih => rw [List.replicate_succ, List.cons_append, starRuns, ih]; simp

theorem map_sub_append {ss : List Sub} {a b : List Tok} (h : ss.map Tok.sub = a ++ b) :
    ∃ x y, ss = x ++ y ∧ x.map Tok.sub = a ∧ y.map Tok.sub = b := by
  obtain ⟨x, y, h1, h2, h3⟩ := List.map_eq_append_iff.1 h
  exact ⟨x, y, h1, h2, h3⟩

theorem runs_raw {ts : List Tok} {raws : List Item} (h : RawToks ts raws) (ss : List Sub)
    (e : ss.map Tok.sub = ts) (p : Bool) : itemRuns p raws = starRuns p ss := by
  induction h generalizing ss p with
  | nil =>
    rw [List.map_eq_nil_iff] at e
    subst e
    rfl
  | chunk hc _ ih =>
    obtain ⟨x, y, rfl, h1, h2⟩ := map_sub_append e
    have := map_sub_inj h1
    subst this
    cases hc with
    | @lits cs _ hne h =>
      rw [itemRuns_lit h, ih y h2]
      cases cs with
      | nil => exact absurd rfl hne
      | cons c cs =>
        rw [List.map_cons, List.cons_append, starRuns, starRuns_lits]
    | any => rw [itemRuns, ih y h2]; rfl
    | stars k =>
      rw [itemRuns, ih y h2, List.replicate_succ, List.cons_append, starRuns, starRuns_stars]
    | cls hi =>
      rw [List.singleton_append, starRuns, ← ih y h2]
      rcases hi.kind with ⟨c, h⟩ | h
      · exact itemRuns_lit h _ _
      · obtain ⟨rs, rfl, _⟩ := h
        rfl
  | skip _ _ _ _ =>
    cases ss with
    | nil => cases e
    | cons s ss => cases e
  | alt _ _ _ _ =>
    cases ss with
    | nil => cases e
    | cons s ss => cases e

/-- The star items of a glob are the runs of its tokens. -/
theorem nStars_items {ss : List Sub} {g : Glob} (h : GlobOk (ss.map Tok.sub) g) :
    nStars g.items ≤ starRuns false ss := by
  obtain ⟨l0, mid, l1, raws, lits, rest, tail, W, V, e, hr, rfl, hl, hn, _⟩ := h.layout
  obtain ⟨x, y, rfl, h1, h2⟩ := map_sub_append e
  obtain ⟨m, z, rfl, h3, h4⟩ := map_sub_append h2
  have e1 := map_sub_inj h1
  have e2 := map_sub_inj h4
  subst e1 e2
  rw [starRuns_lits, starRuns_lits_end, ← runs_raw hr m h3, itemRuns_lits hl, ← nStars_norm, hn]
  unfold nStars
  rw [List.countP_append]
  exact Nat.le_add_right _ _

theorem shape_run (ex : Bool) (ss : List Sub) (p : Pos) (hp : p ≠ .behind) :
    Shape ex p (ss.map Tok.sub) := by
  induction ss generalizing p with
  | nil => trivial
  | cons s ss ih =>
    cases s with
    | lit c => exact ih .plain (by simp)
    | cls es => exact ih .plain (by simp)
    | any => exact ⟨hp, ih p hp⟩
    | star =>
      refine ⟨fun h => absurd h hp, ?_⟩
      rw [if_neg hp]
      exact ih .after (by simp)

theorem solid_litItem {it : Item} (h : Solid it) (h1 : it.isStar = false) (h2 : ∀ n, it ≠ .any n) :
    IsLitItem it := by
  cases it with
  | star => cases h1
  | any n => exact absurd rfl (h2 n)
  | list => exact h.elim
  | group => exact h.elim
  | chain => exact h.elim
  | _ => trivial

theorem wide_of_good {a : Bool} {l : List Item} (hg : Good true a l) (hs : ∀ x ∈ l, Solid x)
    (hn : nStars l = 0) : ∃ w, Wide l w := by
  induction l generalizing a with
  | nil => exact ⟨0, .nil⟩
  | cons x l ih =>
    unfold nStars at hn
    rw [List.countP_cons] at hn
    have hx : x.isStar = false := by
      cases h : x.isStar with
      | false => rfl
      | true => rw [h] at hn; simp at hn
    have hl : nStars l = 0 := by unfold nStars; omega
    have hs' : ∀ y ∈ l, Solid y := fun y hy => hs y (by simp [hy])
    by_cases ha : ∃ n, x = .any n
    · obtain ⟨n, rfl⟩ := ha
      obtain ⟨w, hw⟩ := ih (good_any hg) hs' hl
      exact ⟨_, .cons (doneItem_any n) hw⟩
    · obtain ⟨⟨v, hf⟩, hr⟩ := good_lit (solid_litItem (hs x (by simp)) hx (fun n e => ha ⟨n, e⟩)) hg
      obtain ⟨w, hw⟩ := ih hr hs' hl
      exact ⟨_, .cons hf.toDoneItem hw⟩

theorem calm_solid {l : List Item} (h : Calm l) : ∀ x ∈ l, Solid x := by
  induction l with
  | nil => simp
  | cons x l ih =>
    intro y hy
    rcases List.mem_cons.1 hy with rfl | hy
    · exact h.head
    · exact ih h.tail y hy

theorem lone_of_good {a : Bool} {l : List Item} (hg : Good true a l) (hc : Calm l)
    (hn : nStars l ≤ 1) : Lone l := by
  induction l generalizing a with
  | nil => exact .nil
  | cons x l ih =>
    have hl : nStars (x :: l) = nStars l + if x.isStar = true then 1 else 0 := List.countP_cons
    rw [hl] at hn
    cases hx : x.isStar with
    | false =>
      have hn' : nStars l ≤ 1 := by omega
      by_cases ha : ∃ n, x = .any n
      · obtain ⟨n, rfl⟩ := ha
        exact .cons (doneItem_any n) (ih (good_any hg) hc.tail hn')
      · obtain ⟨⟨v, hf⟩, hr⟩ := good_lit (solid_litItem hc.head hx (fun n e => ha ⟨n, e⟩)) hg
        exact .cons hf.toDoneItem (ih hr hc.tail hn')
    | true =>
      rw [if_pos hx] at hn
      obtain ⟨n, rfl⟩ : ∃ n, x = .star n := by
        cases x <;> first | exact ⟨_, rfl⟩ | cases hx
      have hr := (good_star hg).2
      cases l with
      | nil => exact .last n
      | cons y l =>
        have hn0 : nStars (y :: l) = 0 := by omega
        have hys : Solid y := hc.tail.head
        have hl2 : nStars (y :: l) = nStars l + if y.isStar = true then 1 else 0 := List.countP_cons
        have hy : y.isStar = false := by
          cases h : y.isStar with
          | false => rfl
          | true => rw [hl2, if_pos h] at hn0; omega
        have hya : ∀ m, y ≠ .any m := by
          rintro m rfl
          exact hc.elim
        obtain ⟨⟨v, hf⟩, hr2⟩ := good_lit (solid_litItem hys hy hya) hr
        obtain ⟨w, hw⟩ := wide_of_good hr2 (calm_solid hc.tail.tail) (by omega)
        exact .star n hf hw

end GoMatcher
