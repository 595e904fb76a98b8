import Verif.Model.Glob

/-! # Termination of the matcher: the fuel of `matchAll` is enough -/

namespace GoMatcher

open Item.size (sizeL)

/-- Size of the pending items. -/
def sizeN : NextItems → Nat
  | [] => 0
  | l :: t => sizeL l + sizeN t

theorem sizeL_pos (l : List Item) : 1 ≤ sizeL l := by
  induction l with
  | nil => simp [sizeL]
  | cons x xs ih => simp only [sizeL]; omega

theorem size_pos (x : Item) : 1 ≤ x.size := by
  cases x <;> simp [Item.size] <;> omega

theorem sizeL_groupItems {v : Item} {vals : List Item} (h : v ∈ vals) :
    sizeL (groupItems v) ≤ sizeL vals := by
  have key : v.size + 1 ≤ sizeL vals := by
    induction vals with
    | nil => simp at h
    | cons x xs ih =>
      simp only [sizeL]
      rcases List.mem_cons.1 h with rfl | h
      · have := sizeL_pos xs; omega
      · have := ih h; omega
  have : sizeL (groupItems v) ≤ v.size + 1 := by
    cases v <;> simp only [groupItems, Item.size, sizeL] <;> omega
  omega

theorem next_size {t : NextItems} (h : t.isEmpty = false) :
    sizeL t.next.1 + sizeN t.next.2 ≤ sizeN t := by
  match t with
  | [] => simp [NextItems.isEmpty] at h
  | l :: t =>
    simp only [NextItems.next]
    split
    · simp [sizeN]
    · match t with
      | [] =>
        rename_i hl
        have : l = [] := by
          cases l with
          | nil => rfl
          | cons a b => simp at hl
        subst this
        simp [NextItems.isEmpty] at h
      | l2 :: t2 => simp [sizeN]

/-- Not out of fuel. -/
def R.Done {α : Type} (x : R α) : Prop := x ≠ .timeout

theorem R.done_ok {α : Type} (a : α) : (R.ok a).Done := by simp [R.Done]
theorem R.done_panic {α : Type} : (R.panic : R α).Done := by simp [R.Done]

theorem done_fstR {x : R (Bool × Bool)} (h : x.Done) : (fstR x).Done := by
  cases x <;> simp_all [fstR, R.Done]

theorem done_retR {x : R Bool} (h : x.Done) : (retR x).Done := by
  cases x <;> simp_all [retR, R.Done]

theorem done_orR {x y : R Bool} (hx : x.Done) (hy : y.Done) : (orR x y).Done := by
  cases x with
  | ok m => cases m <;> simp_all [orR, R.Done]
  | panic => simp [orR, R.Done]
  | timeout => simp [R.Done] at hx

theorem sliceFrom_done (s : Str) (n : Nat) : (sliceFrom s n).Done := by
  unfold sliceFrom; split <;> simp [R.Done]

theorem sliceFrom_eq_ok {s : Str} {n : Nat} {t : Str} (h : sliceFrom s n = .ok t) :
    n ≤ s.length ∧ t = s.drop n := by
  unfold sliceFrom at h
  split at h
  · rename_i hn; simp at h; exact ⟨hn, h.symm⟩
  · simp at h

theorem sliceFromInt_done (s : Str) (n : Int) : (sliceFromInt s n).Done := by
  unfold sliceFromInt; split <;> simp [R.Done]

theorem sliceFromInt_eq_ok {s : Str} {n : Int} {t : Str} (h : sliceFromInt s n = .ok t) :
    0 ≤ n ∧ n.toNat ≤ s.length ∧ t = s.drop n.toNat := by
  unfold sliceFromInt at h
  split at h
  · rename_i hn; simp at h; exact ⟨hn.1, by omega, h.symm⟩
  · simp at h

theorem Item.find_done (it : Item) (s : Str) : (it.find s).Done := by
  match it with
  | .str _ | .byte _ | .rune _ | .any _ | .star _ | .ranges _ | .list _ | .group _ _ _ =>
    simp [Item.find, R.Done]
  | .chain [] _ _ => simp [Item.find, R.Done]
  | .chain (x :: xs) a b =>
    simp only [Item.find]
    have := Item.find_done x s
    split <;> simp_all [R.Done]
termination_by sizeOf it

theorem rune_drop_lt {s : Str} (h : ¬ (decodeRune s).2 < 1) :
    (s.drop (decodeRune s).2).length < s.length := by
  have hpos : s ≠ [] := by
    rintro rfl
    simp [decodeRune] at h
  have : 0 < s.length := List.length_pos_iff.2 hpos
  simp only [List.length_drop]
  omega

theorem listLoop_done (s : Str) (k : Str → R Bool) (vals : List Str)
    (hk : ∀ t, t.length ≤ s.length → (k t).Done) : (listLoop s k vals).Done := by
  induction vals with
  | nil => simp [listLoop, R.Done]
  | cons v vs ih =>
    simp only [listLoop]
    split
    · exact done_orR (hk _ (by simp)) ih
    · exact ih

theorem groupLoop_done (k : Item → R Bool) (vals : List Item)
    (hk : ∀ v ∈ vals, (k v).Done) : (groupLoop k vals).Done := by
  induction vals with
  | nil => simp [groupLoop, R.Done]
  | cons v vs ih =>
    exact done_orR (hk v (by simp)) (ih (fun w hw => hk w (by simp [hw])))

theorem starListInner_done (s : Str) (k : Str → R Bool) (vals : List Str) (off : Option Nat)
    (hk : ∀ t, t.length ≤ s.length → (k t).Done) : (starListInner s k vals off).Done := by
  induction vals generalizing off with
  | nil => simp [starListInner, R.Done]
  | cons v vs ih =>
    simp only [starListInner]
    split
    · exact ih _
    · rename_i i _
      have := hk (s.drop (i + v.length)) (by simp)
      split
      · split
        · exact R.done_ok _
        · exact ih _
      · exact R.done_panic
      · rename_i h; exact absurd h this

theorem starListLoop_done (vals : List Str) (k : Str → R Bool) (fuel : Nat) (s : Str)
    (hf : s.length < fuel) (hk : ∀ t, t.length ≤ s.length → (k t).Done) :
    (starListLoop vals k fuel s).Done := by
  induction fuel generalizing s with
  | zero => omega
  | succ fuel ih =>
    simp only [starListLoop]
    have := starListInner_done s k vals none hk
    split
    · exact R.done_ok _
    · exact R.done_ok _
    · rename_i o _
      split
      · exact R.done_ok _
      · rename_i hn
        have h1 := rune_drop_lt hn
        have h2 : (s.drop o).length ≤ s.length := by simp
        exact ih _ (by omega) (fun t ht => hk t (by omega))
    · exact R.done_panic
    · rename_i h; exact absurd h this

theorem starOptLoop_done (k : Str → R Bool) (fuel : Nat) (s : Str)
    (hf : s.length < fuel) (hk : ∀ t, t.length ≤ s.length → (k t).Done) :
    (starOptLoop k fuel s).Done := by
  induction fuel generalizing s with
  | zero => omega
  | succ fuel ih =>
    refine done_orR (hk s (Nat.le_refl _)) ?_
    dsimp only
    split
    · exact R.done_ok _
    · rename_i hn
      have := rune_drop_lt hn
      exact ih _ (by omega) (fun t ht => hk t (by omega))

/-- The measure. -/
abbrev meas (s : Str) (items : List Item) (next : NextItems) : Nat :=
  s.length + sizeL items + sizeN next

theorem contWith_done {F G : Matcher} {rest : List Item} {next : NextItems} {t : Str}
    (hF : next.isEmpty = false → (F t next.next.1 next.next.2).Done)
    (hG : (G t rest next).Done) : (contWith F G rest next t).Done := by
  unfold contWith
  split
  · split
    · exact R.done_ok _
    · rename_i hn; exact done_fstR (hF (by simpa using hn))
  · exact done_fstR hG

theorem matchFlag_done {M S : Matcher} {it : Item} {flag : FindFlag} {s : Str}
    {rest : List Item} {next : NextItems} {b : Nat} (hb : meas s (it :: rest) next ≤ b)
    (hM : ∀ s items next, meas s items next < b → (M s items next).Done)
    (hS : ∀ s items next, meas s items next < b → (S s items next).Done) :
    (matchFlag M S it flag s rest next).Done := by
  have hpos := size_pos it
  have hposR := sizeL_pos rest
  simp only [meas, sizeL] at hb
  have hMn : ∀ t : Str, t.length ≤ s.length → next.isEmpty = false →
      (M t next.next.1 next.next.2).Done := fun t ht h => by
    have := next_size h
    exact hM _ _ _ (by simp only [meas]; omega)
  have hMr : ∀ t : Str, t.length ≤ s.length → (M t rest next).Done := fun t ht =>
    hM _ _ _ (by simp only [meas]; omega)
  unfold matchFlag
  split
  · exact hMr s (Nat.le_refl _)
  · refine done_retR (done_orR ?_ (listLoop_done _ _ _ ?_))
    · split
      · exact contWith_done (hMn _ (Nat.le_refl _)) (hMr _ (Nat.le_refl _))
      · exact R.done_ok _
    · exact fun t ht => contWith_done (hMn _ ht) (hMr _ ht)
  · refine done_retR (done_orR ?_ (groupLoop_done _ _ ?_))
    · split
      · exact contWith_done (hMn _ (Nat.le_refl _)) (hMr _ (Nat.le_refl _))
      · exact R.done_ok _
    · intro v hv
      have := sizeL_groupItems hv
      refine done_fstR (hM _ _ _ ?_)
      simp only [meas, sizeN, Item.size] at *
      omega
  · split
    · split
      · exact R.done_ok _
      · rename_i hn
        have := next_size (t := next) (by simpa using hn)
        exact hS _ _ _ (by simp only [meas]; omega)
    · exact hS _ _ _ (by simp only [meas]; omega)
  · exact R.done_panic

theorem loopFlag_done {M S L : Matcher} {it : Item} {flag : FindFlag} {length : Int} {s : Str}
    {rest : List Item} {next : NextItems} {b : Nat} (hb : meas s (it :: rest) next ≤ b)
    (hM : ∀ s items next, meas s items next < b → (M s items next).Done)
    (hS : ∀ s items next, meas s items next < b → (S s items next).Done)
    (hL : ∀ s items next, meas s items next < b → (L s items next).Done) :
    (loopFlag M S L it flag length s rest next).Done := by
  have hpos := size_pos it
  have hposR := sizeL_pos rest
  simp only [meas, sizeL] at hb
  have hFn : ∀ F : Matcher, (∀ s items next, meas s items next < b → (F s items next).Done) →
      ∀ t : Str, t.length ≤ s.length → next.isEmpty = false →
      (F t next.next.1 next.next.2).Done := fun F hF t ht h => by
    have := next_size h
    exact hF _ _ _ (by simp only [meas]; omega)
  have hFr : ∀ F : Matcher, (∀ s items next, meas s items next < b → (F s items next).Done) →
      ∀ t : Str, t.length ≤ s.length → (F t rest next).Done := fun F hF t ht =>
    hF _ _ _ (by simp only [meas]; omega)
  have hag : ∀ items : List Item, sizeL items ≤ it.size + sizeL rest →
      (againStep L s items next).Done := by
    intro items hit
    unfold againStep
    dsimp only
    split
    · exact R.done_ok _
    · rename_i hn
      have := rune_drop_lt hn
      exact hL _ _ _ (by simp only [meas]; omega)
  unfold loopFlag
  split
  · have := sliceFromInt_done s length
    split
    · rename_i sub hsub
      obtain ⟨_, hl, rfl⟩ := sliceFromInt_eq_ok hsub
      have h1 := hFr M hM (s.drop length.toNat) (by simp)
      split
      · split
        · exact R.done_ok _
        · exact hag _ (by simp [sizeL])
      · exact R.done_panic
      · rename_i h; exact absurd h h1
    · exact R.done_panic
    · rename_i h; exact absurd h this
  · refine done_retR (done_orR ?_ (starListLoop_done _ _ _ _ (Nat.lt_succ_self _) ?_))
    · split
      · exact starOptLoop_done _ _ _ (Nat.lt_succ_self _) fun t ht =>
          contWith_done (hFn M hM _ ht) (hFr S hS _ ht)
      · exact R.done_ok _
    · exact fun t ht => contWith_done (hFn M hM _ ht) (hFr M hM _ ht)
  · refine done_retR (done_orR ?_ (groupLoop_done _ _ ?_))
    · split
      · exact contWith_done (hFn S hS _ (Nat.le_refl _)) (hFr S hS _ (Nat.le_refl _))
      · exact R.done_ok _
    · intro v hv
      have := sizeL_groupItems hv
      refine done_fstR (hS _ _ _ ?_)
      simp only [meas, sizeN, Item.size] at *
      omega
  · split
    · split
      · exact R.done_ok _
      · rename_i hn
        have h1 := done_fstR (hFn S hS s (Nat.le_refl _) (by simpa using hn))
        split
        · split
          · exact R.done_ok _
          · exact hag _ (by omega)
        · exact R.done_panic
        · rename_i h; exact absurd h h1
    · exact hag _ (by omega)
  · exact R.done_panic

theorem match_done (fuel : Nat) :
    (∀ s items next, 2 * meas s items next < fuel → (matchItems fuel s items next).Done) ∧
    (∀ s items next, 2 * meas s items next + 1 < fuel → (matchStarItems fuel s items next).Done) ∧
    (∀ s items next, 2 * meas s items next < fuel → (starLoop fuel s items next).Done) := by
  induction fuel with
  | zero => refine ⟨?_, ?_, ?_⟩ <;> intros <;> omega
  | succ fuel ih =>
    obtain ⟨ihM, ihS, ihL⟩ := ih
    refine ⟨?_, ?_, ?_⟩
    · intro s items next hm
      rw [matchItems]
      unfold matchStep
      match items with
      | [] =>
        dsimp only
        split
        · exact R.done_ok _
        · rename_i hn
          have := next_size (t := next) (by simpa using hn)
          refine done_retR (done_fstR (ihM _ _ _ ?_))
          simp only [meas, sizeL] at *
          omega
      | it :: rest =>
        dsimp only
        split
        · exact R.done_ok _
        split
        · exact R.done_ok _
        rename_i offset flag _
        have h1 := sliceFrom_done s offset
        split
        · rename_i s' hs'
          obtain ⟨ho, rfl⟩ := sliceFrom_eq_ok hs'
          refine matchFlag_done (b := meas s (it :: rest) next) ?_ ?_ ?_
          · simp only [meas, List.length_drop]; omega
          · exact fun s items next h => ihM _ _ _ (by omega)
          · exact fun s items next h => ihS _ _ _ (by omega)
        · exact R.done_panic
        · rename_i h; exact absurd h h1
    · intro s items next hm
      rw [matchStarItems]
      unfold starStep
      match items with
      | [] =>
        dsimp only
        split
        · exact R.done_ok _
        · rename_i hn
          have := next_size (t := next) (by simpa using hn)
          refine ihS _ _ _ ?_
          simp only [meas, sizeL] at *
          omega
      | it :: rest => exact ihL _ _ _ (by omega)
    · intro s items next hm
      rw [starLoop]
      unfold loopStep
      match items with
      | [] =>
        dsimp only
        split
        · exact R.done_ok _
        · rename_i hn
          have := next_size (t := next) (by simpa using hn)
          refine done_retR (done_fstR (ihM _ _ _ ?_))
          simp only [meas, sizeL] at *
          omega
      | it :: rest =>
        dsimp only
        split
        · exact R.done_ok _
        have h0 := Item.find_done it s
        split
        · exact R.done_ok _
        · rename_i offset length flag _
          have h1 := sliceFrom_done s offset
          split
          · rename_i s' hs'
            obtain ⟨ho, rfl⟩ := sliceFrom_eq_ok hs'
            refine loopFlag_done (b := meas s (it :: rest) next) ?_ ?_ ?_ ?_
            · simp only [meas, List.length_drop]; omega
            · exact fun s items next h => ihM _ _ _ (by omega)
            · exact fun s items next h => ihS _ _ _ (by omega)
            · exact fun s items next h => ihL _ _ _ (by omega)
          · exact R.done_panic
          · rename_i h; exact absurd h h1
        · exact R.done_panic
        · rename_i h; exact absurd h h0

end GoMatcher
