import Verif.Proofs.TreeOnce
import Verif.Proofs.TreeSem

/-! # How often a search in the batch tree stores an index: one star, UTF-8 text -/

namespace GoMatcher

/-- The items match `w` characters in all, each a number of its own. -/
inductive Wide : List Item → Nat → Prop
  | nil : Wide [] 0
  | cons {it : Item} {rest : List Item} {v w : Nat} (h : DoneItem it v) (hr : Wide rest w) :
      Wide (it :: rest) (v + w)

/-- Items of fixed widths, with at most one star among them. -/
inductive Lone : List Item → Prop
  | nil : Lone []
  | cons {it : Item} {rest : List Item} {v : Nat} (h : DoneItem it v) (hr : Lone rest) :
      Lone (it :: rest)
  | last (n : Nat) : Lone [.star n]
  | star (n : Nat) {it : Item} {rest : List Item} {v w : Nat} (h : FindItem it v) (hr : Wide rest w) :
      Lone (.star n :: it :: rest)

theorem DoneItem.not_star {n w : Nat} (h : DoneItem (.star n) w) : False := by
  have := h.flag
  simp [Item.matchAt] at this

section
variable {i : Int}

/-- A node of fixed width stores nothing, or goes on behind a part of the text. -/
theorem atMost_done {t : Tree} {v n : Nat} (hd : DoneItem t.item v) {M S : TMatcher} {I : IMatcher}
    {cs : List Char} (h : ∀ a b, cs = a ++ b → a.length = v → AtMost i n (t.next M (utf8 b))) :
    AtMost i n (t.matchStep M S I (utf8 cs)) := by
  unfold Tree.matchStep
  split
  · exact atMost_noEv n
  rcases hd.matchAt cs with ⟨a, b, rfl, ha, e⟩ | ⟨_, e⟩
  · rw [e]
    dsimp only
    rw [sliceFrom_utf8, R.bind_ok]
    unfold Tree.matchFlag
    exact h a b rfl (hd.width a ha)
  · rw [e]
    exact atMost_noEv n

/-- One or nothing. -/
def cap (p : Prop) [Decidable p] : Nat := if p then 1 else 0

theorem cap_pos {p : Prop} [Decidable p] (h : p) : cap p = 1 := if_pos h
theorem cap_neg {p : Prop} [Decidable p] (h : ¬ p) : cap p = 0 := if_neg h

/-- Items of fixed widths store at most once, and only if the text has just this length. -/
theorem once_wide (fuel : Nat) (cs : List Char) (t : Tree) (ps : List (Item × Bool))
    (h : t.OnPath i ps) {w : Nat} (hs : Wide (t.item :: its ps) w) :
    AtMost i (cap (cs.length = w)) (Tree.matchT fuel t (utf8 cs)) := by
  induction fuel generalizing cs t ps w with
  | zero => rintro _ ⟨⟩
  | succ fuel ih =>
    rw [Tree.matchT]
    generalize hl : its ps = l at hs
    cases hs with
    | @cons _ _ v w hd hr =>
      refine atMost_done hd fun a b e ha => ?_
      subst e
      refine atMost_next (fun c hc => quiet_matchT fuel hc _) h ?_ ?_
      · rintro rfl hb
        have := (utf8_eq_nil _).1 hb
        subst this
        subst hl
        cases hr
        rw [cap_pos (by simp [ha])]
        exact Nat.le_refl 1
      · rintro c qs rfl hq
        subst hl
        have := ih b c qs hq (by simpa using hr)
        refine atMost_mono this ?_
        by_cases hb : b.length = w
        · rw [cap_pos hb, cap_pos (by simp [ha, hb])]
          exact Nat.le_refl 1
        · rw [cap_neg hb]
          exact Nat.zero_le _

/-- The same behind a star: at most once, and only if the text is long enough. -/
theorem once_found (fuel : Nat) (opt : Bool) (cs : List Char) (t : Tree) (ps : List (Item × Bool))
    (h : t.OnPath i ps) {v w : Nat} (hf : FindItem t.item v) (hr : Wide (its ps) w) :
    AtMost i (cap (v + w ≤ cs.length)) (Tree.starT fuel opt t (utf8 cs)) := by
  induction fuel generalizing cs opt with
  | zero => rintro _ ⟨⟩
  | succ fuel ih =>
    rw [Tree.starT]
    unfold Tree.starStep
    split
    · exact atMost_noEv _
    rcases hf.find cs with ⟨p, a, q, rfl, ha, e, -⟩ | ⟨_, fl, e⟩
    · rw [e, R.bind_ok]
      dsimp only
      rw [List.append_assoc, sliceFrom_utf8, R.bind_ok]
      unfold Tree.starFlag
      dsimp only
      rw [sliceFromInt_utf8, R.bind_ok]
      have hw := hf.width a ha
      have h1 : AtMost i (cap (q.length = w))
          (if utf8 q = [] ∧ t.childs.length = 0 ∧ t.term.isSome then .ok (storeFin t.term)
            else forChilds (fun c => Tree.matchT fuel c (utf8 q)) t.childs) := by
        split
        · rename_i hc
          cases h with
          | here =>
            cases hr
            have := (utf8_eq_nil _).1 hc.1
            subst this
            rw [show cap ([].length = 0) = 1 from rfl]
            exact atMost_fin _
          | child _ hcs =>
            have := hc.2.1
            rw [hcs] at this
            simp at this
        · refine atMost_childs (k := fun c => Tree.matchT fuel c (utf8 q))
            (fun c hc => quiet_matchT fuel hc _) h ?_
          rintro c qs rfl hq
          exact once_wide fuel q c qs hq (by simpa using hr)
      have h2 : AtMost i (cap (v + w < (a ++ q).length))
          (againEv (Tree.starT fuel opt t) (utf8 (a ++ q))) := by
        cases hx : a ++ q with
        | nil => exact atMost_noEv _
        | cons c r =>
          unfold againEv
          rw [decodeRune_utf8_cons]
          dsimp only
          rw [if_neg (encode_width_pos c), drop_utf8_cons]
          refine atMost_mono (ih opt r) ?_
          by_cases hb : v + w ≤ r.length
          · rw [cap_pos hb, cap_pos (by simp; omega)]
            exact Nat.le_refl 1
          · rw [cap_neg hb]
            exact Nat.zero_le _
      refine atMost_mono (atMost_addR h1 h2) ?_
      unfold cap
      simp only [List.length_append]
      split <;> split <;> split <;> omega
    · rw [e]
      exact atMost_noEv _

/-- At most one star among items of fixed widths: at most once. -/
theorem once_lone (fuel : Nat) (cs : List Char) (t : Tree) (ps : List (Item × Bool))
    (h : t.OnPath i ps) (hs : Lone (t.item :: its ps)) :
    AtMost i 1 (Tree.matchT fuel t (utf8 cs)) := by
  induction fuel generalizing cs t ps with
  | zero => rintro _ ⟨⟩
  | succ fuel ih =>
    rw [Tree.matchT]
    generalize hl : its ps = l at hs
    generalize hit : t.item = it at hs
    cases hs with
    | cons hd hr =>
      subst hit
      refine atMost_done hd fun a b e ha => ?_
      refine atMost_next (fun c hc => quiet_matchT fuel hc _) h (fun _ _ => Nat.le_refl 1) ?_
      rintro c qs rfl hq
      subst hl
      exact ih b c qs hq (by simpa using hr)
    | last n =>
      have e' : ps = [] := by cases ps with
        | nil => rfl
        | cons => cases hl
      subst e'
      unfold Tree.matchStep
      split
      · exact atMost_noEv 1
      rw [hit, Item.matchAt]
      split
      · exact atMost_noEv 1
      · rename_i x off fl e
        simp only [Prod.mk.injEq] at e
        obtain ⟨_, rfl⟩ := e
        refine atMost_bind fun u _ => ?_
        unfold Tree.matchFlag
        dsimp only
        split
        · exact atMost_fin _
        · cases h with
          | here hc =>
            exact atMost_mono (atMost_quiet (fun c hc => quiet_starT fuel true hc u) _ hc)
              (Nat.zero_le 1)
    | @star n it rest v w hf hr =>
      unfold Tree.matchStep
      split
      · exact atMost_noEv 1
      rw [hit, Item.matchAt, skipRunes_utf8]
      split
      · exact atMost_noEv 1
      · rename_i x off fl e
        simp only [Prod.mk.injEq] at e
        obtain ⟨e1, rfl⟩ := e
        split at e1
        · cases e1
          have hsl := sliceFrom_utf8 (cs.take n) (cs.drop n)
          rw [List.take_append_drop] at hsl
          rw [hsl, R.bind_ok]
          unfold Tree.matchFlag
          dsimp only
          split
          · exact atMost_fin _
          · refine atMost_childs (k := fun c => Tree.starT fuel true c (utf8 (cs.drop n)))
              (fun c hc => quiet_starT fuel true hc _) h ?_
            rintro c qs rfl hq
            simp only [its_cons, List.cons.injEq] at hl
            obtain ⟨rfl, rfl⟩ := hl
            refine atMost_mono (once_found fuel true _ c qs hq hf hr) ?_
            unfold cap
            split <;> simp
        · cases e1

end

end GoMatcher
