import Verif.Proofs.StarRuns
import Verif.Proofs.TreeOnce

/-! # Globs of which only the last byte may be a star -/

namespace GoMatcher

/-- No star before the last item. -/
def Tame (l : List Item) : Prop := ∀ x ∈ l.dropLast, x.isStar = false

/-- No star at all. -/
def Starless (l : List Item) : Prop := ∀ x ∈ l, x.isStar = false

theorem Starless.tame {l : List Item} (h : Starless l) : Tame l :=
  fun x hx => h x (List.dropLast_subset _ hx)

theorem mergeItem_starless {last item m : Item} (h : mergeItem last item = some m)
    (hl : last.isStar = false) (hi : item.isStar = false) : m.isStar = false := by
  unfold mergeItem at h
  split at h <;> cases h <;> first | rfl | (cases hl; done) | (cases hi; done)

theorem appendItem_starless {items : List Item} {item : Item} (h : Starless items) :
    Tame (appendItem items item) ∧ (item.isStar = false → Starless (appendItem items item)) := by
  unfold appendItem
  split
  · exact ⟨by intro x hx; simp at hx, fun hi x hx => by rw [List.mem_singleton.1 hx]; exact hi⟩
  · rename_i last hlast
    split
    · rename_i m hm
      refine ⟨?_, fun hi x hx => ?_⟩
      · intro x hx
        rw [List.dropLast_concat] at hx
        exact h x (List.dropLast_subset _ hx)
      · rcases List.mem_append.1 hx with hx | hx
        · exact h x (List.dropLast_subset _ hx)
        · rw [List.mem_singleton.1 hx]
          exact mergeItem_starless hm (h _ (List.mem_of_getLast? hlast)) hi
    · refine ⟨?_, fun hi x hx => ?_⟩
      · intro x hx
        rw [List.dropLast_concat] at hx
        exact h x hx
      · rcases List.mem_append.1 hx with hx | hx
        · exact h x hx
        · rw [List.mem_singleton.1 hx]
          exact hi

theorem step_starless {st : ParseSt} {x : Item} (h : Starless st.inners) :
    Tame (st.step x).inners ∧ (x.isStar = false → Starless (st.step x).inners) := by
  unfold ParseSt.step
  dsimp only
  split
  · rename_i h0
    have h0 : st.inners = [] := List.length_eq_zero_iff.1 h0
    split
    · exact ⟨h.tame, fun _ => h⟩
    · exact ⟨h.tame, fun _ => h⟩
    · exact ⟨h.tame, fun _ => h⟩
    · exact ⟨by intro x hx; simp at hx, fun hi x hx => by rw [List.mem_singleton.1 hx]; exact hi⟩
  · exact appendItem_starless h

theorem literalItem_star (v : Str) : (literalItem v).isStar = false := by
  unfold literalItem
  dsimp only
  split
  · split <;> rfl
  · rfl

theorem classItem_star {rs : RunesRanges} {x : Item} (h : classItem rs = some x) :
    x.isStar = false := by
  unfold classItem at h
  dsimp only at h
  split at h
  · cases h
  · split at h
    · cases h; rfl
    · split at h
      · split at h <;> (cases h; rfl)
      · cases h; rfl

/-- A part at the end of a text whose only star is the last byte. -/
theorem starEnd_suffix {a b : Str} (h : (42 : UInt8) ∉ (a ++ b).dropLast) :
    (42 : UInt8) ∉ b.dropLast := by
  cases b with
  | nil => simp
  | cons x b =>
    rw [List.dropLast_append_of_ne_nil (by simp), List.mem_append, not_or] at h
    exact h.2

theorem nextItem_starEnd {fuel : Nat} {b : UInt8} {t rest : Str} {x : Option Item}
    (hb : (123 : UInt8) ∉ b :: t) (hs : (42 : UInt8) ∉ (b :: t).dropLast)
    (h : nextItem fuel (b :: t) = .ok (.ok (x, rest))) :
    (42 : UInt8) ∉ rest.dropLast ∧ (rest ≠ [] → ∀ y, x = some y → y.isStar = false) := by
  cases fuel with
  | zero => simp [nextItem] at h
  | succ fuel =>
    rw [nextItem] at h
    dsimp only at h
    split at h
    · obtain ⟨seg, next, e, e1, e2⟩ := cutAfter_ok (b :: t) 93 (by simp)
      rw [e, R.bind_ok] at h
      dsimp only at h
      split at h
      · simp at h
      · simp only [R.ok.injEq, Except.ok.injEq, Prod.mk.injEq] at h
        obtain ⟨rfl, rfl⟩ := h
        refine ⟨starEnd_suffix (a := seg) (by rw [e1]; exact hs), fun _ y hy => classItem_star hy⟩
    · split at h
      · rename_i h123
        exact absurd (by rw [h123]; simp) hb
      · split at h
        · rename_i h42
          subst h42
          cases t with
          | cons c t => exact absurd (by simp) hs
          | nil =>
            rw [show skipStars [42] = .ok [] from by decide, R.bind_ok] at h
            simp only [R.ok.injEq, Except.ok.injEq, Prod.mk.injEq] at h
            obtain ⟨rfl, rfl⟩ := h
            exact ⟨by simp, fun hc => absurd rfl hc⟩
        · split at h
          · simp only [R.ok.injEq, Except.ok.injEq, Prod.mk.injEq] at h
            obtain ⟨rfl, rfl⟩ := h
            exact ⟨starEnd_suffix (a := [b]) hs, fun _ y hy => by cases hy; rfl⟩
          · split at h
            · simp at h
            · split at h
              · simp only [R.ok.injEq, Except.ok.injEq, Prod.mk.injEq] at h
                obtain ⟨rfl, rfl⟩ := h
                exact ⟨by simp, fun hc => absurd rfl hc⟩
              · rename_i n hn
                obtain ⟨hlt, hp, _⟩ := indexP_some.1 hn
                rw [sliceTo, if_pos (Nat.le_of_lt hlt), R.bind_ok, sliceFrom,
                  if_pos (Nat.le_of_lt hlt), R.bind_ok] at h
                simp only [R.ok.injEq, Except.ok.injEq, Prod.mk.injEq] at h
                obtain ⟨rfl, rfl⟩ := h
                refine ⟨starEnd_suffix (a := (b :: t).take n) (by rw [List.take_append_drop]; exact hs),
                  fun _ y hy => ?_⟩
                cases hy
                exact literalItem_star _

theorem parseLoop_tame {fuel : Nat} {s : Str} {st st' : ParseSt} (hb : (123 : UInt8) ∉ s)
    (hs : (42 : UInt8) ∉ s.dropLast) (hc : Tame st.inners) (hc' : s ≠ [] → Starless st.inners)
    (h : parseLoop fuel s st = .ok (.ok st')) : Tame st'.inners := by
  induction fuel generalizing s st with
  | zero => simp [parseLoop] at h
  | succ fuel ih =>
    cases s with
    | nil =>
      simp only [parseLoop, R.ok.injEq, Except.ok.injEq] at h
      subst h
      exact hc
    | cons b t =>
      rw [parseLoop] at h
      obtain ⟨r, hr, h⟩ := R.bind_eq_ok.1 h
      cases r with
      | error e => simp at h
      | ok p =>
        obtain ⟨x, rest⟩ := p
        obtain ⟨_, _, h3⟩ := nextItem_solid hb hr
        obtain ⟨h4, h5⟩ := nextItem_starEnd hb hs hr
        have hl := hc' (by simp)
        cases x with
        | none => exact ih h3 h4 hc (fun _ => hl) h
        | some y => exact ih h3 h4 (step_starless hl).1 (fun hr => (step_starless hl).2 (h5 hr y rfl)) h

theorem takeSuffix_tame {l : List Item} (h : Tame l) (suff : Str) : Tame (takeSuffix l suff).1 := by
  have hd : Tame l.dropLast := fun x hx => h x (List.dropLast_subset _ hx)
  unfold takeSuffix
  split
  · split
    · exact hd
    · exact hd
    · exact hd
    · exact h
  · exact h

theorem tame_single (x : Item) : Tame [x] := by
  intro y hy
  simp at hy

theorem parse_tame {s : Str} {g : Glob} (hb : (123 : UInt8) ∉ s) (hs : (42 : UInt8) ∉ s.dropLast)
    (h : parseGlob s = .ok (.ok g)) : Tame g.items := by
  unfold parseGlob at h
  split at h
  · simp only [R.ok.injEq, Except.ok.injEq] at h
    subst h
    intro x hx
    simp at hx
  · rename_i pos hpos
    obtain ⟨pref, h1, h⟩ := R.bind_eq_ok.1 h
    obtain ⟨body, h2, h⟩ := R.bind_eq_ok.1 h
    obtain ⟨hp, hbody⟩ := sliceFrom_eq_ok h2
    split at h
    · rename_i end_ b0 t0 he
      split at h
      · simp at h
      · obtain ⟨⟨body', suff⟩, h3, h⟩ := R.bind_eq_ok.1 h
        have hbs : (123 : UInt8) ∉ b0 :: t0 ∧ (42 : UInt8) ∉ (b0 :: t0).dropLast := by
          rw [hbody]
          exact ⟨fun hc => hb (List.mem_of_mem_drop hc),
            starEnd_suffix (a := s.take pos) (by rw [List.take_append_drop]; exact hs)⟩
        have hbl : (123 : UInt8) ∉ body' ∧ (42 : UInt8) ∉ body'.dropLast := by
          split at h3
          · obtain ⟨x1, _, h3⟩ := R.bind_eq_ok.1 h3
            obtain ⟨x2, k2, h3⟩ := R.bind_eq_ok.1 h3
            simp only [R.ok.injEq, Prod.mk.injEq] at h3
            obtain ⟨rfl, rfl⟩ := h3
            unfold sliceTo at k2
            split at k2
            · cases k2
              refine ⟨fun hc => hbs.1 (List.mem_of_mem_take hc), fun hc => hbs.2 ?_⟩
              rw [List.dropLast_eq_take, List.take_take] at hc
              rw [List.dropLast_eq_take]
              refine (List.take_subset_take_left _ ?_) hc
              rw [List.length_take]
              omega
            · cases k2
          · simp only [R.ok.injEq, Prod.mk.injEq] at h3
            obtain ⟨rfl, rfl⟩ := h3
            exact hbs
        dsimp only at h
        split at h
        · simp only [R.ok.injEq, Except.ok.injEq] at h
          subst h
          rw [finishGlob_sameItems]
          exact tame_single _
        · split at h
          · simp only [R.ok.injEq, Except.ok.injEq] at h
            subst h
            rw [finishGlob_sameItems]
            exact tame_single _
          · obtain ⟨r, hr, h⟩ := R.bind_eq_ok.1 h
            cases r with
            | error e => simp at h
            | ok st =>
              simp only [R.ok.injEq, Except.ok.injEq] at h
              subst h
              rw [finishGlob_sameItems]
              exact takeSuffix_tame (parseLoop_tame hbl.1 hbl.2 (by intro x hx; simp at hx)
                (fun _ => by intro x hx; simp at hx) hr) suff
    · cases h

theorem endStar_of {l : List Item} (hs : ∀ x ∈ l, Solid x) (ht : Tame l) : EndStar l := by
  induction l with
  | nil => trivial
  | cons x l ih =>
    cases l with
    | nil => exact hs x (by simp)
    | cons y l =>
      refine ⟨hs x (by simp), ?_, ih (fun z hz => hs z (by simp [hz])) fun z hz => ht z ?_⟩
      · rintro n rfl
        have := ht (.star n) (by simp)
        cases this
      · rw [List.dropLast_cons_of_ne_nil (by simp)]
        exact .tail _ hz

end GoMatcher
