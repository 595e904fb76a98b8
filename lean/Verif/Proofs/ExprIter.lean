import Verif.Proofs.ExpandParse
import Verif.Proofs.Sized

/-! # The iterator of one expression of the package `expand` -/

namespace GoMatcher

/-- What holds for the ranges of every parsed class. -/
structure RunesFine (r : XRunes) : Prop where
  pos : r.pos = some r.start
  le : r.start ≤ r.stop
  first : r.start ≠ runeError
  ok : RuneOk r.start

theorem xRunesLoop_first (cs : List Nat) (hcs : ∀ c ∈ cs, RuneOk c) (rs : List RuneRange)
    (hrs : ∀ r ∈ rs, RuneOk r.first) (start : Nat) (hst : RuneOk start) (isR : Bool) (out : List RuneRange)
    (h : xRunesLoop rs start isR cs = some out) : ∀ r ∈ out, RuneOk r.first := by
  have app : ∀ rs : List RuneRange, (∀ r ∈ rs, RuneOk r.first) → ∀ start stop, RuneOk start →
      ∀ r ∈ rs ++ [RuneRange.mk start stop], RuneOk r.first := by
    intro rs hrs start stop hst r hr
    rcases List.mem_append.1 hr with hr | hr
    · exact hrs r hr
    · rw [List.mem_singleton.1 hr]; exact hst
  have add : ∀ rs : List RuneRange, (∀ r ∈ rs, RuneOk r.first) → ∀ start, RuneOk start →
      ∀ r ∈ (if start ≠ runeError then rs ++ [RuneRange.mk start start] else rs), RuneOk r.first := by
    intro rs hrs start hst
    split
    · exact app rs hrs start start hst
    · exact hrs
  induction cs generalizing rs start isR with
  | nil =>
    rw [xRunesLoop] at h
    cases h
    exact add rs hrs start hst
  | cons c cs ih =>
    have ih := ih (fun x hx => hcs x (by simp [hx]))
    have hc := hcs c (by simp)
    rw [xRunesLoop] at h
    split at h
    · exact ih rs hrs start hst _ h
    · split at h
      · split at h
        · exact ih rs hrs c hc _ h
        · split at h
          · split at h
            · cases h
            · exact ih _ (app rs hrs start c hst) runeError runeError_ok _ h
          · cases h
      · exact ih _ (add rs hrs start hst) c hc _ h

theorem xRunesExpand_runes {s : Str} {rs : List XRunes} (h : xRunesExpand s = some rs) :
    ∀ r ∈ rs, RunesFine r := by
  obtain ⟨l, e, hf, _⟩ := xRunesExpand_fine h
  have hok : ∀ r ∈ rs, RuneOk r.start := by
    unfold xRunesExpand at h
    split at h
    · cases h
    · split at h
      · cases h
      · rename_i l hl
        cases h
        have hf := runesRangeMerge_first (xRunesLoop_first _ (by
          intro c hc
          obtain ⟨x, hx, rfl⟩ := List.mem_map.1 hc
          exact rangeStr_ok _ x hx) [] (by simp) runeError runeError_ok false l hl)
        intro r hr
        obtain ⟨x, hx, rfl⟩ := List.mem_map.1 hr
        exact hf x hx
  intro r hr
  have hr' := hr
  rw [e] at hr
  obtain ⟨x, hx, rfl⟩ := List.mem_map.1 hr
  exact ⟨rfl, (hf x hx).le, (hf x hx).first, hok _ hr'⟩

/-- All expressions of a list have fine ranges. -/
def AllFine (exps : List XExpr) : Prop := ∀ e ∈ exps, ∀ r ∈ e.runes, RunesFine r

theorem AllFine.add {exps : List XExpr} (h : AllFine exps) {e : XExpr} (he : ∀ r ∈ e.runes, RunesFine r) :
    AllFine (exps ++ [e]) := by
  intro x hx
  rcases List.mem_append.1 hx with hx | hx
  · exact h x hx
  · rw [List.mem_singleton.1 hx]; exact he

theorem getExpression_fine (orig : Str) : ∀ r ∈ (getExpression orig).runes, RunesFine r := by
  unfold getExpression
  dsimp only
  split
  · simp
  · split
    · split <;> simp
    · split
      · split
        · simp
        · split
          · simp
          · rename_i rs hrs
            split
            · simp
            · exact xRunesExpand_runes hrs
      · split <;> simp

theorem pushExpr_fine {exps : List XExpr} (h : AllFine exps) {e : XExpr} (he : ∀ r ∈ e.runes, RunesFine r) :
    AllFine (pushExpr exps e) := by
  unfold pushExpr
  split
  · split
    · rename_i l hl
      split
      · have hl := h l (List.mem_of_getLast? hl)
        exact AllFine.add (fun x hx => h x ((List.dropLast_sublist _).subset hx)) hl
      · split
        · exact h.add he
        · exact h
    · split
      · exact h.add he
      · exact h
  · exact h.add he

theorem xParseLoop_fine (n : Nat) (s : Str) (exps : List XExpr) (h : AllFine exps) {out : List XExpr}
    (ho : xParseLoop n s exps = .ok out) : AllFine out := by
  induction n generalizing s exps with
  | zero => cases ho
  | succ n ih =>
    rw [xParseLoop] at ho
    split at ho
    · cases ho
      exact h.add (by simp)
    · cases ho
      refine AllFine.add ?_ (by simp)
      split
      · exact h.add (by simp)
      · exact h
    · rename_i start stop _
      dsimp only at ho
      have h1 : AllFine (if start > 0 then exps ++ [{ body := s.take start }] else exps) := by
        split
        · exact h.add (by simp)
        · exact h
      have h2 := pushExpr_fine h1 (getExpression_fine ((s.take (stop + 1)).drop start))
      split at ho
      · cases ho
        exact h2
      · exact ih _ _ h2 ho

theorem splitLast_fine {exps : List XExpr} (h : AllFine exps) {out : List XExpr}
    (ho : splitLast exps = .ok out) : AllFine out := by
  unfold splitLast at ho
  split at ho
  · cases ho
  · rename_i l hl
    have hl := h l (List.mem_of_getLast? hl)
    split at ho
    · dsimp only at ho
      split at ho
      · cases ho
        have := (AllFine.add (e := { l with body := l.body.take (lastWildEnd l.body) })
          (fun x hx => h x ((List.dropLast_sublist _).subset hx)) hl).add
          (e := { body := l.body.drop (lastWildEnd l.body) }) (by simp)
        rw [List.append_assoc] at this
        exact this
      · cases ho
        exact h
    · cases ho
      exact h

theorem parseExpr_fine {s : Str} {exps : List XExpr} (h : parseExpr s = .ok exps) : AllFine exps := by
  have nil : AllFine [] := by intro x hx; cases hx
  unfold parseExpr at h
  split at h
  · cases h
    exact nil.add (e := { body := s }) (by simp)
  · dsimp only at h
    split at h
    · cases h
      exact (nil.add (e := { typ := .wild, body := s.take (lastWildEnd s) }) (by simp)).add
        (e := { body := s.drop (lastWildEnd s) }) (by simp)
    · cases h
      exact nil.add (e := { typ := .wild, body := s }) (by simp)
  · dsimp only at h
    rename_i k _
    split at h
    · cases h
      exact ((nil.add (e := { body := s.take (k + 1) }) (by simp)).add
        (e := { typ := .wild, body := (s.take (lastWildEnd s)).drop (k + 1) }) (by simp)).add
        (e := { body := s.drop (lastWildEnd s) }) (by simp)
    · cases h
      exact (nil.add (e := { body := s.take (k + 1) }) (by simp)).add
        (e := { typ := .wild, body := s.drop (k + 1) }) (by simp)
  · cases ho : xParseLoop (s.length + 1) s [] with
    | ok out =>
      rw [ho, R.bind_ok] at h
      exact splitLast_fine (xParseLoop_fine _ _ _ nil ho) h
    | panic => rw [ho] at h; cases h
    | timeout => rw [ho] at h; cases h

/-! ## One round -/

/-- The buffer has no influence. -/
theorem appendNext_out {e e' : XExpr} {o : Option Str} (h : e.appendNext [] = .ok (e', o)) (out : Str) :
    e.appendNext out = .ok (e', o.map (out ++ ·)) := by
  unfold XExpr.appendNext at h ⊢
  cases hp : e.pos with
  | none =>
    rw [hp] at h
    simp only [R.ok.injEq, Prod.mk.injEq] at h
    obtain ⟨rfl, rfl⟩ := h
    rfl
  | some p =>
    rw [hp] at h
    dsimp only at h ⊢
    cases ht : e.typ with
    | str =>
      rw [ht] at h
      simp only [R.ok.injEq, Prod.mk.injEq] at h
      obtain ⟨rfl, rfl⟩ := h
      rfl
    | wild =>
      rw [ht] at h
      simp only [R.ok.injEq, Prod.mk.injEq] at h
      obtain ⟨rfl, rfl⟩ := h
      rfl
    | list =>
      rw [ht] at h
      dsimp only at h ⊢
      cases hl : e.list[p]? with
      | none => rw [hl] at h; cases h
      | some s =>
        rw [hl] at h
        simp only [R.ok.injEq, Prod.mk.injEq] at h
        obtain ⟨rfl, rfl⟩ := h
        rfl
    | runes =>
      rw [ht] at h
      dsimp only at h ⊢
      cases hr : runesNext (e.runes.length + 1) e with
      | panic => rw [hr] at h; cases h
      | timeout => rw [hr] at h; cases h
      | ok r =>
        rw [hr, R.bind_ok] at h
        rw [R.bind_ok]
        obtain ⟨r1, r2⟩ := r
        cases r2 with
        | none =>
          simp only [R.ok.injEq, Prod.mk.injEq] at h
          obtain ⟨rfl, rfl⟩ := h
          rfl
        | some c =>
          simp only [R.ok.injEq, Prod.mk.injEq] at h
          obtain ⟨rfl, rfl⟩ := h
          rfl

/-- A range during an iteration: the position is not before the start, and U+FFFD is not in it. -/
def XRunes.Going (r : XRunes) : Prop :=
  r.start ≤ r.stop ∧ ¬ (r.start ≤ runeError ∧ runeError ≤ r.stop) ∧ ∀ c, r.pos = some c → r.start ≤ c

theorem XRunes.Going.reset {r : XRunes} (h : r.Going) : r.reset.Going :=
  ⟨h.1, h.2.1, by intro c e; cases e; exact Nat.le_refl _⟩

theorem XRunes.Going.next {r : XRunes} (h : r.Going) : r.next.2.Going := by
  unfold XRunes.next
  cases hp : r.pos with
  | none => exact h
  | some c =>
    dsimp only
    have := h.2.2 c hp
    split
    · exact ⟨h.1, h.2.1, by intro c e; cases e⟩
    · exact ⟨h.1, h.2.1, by intro d e; cases e; show r.start ≤ c + 1; omega⟩

theorem XRunes.Going.error {r : XRunes} (h : r.Going) (he : r.next.1 = runeError) : r.next.2.pos = none := by
  unfold XRunes.next at he ⊢
  cases hp : r.pos with
  | none => exact hp
  | some c =>
    rw [hp] at he
    dsimp only at he ⊢
    have h1 := h.2.2 c hp
    have h2 := h.2.1
    split
    · rfl
    · rename_i hc
      rw [if_neg hc] at he
      dsimp only at he
      omega

theorem going_set {l : List XRunes} (h : ∀ r ∈ l, r.Going) {q : XRunes} (hq : q.Going) (p : Nat) :
    ∀ r ∈ l.set p q, r.Going := by
  intro r hr
  rcases List.mem_or_eq_of_mem_set hr with hr | rfl
  · exact h r hr
  · exact hq

theorem runesNext_going (fuel : Nat) (e : XExpr) (h : ∀ r ∈ e.runes, r.Going) {e' : XExpr} {o : Option Nat}
    (hn : runesNext fuel e = .ok (e', o)) : e'.typ = e.typ ∧ (∀ r ∈ e'.runes, r.Going) ∧
      (o = none → ∃ p r, e'.pos = some p ∧ e'.runes[p]? = some r ∧ r.pos = none ∧ ¬ p + 1 < e'.runes.length) := by
  induction fuel generalizing e with
  | zero => cases hn
  | succ fuel ih =>
    rw [runesNext] at hn
    cases hp : e.pos with
    | none => rw [hp] at hn; cases hn
    | some p =>
      rw [hp] at hn
      dsimp only at hn
      cases hr : e.runes[p]? with
      | none => rw [hr] at hn; cases hn
      | some r =>
        rw [hr] at hn
        dsimp only at hn
        have hg := h r (List.mem_of_getElem? hr)
        have hs := going_set h hg.next p
        split at hn
        · rename_i he
          split at hn
          · rename_i hlt
            split at hn
            · cases hn
            · rename_i q hq
              have := ih { e with
                pos := some (p + 1), runes := (e.runes.set p r.next.2).set (p + 1) q.reset }
                (going_set hs (hs q (List.mem_of_getElem? hq)).reset (p + 1)) hn
              exact this
          · rename_i hlt
            simp only [R.ok.injEq, Prod.mk.injEq] at hn
            obtain ⟨rfl, rfl⟩ := hn
            refine ⟨rfl, hs, fun _ => ⟨p, r.next.2, rfl, ?_, hg.error he, hlt⟩⟩
            obtain ⟨hlt, _⟩ := List.getElem?_eq_some_iff.1 hr
            simp [hlt]
        · simp only [R.ok.injEq, Prod.mk.injEq] at hn
          obtain ⟨rfl, rfl⟩ := hn
          exact ⟨rfl, hs, by simp⟩

theorem appendNext_going {e e' : XExpr} {o : Option Str} (hg : ∀ r ∈ e.runes, r.Going)
    (h : e.appendNext [] = .ok (e', o)) : (∀ r ∈ e'.runes, r.Going) ∧
      (o = none → e'.appendNext [] = .ok (e', none)) := by
  unfold XExpr.appendNext at h
  cases hp : e.pos with
  | none =>
    rw [hp] at h
    simp only [R.ok.injEq, Prod.mk.injEq] at h
    obtain ⟨rfl, rfl⟩ := h
    refine ⟨hg, fun _ => ?_⟩
    unfold XExpr.appendNext
    rw [hp]
  | some p =>
    rw [hp] at h
    dsimp only at h
    cases ht : e.typ with
    | str =>
      rw [ht] at h
      simp only [R.ok.injEq, Prod.mk.injEq] at h
      obtain ⟨rfl, rfl⟩ := h
      exact ⟨hg, by simp⟩
    | wild =>
      rw [ht] at h
      simp only [R.ok.injEq, Prod.mk.injEq] at h
      obtain ⟨rfl, rfl⟩ := h
      exact ⟨hg, by simp⟩
    | list =>
      rw [ht] at h
      dsimp only at h
      cases hl : e.list[p]? with
      | none => rw [hl] at h; cases h
      | some s =>
        rw [hl] at h
        simp only [R.ok.injEq, Prod.mk.injEq] at h
        obtain ⟨rfl, rfl⟩ := h
        exact ⟨hg, by simp⟩
    | runes =>
      rw [ht] at h
      dsimp only at h
      cases hr : runesNext (e.runes.length + 1) e with
      | panic => rw [hr] at h; cases h
      | timeout => rw [hr] at h; cases h
      | ok r =>
        rw [hr, R.bind_ok] at h
        obtain ⟨r1, r2⟩ := r
        obtain ⟨g1, g2, g3⟩ := runesNext_going _ e hg hr
        cases r2 with
        | none =>
          simp only [R.ok.injEq, Prod.mk.injEq] at h
          obtain ⟨rfl, rfl⟩ := h
          refine ⟨g2, fun _ => ?_⟩
          obtain ⟨q, x, q1, q2, q3, q4⟩ := g3 rfl
          have hset : r1.runes.set q x = r1.runes := by
            obtain ⟨hlt, hx⟩ := List.getElem?_eq_some_iff.1 q2
            rw [← hx]
            exact List.set_getElem_self hlt
          unfold XExpr.appendNext
          rw [q1, g1, ht]
          dsimp only
          rw [runesNext, q1]
          dsimp only
          rw [q2]
          dsimp only
          have hn : x.next = (runeError, x) := by unfold XRunes.next; rw [q3]
          rw [hn]
          dsimp only
          rw [if_pos rfl, hset, if_neg q4, R.bind_ok]
          obtain ⟨a1, a2, a3, a4, a5⟩ := r1
          simp at q1 ⊢
          exact q1.symm
        | some c =>
          simp only [R.ok.injEq, Prod.mk.injEq] at h
          obtain ⟨rfl, rfl⟩ := h
          exact ⟨g2, by simp⟩

/-! ## All rounds -/

theorem takeWhile_all {p : Nat → Bool} {l : List Nat} (h : ∀ x ∈ l, p x = true) : l.takeWhile p = l := by
  induction l with
  | nil => rfl
  | cons a l ih =>
    rw [List.takeWhile_cons, if_pos (h a (by simp)), ih (fun x hx => h x (by simp [hx]))]

theorem codesFrom_len {c stop : Nat} (h : ¬ (c ≤ runeError ∧ runeError ≤ stop)) (hle : c ≤ stop) :
    ((codesFrom c stop).length : Int) = (stop : Int) - c + 1 := by
  unfold codesFrom
  rw [takeWhile_all]
  · simp; omega
  · intro x hx
    simp only [List.mem_range'_1] at hx
    simp only [decide_eq_true_eq, ne_eq]
    omega

theorem rangesAlts_full {l : List XRunes} (h : ∀ r ∈ l, r.Going) :
    ((rangesAlts l).length : Int) = runesCount l := by
  induction l with
  | nil => rfl
  | cons r l ih =>
    have he : rangesAlts (r :: l) = (codesFrom r.start r.stop).map encodeRune ++ rangesAlts l := by
      simp [rangesAlts]
    have := codesFrom_len (h r (by simp)).2.1 (h r (by simp)).1
    have := ih (fun x hx => h x (by simp [hx]))
    rw [he, runesCount, XRunes.count, List.length_append, List.length_map]
    omega

theorem alts_count {e : XExpr} (h : ∀ r ∈ e.runes, r.Going) : (e.alts.length : Int) = e.count := by
  unfold XExpr.alts XExpr.count
  cases e.typ with
  | str => rfl
  | wild => rfl
  | list => rfl
  | runes => exact rangesAlts_full h

theorem alts_head {K : Int} {e : XExpr} (hg : GoodExpr K e) (h : ∀ r ∈ e.runes, RunesFine r)
    (hw : e.typ ≠ .wild) : ∃ x xs, e.alts = x :: xs ∧ e.minLen = .ok x.length := by
  unfold XExpr.alts XExpr.minLen
  cases ht : e.typ with
  | str => exact ⟨_, _, rfl, rfl⟩
  | wild => exact absurd ht hw
  | list =>
    obtain ⟨x, xs, hl⟩ := List.exists_cons_of_ne_nil (hg.fresh.list ht)
    rw [hl]
    exact ⟨x, xs, rfl, rfl⟩
  | runes =>
    obtain ⟨r, l, hl⟩ := List.exists_cons_of_ne_nil (hg.fresh.runes ht)
    have hr := h r (by rw [hl]; simp)
    rw [hl]
    have he : rangesAlts (r :: l) = (codesFrom r.start r.stop).map encodeRune ++ rangesAlts l := by
      simp [rangesAlts]
    refine ⟨encodeRune r.start, (codesFrom (r.start + 1) r.stop).map encodeRune ++ rangesAlts l, ?_, ?_⟩
    · dsimp only
      rw [he, codesFrom_cons hr.le hr.first]
      rfl
    · dsimp only
      have := encodeRune_length hr.ok
      rw [this]

end GoMatcher
