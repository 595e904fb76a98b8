import Verif.Proofs.ParseLoc
import Verif.Proofs.ParseTotal

/-! # What `Parse` returns for written globs -/

namespace GoMatcher

/-! ## The parser state -/

theorem appendItem_ne_nil (l : List Item) (x : Item) : appendItem l x ≠ [] := by
  unfold appendItem
  split
  · simp
  · split <;> simp

theorem step_lens (st : ParseSt) (x : Item) :
    (st.step x).minLen = st.minLen + x.minLen ∧
    (st.step x).maxLen = addMaxLen st.maxLen x.maxLen := by
  unfold ParseSt.step
  dsimp only
  split
  · split <;> exact ⟨rfl, rfl⟩
  · exact ⟨rfl, rfl⟩

theorem fold_step_lens (raws : List Item) (st : ParseSt) :
    (raws.foldl ParseSt.step st).minLen = st.minLen + sumMin raws ∧
    (raws.foldl ParseSt.step st).maxLen =
      raws.foldl (fun m x => addMaxLen m x.maxLen) st.maxLen := by
  induction raws generalizing st with
  | nil => simp [sumMin]
  | cons x raws ih =>
    rw [List.foldl_cons, List.foldl_cons]
    obtain ⟨h1, h2⟩ := ih (st.step x)
    obtain ⟨h3, h4⟩ := step_lens st x
    rw [h1, h2, h3, h4]
    simp only [sumMin]
    exact ⟨by omega, trivial⟩

theorem fold_step_inners (raws : List Item) (st : ParseSt) (h : st.inners ≠ []) :
    (raws.foldl ParseSt.step st).inners = raws.foldl appendItem st.inners ∧
    (raws.foldl ParseSt.step st).pref = st.pref := by
  induction raws generalizing st with
  | nil => exact ⟨rfl, rfl⟩
  | cons x raws ih =>
    rw [List.foldl_cons, List.foldl_cons]
    have e1 : (st.step x).inners = appendItem st.inners x := by
      unfold ParseSt.step
      dsimp only
      rw [if_neg (by simpa using h)]
    have e2 : (st.step x).pref = st.pref := by
      unfold ParseSt.step
      dsimp only
      rw [if_neg (by simpa using h)]
    obtain ⟨h1, h2⟩ := ih (st.step x) (by rw [e1]; exact appendItem_ne_nil _ _)
    rw [h1, h2, e1, e2]
    exact ⟨rfl, rfl⟩

/-- The items are literals with the given text. -/
inductive LitsAre : List Item → List Char → Prop
  | nil : LitsAre [] []
  | cons {x : Item} {xs : List Item} {ws us : List Char} (h : IsLit x ws) (hr : LitsAre xs us) :
      LitsAre (x :: xs) (ws ++ us)

theorem LitsAre.sem {xs : List Item} {ws : List Char} (h : LitsAre xs ws) (cs : List Char) :
    SeqSem xs cs ↔ cs = ws := by
  induction h generalizing cs with
  | nil => exact Iff.rfl
  | @cons x xs ws us h _ ih =>
    simp only [SeqSem, h.sem, ih]
    constructor
    · rintro ⟨a, b, rfl, rfl, rfl⟩; rfl
    · rintro rfl; exact ⟨ws, us, rfl, rfl, rfl⟩

theorem fold_step (raws : List Item) (st : ParseSt) (h : st.inners = [])
    (hw : ∀ x ∈ raws, LitWF x) :
    ∃ (W : List Char) (lits rest : List Item), raws = lits ++ rest ∧
      (∀ cs, SeqSem raws cs ↔ ∃ m, cs = W ++ m ∧ SeqSem rest m) ∧
      (∀ x ∈ lits, ∃ ws, IsLit x ws) ∧
      (rest = [] ∨ ∃ x r, rest = x :: r ∧ NonLit x) ∧
      (raws.foldl ParseSt.step st).pref = st.pref ++ utf8 W ∧
      (raws.foldl ParseSt.step st).inners = norm rest ∧
      (∀ Q : Char → Prop, (∀ x ∈ raws, LitQ Q x) → ∀ c ∈ W, Q c) ∧ LitsAre lits W := by
  induction raws generalizing st with
  | nil =>
    refine ⟨[], [], [], rfl, ?_, by simp, Or.inl rfl, by simp, by simp [h, norm], by simp, .nil⟩
    intro cs
    simp
  | cons x raws ih =>
    rcases hw x (by simp) with hx | ⟨ws, hx⟩
    · refine ⟨[], [], x :: raws, rfl, by simp, by simp, Or.inr ⟨x, raws, rfl, hx⟩, ?_, ?_, by simp, .nil⟩
      all_goals rw [List.foldl_cons]
      all_goals
        have e : (st.step x).inners = [x] ∧ (st.step x).pref = st.pref := by
          unfold ParseSt.step
          dsimp only
          rw [if_pos (by simp [h])]
          cases x <;> first | (simp [NonLit, litBytes] at hx; done) | exact ⟨rfl, rfl⟩
      · rw [(fold_step_inners raws _ (by rw [e.1]; simp)).2, e.2]
        simp
      · rw [(fold_step_inners raws _ (by rw [e.1]; simp)).1, e.1]
        exact foldl_append_normAux [] x raws
    · have e : (st.step x).inners = [] ∧ (st.step x).pref = st.pref ++ utf8 ws := by
        have hb := hx.bytes
        unfold ParseSt.step
        dsimp only
        rw [if_pos (by simp [h])]
        cases x <;> first
          | exact hx.elim
          | (simp only [litBytes, Option.some.injEq] at hb; rw [← hb]; exact ⟨h, rfl⟩)
      obtain ⟨W, lits, rest, h1, h2, h3, h4, h5, h6, h7, h8⟩ :=
        ih (st.step x) e.1 (fun y hy => hw y (by simp [hy]))
      refine ⟨ws ++ W, x :: lits, rest, by rw [h1]; rfl, ?_, ?_, h4, ?_, ?_, ?_, .cons hx h8⟩
      · intro cs
        simp only [SeqSem, hx.sem, h2]
        constructor
        · rintro ⟨a, b, rfl, rfl, m, rfl, hm⟩; exact ⟨m, by simp, hm⟩
        · rintro ⟨m, rfl, hm⟩; exact ⟨ws, W ++ m, by simp, rfl, m, rfl, hm⟩
      · intro y hy
        rcases List.mem_cons.1 hy with rfl | hy
        · exact ⟨ws, hx⟩
        · exact h3 y hy
      · rw [List.foldl_cons, h5, e.2, utf8_append]; simp
      · rw [List.foldl_cons]; exact h6
      · intro Q hQ c hc
        rcases List.mem_append.1 hc with hc | hc
        · exact hQ x (by simp) ws hx c hc
        · exact h7 Q (fun y hy => hQ y (by simp [hy])) c hc

/-! ## Trailing literals -/

theorem Good.dropLit {ex a : Bool} {P : List Item} {it : Item}
    (h : Good ex a (P ++ [it])) : Good ex a P := by
  generalize hQ : P ++ [it] = Q at h
  induction h generalizing P with
  | nil => simp at hQ
  | @lit a it' w rest h hr ih =>
    cases P with
    | nil => exact .nil _
    | cons x P =>
      injection hQ with e1 e2
      subst e1
      exact .lit h (ih e2)
  | any hr ih =>
    cases P with
    | nil => exact .nil _
    | cons x P =>
      injection hQ with e1 e2
      subst e1
      exact .any (ih e2)
  | star h hr ih =>
    cases P with
    | nil => exact .nil _
    | cons x P =>
      injection hQ with e1 e2
      subst e1
      exact .star h (ih e2)
  | @list a l rest hw hlo hr ho ih1 ih2 =>
    cases P with
    | nil => exact .nil _
    | cons x P =>
      injection hQ with e1 e2
      subst e1
      refine .list hw (fun h1 h2 => ?_) (ih1 e2) (fun h1 h2 => ih2 h1 h2 e2)
      rcases hlo h1 h2 with h | h | ⟨n, r, h⟩
      · exact Or.inl h
      · rw [h] at e2; simp at e2
      · rw [h] at e2
        cases P with
        | nil => exact Or.inr (Or.inl rfl)
        | cons y P =>
          injection e2 with e1 _
          exact Or.inr (Or.inr ⟨n, P, by rw [e1]⟩)
  | @group a vals mn mx rest hw hne hr ho ih1 ih2 =>
    cases P with
    | nil => exact .nil _
    | cons x P =>
      injection hQ with e1 e2
      subst e1
      refine .group hw hne (fun v hv => ih1 v hv ?_) (fun h0 => ih2 h0 e2)
      rw [← e2]; simp

theorem NoPan.dropLit {a : Bool} {P : List Item} {it : Item}
    (h : NoPan a (P ++ [it])) : NoPan a P := by
  generalize hQ : P ++ [it] = Q at h
  induction h generalizing P with
  | nil => simp at hQ
  | lit h hr ih =>
    cases P with
    | nil => exact .nil _
    | cons x P => injection hQ with e1 e2; subst e1; exact .lit h (ih e2)
  | any hr ih =>
    cases P with
    | nil => exact .nil _
    | cons x P => injection hQ with e1 e2; subst e1; exact .any (ih e2)
  | star hr ih =>
    cases P with
    | nil => exact .nil _
    | cons x P => injection hQ with e1 e2; subst e1; exact .star (ih e2)
  | list hr ho ih1 ih2 =>
    cases P with
    | nil => exact .nil _
    | cons x P =>
      injection hQ with e1 e2; subst e1
      exact .list (ih1 e2) (fun h1 h2 => ih2 h1 h2 e2)
  | group hr ho ih1 ih2 =>
    cases P with
    | nil => exact .nil _
    | cons x P =>
      injection hQ with e1 e2; subst e1
      refine .group (fun v hv => ih1 v hv ?_) (fun h0 => ih2 h0 e2)
      rw [← e2]; simp

theorem normAux_litWF (x : Item) (ys : List Item) (hx : LitWF x) (hy : ∀ y ∈ ys, LitWF y) :
    ∀ z ∈ normAux x ys, LitWF z := by
  induction ys generalizing x with
  | nil => intro z hz; rw [show z = x by simpa [normAux] using hz]; exact hx
  | cons y ys ih =>
    unfold normAux
    have hy1 := hy y (by simp)
    have hy2 : ∀ z ∈ ys, LitWF z := fun z hz => hy z (by simp [hz])
    cases hm : mergeItem x y with
    | some m => exact ih m (mergeItem_sem hx hy1 hm).1 hy2
    | none =>
      intro z hz
      rcases List.mem_cons.1 hz with rfl | hz
      · exact hx
      · exact ih y hy1 hy2 z hz

theorem norm_litWF (xs : List Item) (h : ∀ x ∈ xs, LitWF x) : ∀ z ∈ norm xs, LitWF z := by
  cases xs with
  | nil => simp [norm]
  | cons x xs => exact normAux_litWF x xs (h x (by simp)) (fun y hy => h y (by simp [hy]))

/-- The first item stays a non-literal. -/
theorem normAux_head (x : Item) (ys : List Item) (hx : NonLit x) :
    ∃ y r, normAux x ys = y :: r ∧ NonLit y := by
  induction ys generalizing x with
  | nil => exact ⟨x, [], rfl, hx⟩
  | cons y ys ih =>
    unfold normAux
    cases hm : mergeItem x y with
    | none => exact ⟨x, _, rfl, hx⟩
    | some m =>
      refine ih m ?_
      cases x <;> first | (simp [NonLit, litBytes] at hx; done) | skip
      all_goals cases y <;> simp [mergeItem] at hm
      all_goals subst hm; rfl

theorem takeSuffix_spec (inners : List Item) (suff : Str) (hw : ∀ x ∈ inners, LitWF x)
    (hh : inners = [] ∨ ∃ x r, inners = x :: r ∧ NonLit x) :
    ∃ (W : List Char) (its : List Item), takeSuffix inners suff = (its, utf8 W ++ suff) ∧
      (∀ cs, SeqSem inners cs ↔ ∃ m, cs = m ++ W ∧ SeqSem its m) ∧
      (its = [] ↔ inners = []) ∧ (its = [] ∨ ∃ x r, its = x :: r ∧ NonLit x) ∧
      (∀ ex a, Fine ex a inners → Fine ex a its) ∧ (∀ x ∈ its, x ∈ inners) ∧
      (∀ Q : Char → Prop, (∀ x ∈ inners, LitQ Q x) → ∀ c ∈ W, Q c) ∧
      ∃ tail, inners = its ++ tail ∧ LitsAre tail W := by
  have same : ∃ (W : List Char) (its : List Item), (inners, suff) = (its, utf8 W ++ suff) ∧
      (∀ cs, SeqSem inners cs ↔ ∃ m, cs = m ++ W ∧ SeqSem its m) ∧
      (its = [] ↔ inners = []) ∧ (its = [] ∨ ∃ x r, its = x :: r ∧ NonLit x) ∧
      (∀ ex a, Fine ex a inners → Fine ex a its) ∧ (∀ x ∈ its, x ∈ inners) ∧
      (∀ Q : Char → Prop, (∀ x ∈ inners, LitQ Q x) → ∀ c ∈ W, Q c) ∧
      ∃ tail, inners = its ++ tail ∧ LitsAre tail W :=
    ⟨[], inners, by simp, by simp, Iff.rfl, hh, fun _ _ h => h, fun _ h => h, by simp, [], by simp, .nil⟩
  unfold takeSuffix
  by_cases hlen : inners.length > 1
  · rw [if_pos hlen]
    rcases List.eq_nil_or_concat inners with e | ⟨init, x, e⟩
    · rw [e] at hlen; simp at hlen
    · rw [List.concat_eq_append] at e
      rw [e, List.getLast?_append, List.getLast?_singleton, List.dropLast_concat]
      rcases hw x (by rw [e]; simp) with hx | ⟨ws, hx⟩
      · rw [e] at same
        cases x <;> first | (simp [NonLit, litBytes] at hx; done) | exact same
      · have key : ∃ (W : List Char) (its : List Item), (init, utf8 ws ++ suff) = (its, utf8 W ++ suff) ∧
            (∀ cs, SeqSem (init ++ [x]) cs ↔ ∃ m, cs = m ++ W ∧ SeqSem its m) ∧
            (its = [] ↔ init ++ [x] = []) ∧ (its = [] ∨ ∃ x r, its = x :: r ∧ NonLit x) ∧
            (∀ ex a, Fine ex a (init ++ [x]) → Fine ex a its) ∧ (∀ y ∈ its, y ∈ init ++ [x]) ∧
            (∀ Q : Char → Prop, (∀ y ∈ init ++ [x], LitQ Q y) → ∀ c ∈ W, Q c) ∧
            ∃ tail, init ++ [x] = its ++ tail ∧ LitsAre tail W := by
          have hne : init ≠ [] := by rintro rfl; rw [e] at hlen; simp at hlen
          refine ⟨ws, init, rfl, ?_, by simp [hne], ?_, ?_, fun y hy => by simp [hy],
            fun Q hQ => hQ x (by simp) ws hx, [x], rfl, by have h := LitsAre.cons hx .nil; rwa [List.append_nil] at h⟩
          · intro cs
            rw [seqSem_append]
            constructor
            · rintro ⟨a, b, rfl, ha, hb⟩
              rw [seqSem_singleton, hx.sem] at hb
              exact ⟨a, by rw [hb], ha⟩
            · rintro ⟨m, rfl, hm⟩
              exact ⟨m, ws, rfl, hm, by rw [seqSem_singleton, hx.sem]⟩
          · rcases hh with h | ⟨y, r, h, hy⟩
            · rw [h] at hlen; simp at hlen
            · cases init with
              | nil => exact absurd rfl hne
              | cons z init =>
                rw [e] at h
                injection h with h1 h2
                exact Or.inr ⟨z, init, rfl, by rw [h1]; exact hy⟩
          · intro ex a h
            exact ⟨h.1.dropLit, h.2.dropLit⟩
        have hb := hx.bytes
        cases x <;> first
          | exact hx.elim
          | (simp only [litBytes, Option.some.injEq] at hb
             rw [← hb] at key
             exact key)
  · rw [if_neg hlen]; exact same

/-! ## Written forms are not empty -/

/-- Items with a sensible written form. -/
def WOk : Item → Prop
  | .str v => v ≠ []
  | .byte _ => True
  | .rune _ => True
  | .any n => 0 < n
  | .chain _ _ _ => False
  | _ => True

theorem IsLit.wok {it : Item} {ws : List Char} (h : IsLit it ws) (hne : ws ≠ []) : WOk it := by
  cases it <;> first | exact h.elim | trivial | skip
  simp only [IsLit] at h
  simp only [WOk, h, ne_eq, utf8_eq_nil]
  exact hne

theorem RawToks.wok {ts : List Tok} {raws : List Item} (h : RawToks ts raws) :
    ∀ x ∈ raws, WOk x := by
  induction h with
  | nil => simp
  | chunk h _ ih =>
    intro x hx
    rcases List.mem_cons.1 hx with rfl | hx
    · cases h with
      | lits hne h => exact h.wok hne
      | any => exact Nat.one_pos
      | stars k => trivial
      | cls h =>
        rcases h.kind with ⟨c, hc⟩ | ⟨rs, rfl, _⟩
        · exact hc.wok (by simp)
        · trivial
    · exact ih x hx
  | skip _ _ _ ih => exact ih
  | alt _ h _ ih =>
    intro x hx
    rcases List.mem_cons.1 hx with rfl | hx
    · cases h with
      | lit hne _ hl => exact hl.wok hne
      | list => trivial
      | star => trivial
      | group => trivial
    · exact ih x hx

theorem stringOfByte_ne_nil (b : UInt8) : stringOfByte b ≠ [] := by
  unfold stringOfByte
  exact encodeRune_ne_nil _

theorem mergeItem_wok {x y m : Item} (hx : WOk x) (hy : WOk y) (h : mergeItem x y = some m) :
    WOk m := by
  cases x <;> cases y <;> simp only [mergeItem, Option.some.injEq, reduceCtorEq] at h <;>
    subst h <;> simp_all [WOk, encodeRune_ne_nil, stringOfByte_ne_nil]
  all_goals omega

theorem normAux_wok (x : Item) (ys : List Item) (hx : WOk x) (hy : ∀ y ∈ ys, WOk y) :
    ∀ z ∈ normAux x ys, WOk z := by
  induction ys generalizing x with
  | nil => intro z hz; rw [show z = x by simpa [normAux] using hz]; exact hx
  | cons y ys ih =>
    unfold normAux
    have hy1 := hy y (by simp)
    have hy2 : ∀ z ∈ ys, WOk z := fun z hz => hy z (by simp [hz])
    cases hm : mergeItem x y with
    | some m => exact ih m (mergeItem_wok hx hy1 hm) hy2
    | none =>
      intro z hz
      rcases List.mem_cons.1 hz with rfl | hz
      · exact hx
      · exact ih y hy1 hy2 z hz

theorem norm_wok (xs : List Item) (h : ∀ x ∈ xs, WOk x) : ∀ z ∈ norm xs, WOk z := by
  cases xs with
  | nil => simp [norm]
  | cons x xs => exact normAux_wok x xs (h x (by simp)) (fun y hy => h y (by simp [hy]))

theorem WOk.write_ne_nil {x : Item} (h : WOk x) : x.writeString ≠ [] := by
  cases x with
  | str v => exact h
  | byte b => simp [Item.writeString]
  | rune r => exact encodeRune_ne_nil r
  | any n =>
    simp only [WOk] at h
    simp only [Item.writeString, ne_eq, List.replicate_eq_nil_iff]
    omega
  | star n => simp [Item.writeString]
  | ranges rs => simp [Item.writeString, RunesRanges.writeString]
  | list l => simp [Item.writeString]
  | group v a b => simp [Item.writeString]
  | chain v a b => exact h.elim

/-- A non-empty item sequence that starts with a wildcard is written as a single star only
if it is one. -/
theorem write_star {items : List Item} {p s : Str} (hw : ∀ x ∈ items, WOk x)
    (hh : ∃ x r, items = x :: r ∧ NonLit x) (h : p ++ Item.writeItems items ++ s = [42]) :
    p = [] ∧ s = [] ∧ items = [.star 0] := by
  obtain ⟨x, r, rfl, hx⟩ := hh
  have hx1 := hw x (by simp)
  simp only [Item.writeItems] at h
  have hp : p = [] := by
    cases p with
    | nil => rfl
    | cons b p =>
      exfalso
      simp only [List.cons_append] at h
      injection h with _ h
      simp only [List.append_assoc, List.append_eq_nil_iff] at h
      exact hx1.write_ne_nil h.2.1
  subst hp
  rw [List.nil_append] at h
  have key : ∃ n, x = .star n := by
    cases x with
    | str v => simp [NonLit, litBytes] at hx
    | byte b => simp [NonLit, litBytes] at hx
    | rune r => simp [NonLit, litBytes] at hx
    | any n =>
      cases n with
      | zero => simp [WOk] at hx1
      | succ n => simp [Item.writeString, List.replicate_succ] at h
    | star n => exact ⟨n, rfl⟩
    | ranges rs => simp [Item.writeString, RunesRanges.writeString] at h
    | list l => simp [Item.writeString] at h
    | group v a b => simp [Item.writeString] at h
    | chain v a b => exact hx1.elim
  obtain ⟨n, rfl⟩ := key
  simp only [Item.writeString, List.cons_append] at h
  injection h with _ h
  simp only [List.append_assoc, List.append_eq_nil_iff, List.replicate_eq_nil_iff] at h
  obtain ⟨rfl, h2, h3⟩ := h
  refine ⟨rfl, h3, ?_⟩
  cases r with
  | nil => rfl
  | cons y r =>
    exfalso
    simp only [Item.writeItems, List.append_eq_nil_iff] at h2
    exact (hw y (by simp)).write_ne_nil h2.1

/-! ## Sizes -/

theorem fold_addMax_inf (raws : List Item) (m : Int)
    (h : m = -1 ∨ ∃ x ∈ raws, x.maxLen = -1) :
    raws.foldl (fun m x => addMaxLen m x.maxLen) m = -1 := by
  induction raws generalizing m with
  | nil =>
    rcases h with rfl | ⟨x, hx, _⟩
    · rfl
    · cases hx
  | cons x raws ih =>
    rw [List.foldl_cons]
    refine ih _ ?_
    rcases h with rfl | ⟨y, hy, e⟩
    · left; simp [addMaxLen]
    · rcases List.mem_cons.1 hy with rfl | hy
      · left; unfold addMaxLen; rw [e]; split <;> simp_all
      · exact Or.inr ⟨y, hy, e⟩

theorem fold_addMax_fin (raws : List Item) (m : Int) (hm : 0 ≤ m)
    (h : ∀ x ∈ raws, 0 ≤ x.maxLen) :
    raws.foldl (fun m x => addMaxLen m x.maxLen) m = m + sumMax raws := by
  induction raws generalizing m with
  | nil => simp [sumMax]
  | cons x raws ih =>
    rw [List.foldl_cons]
    have hx := h x (by simp)
    have e : addMaxLen m x.maxLen = m + x.maxLen := by
      unfold addMaxLen
      rw [if_pos (by omega)]
    rw [ih _ (by rw [e]; omega) (fun y hy => h y (by simp [hy])), e]
    simp only [sumMax]
    omega

/-! ## The whole of `Parse` -/

/-- The normal form of the glob is a written glob with the same meaning. -/
def NodeText (ts : List Tok) (g : Glob) : Prop :=
  ∃ nts, (∀ t ∈ nts, t.Written) ∧ g.node = utf8 (renderGlob nts) ∧ (∀ cs, Fits nts cs ↔ Fits ts cs) ∧
    (AltsDiffer ts → ∀ t ∈ nts, t.Ok) ∧ (¬ HasAlt ts → ∀ t ∈ nts, ∃ s, t = .sub s)

/-- How the items of a parsed glob come from its tokens: literals at both ends are cut off, the
rest is merged. -/
def Layout (ts : List Tok) (g : Glob) : Prop :=
  ∃ l0 mid l1 raws lits rest tail W V, ts = (l0.map Sub.lit).map Tok.sub ++ (mid ++ (l1.map Sub.lit).map Tok.sub) ∧
    RawToks mid raws ∧ raws = lits ++ rest ∧ LitsAre lits W ∧ norm rest = g.items ++ tail ∧ LitsAre tail V ∧
    (g.items ≠ [] → g.pref = utf8 (l0 ++ W) ∧ g.suff = utf8 (V ++ l1)) ∧
    (g.items = [] → g.node = utf8 ((l0 ++ W) ++ (V ++ l1)))

/-- What is known about a parsed glob. -/
structure GlobOk (ts : List Tok) (g : Glob) : Prop where
  plain : g.items = [] → ∃ w, g.node = utf8 w ∧ ∀ cs, Fits ts cs ↔ cs = w
  wild : g.items ≠ [] → ∃ P S, g.pref = utf8 P ∧ g.suff = utf8 S ∧
    g.node = g.pref ++ Item.writeItems g.items ++ g.suff ∧
    (∃ x r, g.items = x :: r ∧ NonLit x) ∧
    ∀ cs, Fits ts cs ↔ ∃ m, cs = P ++ m ++ S ∧ SeqSem g.items m
  vals : g.vals = [] ∨ ∃ l, g.items = [.list l] ∧
    ∀ s, s ∈ g.vals ↔ s ∈ l.vals ∨ (l.minSize = 0 ∧ s = [])
  min : ∀ cs, Fits ts cs → g.minLen ≤ (utf8 cs).length
  max : MaxOk ts → g.maxLen = -1 ∨ ∀ cs, Fits ts cs → (utf8 cs).length ≤ g.maxLen
  write : ∀ x ∈ g.items, WOk x
  loc : ∀ x ∈ g.items, Loc x
  origin : ∃ mid raws rest, (∀ t ∈ mid, t ∈ ts) ∧ RawToks mid raws ∧ (∀ x ∈ rest, x ∈ raws) ∧
    ∀ x ∈ g.items, x ∈ norm rest
  layout : Layout ts g
  term : StarsEnd ts → ∀ x ∈ g.items, FlatTerm x
  nostar : ¬ HasStar ts → ∀ x ∈ g.items, StarFree x
  bare : g.items = [] → g.pref = [] ∧ g.suff = []
  fine : ∀ ex, Shape ex .plain ts → Fine ex false g.items
  text : (∀ t ∈ ts, t.Ok) → (∀ t ∈ ts, t.Tidy) → NodeText ts g

theorem lastIndexP_none {p : UInt8 → Bool} {a : Str} (h : ∀ x ∈ a, p x = false) :
    lastIndexP p a = none := by
  induction a with
  | nil => rfl
  | cons x a ih =>
    rw [lastIndexP, ih (fun y hy => h y (by simp [hy]))]
    simp [h x (by simp)]

theorem lastIndexP_append {p : UInt8 → Bool} (a : Str) {b : UInt8} {t : Str} (hb : p b = true)
    (ht : ∀ x ∈ t, p x = false) : lastIndexP p (a ++ b :: t) = some a.length := by
  induction a with
  | nil => rw [List.nil_append, lastIndexP, lastIndexP_none ht]; simp [hb]
  | cons x a ih =>
    rw [List.cons_append, lastIndexP, ih]
    simp

/-- Trailing literals. -/
theorem litRunEnd (ts : List Tok) : ∃ (mid : List Tok) (cs : List Char),
    ts = mid ++ (cs.map Sub.lit).map Tok.sub ∧ ∀ init c, mid ≠ init ++ [.sub (.lit c)] := by
  induction ts with
  | nil => exact ⟨[], [], rfl, by simp⟩
  | cons t ts ih =>
    obtain ⟨mid, cs, e, h⟩ := ih
    have keep : mid ≠ [] → ∃ (mid : List Tok) (cs : List Char),
        t :: ts = mid ++ (cs.map Sub.lit).map Tok.sub ∧
        ∀ init c, mid ≠ init ++ [.sub (.lit c)] := by
      intro hne
      refine ⟨t :: mid, cs, by rw [e]; rfl, ?_⟩
      intro init c e'
      cases init with
      | nil => injection e' with _ e2; exact hne e2
      | cons x init => injection e' with _ e2; exact h init c e2
    have single : mid = [] → (∀ c, t ≠ .sub (.lit c)) → ∃ (mid : List Tok) (cs : List Char),
        t :: ts = mid ++ (cs.map Sub.lit).map Tok.sub ∧
        ∀ init c, mid ≠ init ++ [.sub (.lit c)] := by
      intro hm ht
      refine ⟨[t], cs, by rw [e, hm]; rfl, ?_⟩
      intro init c e'
      cases init with
      | nil => injection e' with e1 _; exact ht c e1
      | cons x init => injection e' with _ e2; simp at e2
    by_cases hm : mid = []
    · match t, single with
      | .sub (.lit c), _ => exact ⟨[], c :: cs, by rw [e, hm]; rfl, by simp⟩
      | .sub .any, single => exact single hm (by simp)
      | .sub .star, single => exact single hm (by simp)
      | .sub (.cls es), single => exact single hm (by simp)
      | .alt alts, single => exact single hm (by simp)
    · exact keep hm

/-- The last character of a token that is no literal. -/
theorem render_special_last {t : Tok} (h : ∀ c, t ≠ .sub (.lit c)) :
    ∃ c r, t.render = r ++ [c] ∧ isSpecial c = true := by
  match t with
  | .sub (.lit c) => exact absurd rfl (h c)
  | .sub .any => exact ⟨'?', [], rfl, by decide⟩
  | .sub .star => exact ⟨'*', [], rfl, by decide⟩
  | .sub (.cls es) => exact ⟨']', _, rfl, by decide⟩
  | .alt alts => exact ⟨'}', _, rfl, by decide⟩

theorem shape_dropLits {ex : Bool} (p : Pos) (mid : List Tok) (cs : List Char)
    (h : Shape ex p (mid ++ (cs.map Sub.lit).map Tok.sub)) : Shape ex p mid := by
  have hstar : ∀ ts : List Tok, startsStar (ts ++ (cs.map Sub.lit).map Tok.sub) = true →
      startsStar ts = true := by
    intro ts
    induction ts with
    | nil =>
      intro h
      cases cs with
      | nil => exact h
      | cons c cs => cases h
    | cons t ts ih =>
      intro h
      match t, h with
      | .sub .star, _ => rfl
      | .sub .any, h => exact ih h
      | .sub (.lit c), h => cases h
      | .sub (.cls es), h => cases h
      | .alt _, h => cases h
  have hsub : ∀ (K L : Pos → Prop), (∀ q, K q → L q) → ∀ (a : List Sub) (q : Pos),
      subsShape ex q a K → subsShape ex q a L := by
    intro K L hKL a
    induction a with
    | nil => exact hKL
    | cons s a ih =>
      intro q h
      cases s with
      | lit c => exact ih _ h
      | any => exact ⟨h.1, ih _ h.2⟩
      | star => exact ⟨h.1, ih _ h.2⟩
      | cls es => exact ih _ h
  induction mid generalizing p with
  | nil => trivial
  | cons t mid ih =>
    rw [List.cons_append] at h
    cases t with
    | sub s => exact hsub _ _ (fun q hq => ih q hq) [s] p h
    | alt alts =>
      unfold Shape at h ⊢
      by_cases hp : plainAlts alts = true
      · rw [if_pos hp] at h ⊢
        refine ⟨ih _ h.1, fun hpp => ⟨fun he => ?_, fun hm => ih _ ((h.2 hpp).2 hm)⟩⟩
        rcases (h.2 hpp).1 he with h1 | h1
        · exact Or.inl h1
        · right
          unfold endsOrStar at h1 ⊢
          rw [Bool.or_eq_true] at h1 ⊢
          rcases h1 with h1 | h1
          · exact Or.inl (hstar _ h1)
          · rw [List.all_append, Bool.and_eq_true] at h1
            exact Or.inr h1.1
      · rw [if_neg hp] at h ⊢
        by_cases hs : [Sub.star] ∈ alts
        · rw [if_pos hs] at h ⊢
          exact hsub _ _ (fun q hq => ih q hq) [.star] p h
        · rw [if_neg hs] at h ⊢
          exact fun a ha => hsub _ _ (fun q hq => ih _ hq) a _ (h a ha)

theorem shape_lits {ex : Bool} (p : Pos) (cs : List Char) (ts : List Tok)
    (h : Shape ex p ((cs.map Sub.lit).map Tok.sub ++ ts)) : cs = [] ∧ Shape ex p ts ∨ Shape ex .plain ts := by
  induction cs generalizing p with
  | nil => exact Or.inl ⟨rfl, h⟩
  | cons c cs ih =>
    rcases ih .plain h with ⟨_, h⟩ | h <;> exact Or.inr h

theorem GoodRaw.lits {ex : Bool} {R : List Item} {p : Pos} {lits rest : List Item}
    (hl : ∀ x ∈ lits, ∃ ws, IsLit x ws) (h : GoodRaw ex R p (lits ++ rest)) :
    ∃ q, GoodRaw ex R q rest ∧ (p = .plain → q = .plain) := by
  induction lits generalizing p with
  | nil => exact ⟨p, h, id⟩
  | cons x lits ih =>
    obtain ⟨ws, hx⟩ := hl x (by simp)
    have hl' : ∀ x ∈ lits, ∃ ws, IsLit x ws := fun y hy => hl y (by simp [hy])
    have : GoodRaw ex R .plain (lits ++ rest) := by
      rw [List.cons_append] at h
      cases h with
      | lit _ hr => exact hr
      | ranges h hr => exact hr
      | any => exact hx.elim
      | star => exact hx.elim
      | list => exact hx.elim
      | group => exact hx.elim
    obtain ⟨q, hq, e⟩ := ih hl' this
    exact ⟨q, hq, fun _ => e rfl⟩

/-- `finishGlob` keeps most fields. -/
theorem finishGlob_spec (g : Glob) (hv : g.vals = []) :
    (finishGlob g).glob = g.glob ∧ (finishGlob g).items = g.items ∧
    (finishGlob g).minLen = g.minLen ∧ (finishGlob g).maxLen = g.maxLen ∧
    (g.items = [] → (finishGlob g).node = g.pref ++ g.suff) ∧
    (g.items ≠ [] → (finishGlob g).pref = g.pref ∧ (finishGlob g).suff = g.suff ∧
      (finishGlob g).node = g.pref ++ Item.writeItems g.items ++ g.suff) ∧
    ((finishGlob g).vals = [] ∨ ∃ l, g.items = [.list l] ∧
      ∀ s, s ∈ (finishGlob g).vals ↔ s ∈ l.vals ∨ (l.minSize = 0 ∧ s = [])) := by
  by_cases h0 : g.items = []
  · have e : finishGlob g = { g with node := g.pref ++ g.suff, pref := [], suff := [] } := by
      unfold finishGlob
      rw [if_pos (by simp [h0])]
      simp [h0]
    rw [e]
    exact ⟨rfl, rfl, rfl, rfl, fun _ => rfl, fun h => absurd h0 h, Or.inl hv⟩
  · have e : finishGlob g = { g with
        node := g.pref ++ Item.writeItems g.items ++ g.suff,
        vals := (finishGlob g).vals } := by
      unfold finishGlob
      rw [if_neg (by simpa using h0)]
      dsimp only
      split
      · split <;> rfl
      · rfl
    have ev : (finishGlob g).vals = [] ∨ ∃ l, g.items = [.list l] ∧
        ∀ s, s ∈ (finishGlob g).vals ↔ s ∈ l.vals ∨ (l.minSize = 0 ∧ s = []) := by
      unfold finishGlob
      rw [if_neg (by simpa using h0)]
      dsimp only
      split
      · rename_i l hl
        split
        · refine Or.inr ⟨l, hl, fun s => ?_⟩
          dsimp only
          by_cases hm : l.minSize = 0
          · simp [hm, or_comm]
          · simp [hm]
        · exact Or.inl hv
      · exact Or.inl hv
    refine ⟨?_, ?_, ?_, ?_, fun h => absurd h h0, fun _ => ⟨?_, ?_, ?_⟩, ev⟩ <;> rw [e]

/-- A sequence of literal tokens. -/
def litToks (cs : List Char) : List Tok := (cs.map Sub.lit).map Tok.sub

theorem globOk_of_raw {gs : Str} {ts mid : List Tok} {l0 l1 : List Char} {raws : List Item}
    (e : ts = litToks l0 ++ (mid ++ litToks l1))
    (hlast : (∀ init c, mid ≠ init ++ [.sub (.lit c)]) ∨ ∀ t ∈ mid, ∃ s, t = .sub s)
    (hr : RawToks mid raws)
    {st : ParseSt} (hst : st = raws.foldl ParseSt.step
      { minLen := (utf8 l0).length + (utf8 l1).length,
        maxLen := (utf8 l0).length + (utf8 l1).length, pref := utf8 l0 }) :
    GlobOk ts (finishGlob { glob := gs, minLen := st.minLen, maxLen := st.maxLen, pref := st.pref, items := (takeSuffix st.inners (utf8 l1)).1, suff := (takeSuffix st.inners (utf8 l1)).2 }) ∧
    ((∀ x ∈ raws, NoGroup x) → ∀ x ∈ (takeSuffix st.inners (utf8 l1)).1, NoGroup x) := by
  obtain ⟨W, lits, rest, f1, f2, f3, f4, f5, f6, f7, f8⟩ := fold_step raws
    { minLen := (utf8 l0).length + (utf8 l1).length,
      maxLen := (utf8 l0).length + (utf8 l1).length, pref := utf8 l0 } rfl hr.litWF
  obtain ⟨g1, g2⟩ := fold_step_lens raws
    { minLen := (utf8 l0).length + (utf8 l1).length,
      maxLen := (utf8 l0).length + (utf8 l1).length, pref := utf8 l0 }
  rw [← hst] at f5 f6 g1 g2
  have hrest : ∀ x ∈ rest, LitWF x := fun x hx => hr.litWF x (by rw [f1]; simp [hx])
  have hhead : norm rest = [] ∨ ∃ x r, norm rest = x :: r ∧ NonLit x := by
    rcases f4 with rfl | ⟨x, r, rfl, hx⟩
    · exact Or.inl rfl
    · exact Or.inr (normAux_head x r hx)
  obtain ⟨V, its, t1, t2, t3, t4, t5, t6, t7, tail, t8, t9⟩ := takeSuffix_spec (norm rest) (utf8 l1)
    (norm_litWF rest hrest) hhead
  rw [f6, t1]
  generalize hg : ({ glob := gs, minLen := st.minLen, maxLen := st.maxLen, pref := st.pref, items := its, suff := utf8 V ++ utf8 l1 } : Glob) = g
  have hgv : g.vals = [] := by rw [← hg]
  have hgi : g.items = its := by rw [← hg]
  have hgp : g.pref = utf8 (l0 ++ W) := by rw [← hg, utf8_append]; exact f5
  have hgs : g.suff = utf8 (V ++ l1) := by rw [← hg, utf8_append]
  obtain ⟨k1, k2, k3, k4, k5, k6, k7⟩ := finishGlob_spec g hgv
  -- the language
  have hsem : ∀ cs, Fits ts cs ↔ ∃ m, cs = (l0 ++ W) ++ m ++ (V ++ l1) ∧ SeqSem its m := by
    intro cs
    rw [e, fits_append]
    constructor
    · rintro ⟨u, v, rfl, hu, hv⟩
      rw [litToks, fits_lits] at hu
      subst hu
      obtain ⟨v1, v2, rfl, h1, h2⟩ := (fits_append _ _ _).1 hv
      rw [litToks, fits_lits] at h2
      subst h2
      rw [← hr.sem, f2] at h1
      obtain ⟨m, rfl, hm⟩ := h1
      rw [← norm_sem rest hrest, t2] at hm
      obtain ⟨m', rfl, hm'⟩ := hm
      exact ⟨m', by simp, hm'⟩
    · rintro ⟨m, rfl, hm⟩
      refine ⟨l0, W ++ (m ++ V) ++ l1, by simp, (fits_lits _ _).2 rfl, ?_⟩
      refine (fits_append _ _ _).2 ⟨W ++ (m ++ V), l1, rfl, ?_, (fits_lits _ _).2 rfl⟩
      rw [← hr.sem, f2]
      exact ⟨m ++ V, rfl, by rw [← norm_sem rest hrest, t2]; exact ⟨m, rfl, hm⟩⟩
  -- lengths
  have hlen : ∀ cs, Fits ts cs → ∃ m, cs = l0 ++ (m ++ l1) ∧ SeqSem raws m := by
    intro cs h
    rw [e, fits_append] at h
    obtain ⟨u, v, rfl, hu, hv⟩ := h
    rw [litToks, fits_lits] at hu
    subst hu
    obtain ⟨v1, v2, rfl, h1, h2⟩ := (fits_append _ _ _).1 hv
    rw [litToks, fits_lits] at h2
    subst h2
    exact ⟨v1, rfl, (hr.sem _).2 h1⟩
  refine ⟨?_, fun hn x hx => norm_closed (fun x y m _ _ h => mergeItem_noGroup h) rest
    (fun y hy => hn y (by rw [f1]; simp [hy])) x (t6 x hx)⟩
  constructor
  · intro h
    rw [k2, hgi] at h
    refine ⟨(l0 ++ W) ++ (V ++ l1), ?_, ?_⟩
    · rw [k5 (by rw [hgi]; exact h), hgp, hgs, utf8_append (l0 ++ W)]
    · intro cs
      rw [hsem, h]
      constructor
      · rintro ⟨m, rfl, hm⟩
        rw [show m = [] from hm]
        simp
      · rintro rfl
        exact ⟨[], by simp, rfl⟩
  · intro h
    rw [k2] at h
    obtain ⟨h1, h2, h3⟩ := k6 h
    refine ⟨l0 ++ W, V ++ l1, by rw [h1, hgp], by rw [h2, hgs], ?_, ?_, ?_⟩
    · rw [h3, h1, h2, k2]
    · rw [k2, hgi]
      rw [hgi] at h
      exact t4.resolve_left h
    · rw [k2, hgi]; exact hsem
  · rw [k2]
    exact k7
  · intro cs h
    obtain ⟨m, rfl, hm⟩ := hlen cs h
    have := hr.min m hm
    have hmin : g.minLen = (utf8 l0).length + (utf8 l1).length + sumMin raws := by
      rw [← hg]; exact g1
    rw [k3, hmin]
    simp only [utf8_append, List.length_append]
    omega
  · intro hmax
    have hmx : g.maxLen = raws.foldl (fun m x => addMaxLen m x.maxLen)
        ((utf8 l0).length + (utf8 l1).length) := by
      rw [← hg]; exact g2
    rw [k4, hmx]
    by_cases hst : ∃ t ∈ mid, t = .sub .star ∨
        ∃ alts, t = .alt alts ∧ ∃ a ∈ alts, a.getLast? = some .star
    · left
      exact fold_addMax_inf _ _ (Or.inr (hr.max_inf hst))
    · right
      have hnostar : .sub .star ∉ mid := fun hm => hst ⟨_, hm, Or.inl rfl⟩
      have hnone : ∀ alts, .alt alts ∈ mid → ∀ a ∈ alts, .star ∉ a := by
        rcases hmax with hmax | ⟨t, ht, hor⟩
        · intro alts hm
          exact hmax _ (by rw [e]; simp [hm]) alts rfl
        · exfalso
          apply hst
          refine ⟨t, ?_, hor⟩
          rw [e, List.mem_append, List.mem_append] at ht
          rcases ht with ht | ht | ht
          · simp only [litToks, List.map_map, List.mem_map] at ht
            obtain ⟨c, _, rfl⟩ := ht
            rcases hor with h | ⟨_, h, _⟩ <;> cases h
          · exact ht
          · simp only [litToks, List.map_map, List.mem_map] at ht
            obtain ⟨c, _, rfl⟩ := ht
            rcases hor with h | ⟨_, h, _⟩ <;> cases h
      obtain ⟨m1, m2⟩ := hr.max_fin hnostar hnone
      rw [fold_addMax_fin _ _ (by omega) m1]
      intro cs h
      obtain ⟨m, rfl, hm⟩ := hlen cs h
      have := m2 m hm
      simp only [utf8_append, List.length_append]
      omega
  · rw [k2, hgi]
    intro x hx
    refine norm_wok rest (fun y hy => hr.wok y (by rw [f1]; simp [hy])) x (t6 x hx)
  · rw [k2, hgi]
    intro x hx
    exact norm_closed (fun x y m _ _ h => (mergeItem_locS h).loc) rest
      (fun y hy => hr.loc y (by rw [f1]; simp [hy])) x (t6 x hx)
  · rw [k2, hgi]
    exact ⟨mid, raws, rest, fun t ht => by rw [e]; simp [ht], hr,
      fun y hy => by rw [f1]; simp [hy], t6⟩
  · refine ⟨l0, mid, l1, raws, lits, rest, tail, W, V, e, hr, f1, f8, by rw [k2, hgi]; exact t8, t9, ?_, ?_⟩
    · intro h
      rw [k2] at h
      obtain ⟨h1, h2, _⟩ := k6 h
      exact ⟨by rw [h1, hgp], by rw [h2, hgs]⟩
    · intro h
      rw [k2] at h
      rw [k5 h, hgp, hgs, utf8_append (l0 ++ W)]
  · rw [k2, hgi]
    intro hs x hx
    have hs' : StarsEnd mid := fun a ha => hs a (by rw [e]; simp [ha])
    exact norm_closed (fun x y m _ _ h => (mergeItem_locS h).flatTerm) rest
      (fun y hy => hr.flatTerm hs' y (by rw [f1]; simp [hy])) x (t6 x hx)
  · rw [k2, hgi]
    intro hs x hx
    have hs' : ¬ HasStar mid := by
      rintro (h | ⟨alts, a, h, h'⟩)
      · exact hs (Or.inl (by rw [e]; simp [h]))
      · exact hs (Or.inr ⟨alts, a, by rw [e]; simp [h], h'⟩)
    exact norm_closed (fun x y m hx hy h => mergeItem_starFree hx hy h) rest
      (fun y hy => hr.starFree hs' y (by rw [f1]; simp [hy])) x (t6 x hx)
  · intro h
    rw [k2] at h
    have e : finishGlob g = { g with node := g.pref ++ g.suff, pref := [], suff := [] } := by
      unfold finishGlob
      rw [if_pos (by simp [h])]
      simp [h]
    rw [e]
    exact ⟨rfl, rfl⟩
  · intro ex h
    rw [k2, hgi]
    apply t5
    have h' : Shape ex .plain mid := by
      rw [e] at h
      apply shape_dropLits (cs := l1)
      rcases shape_lits .plain l0 _ h with ⟨_, h⟩ | h <;> exact h
    obtain ⟨q, hq, eq⟩ := GoodRaw.lits f3 (by rw [← f1]; exact hr.good h' hlast)
    rw [eq rfl] at hq
    have := hq.fine
    rw [List.append_nil] at this
    exact this
  · intro hok htidy
    have hsubset : ∀ t ∈ mid, t ∈ ts := fun t ht => by rw [e]; simp [ht]
    have htop : ∀ x ∈ raws, TopItem (HasAlt ts) (AltsDiffer ts) x := by
      intro x hx
      exact (rawToks_top hr (fun t ht => hok t (hsubset t ht)) (fun t ht => htidy t (hsubset t ht)) x hx).mono
        (fun ⟨a, ha⟩ => ⟨a, hsubset _ ha⟩) (fun h a ha => h a (hsubset _ ha))
    have hnorm : ∀ x ∈ norm rest, TopItem (HasAlt ts) (AltsDiffer ts) x :=
      norm_closed (fun x y m => TopItem.merge) rest (fun x hx => htop x (by rw [f1]; simp [hx]))
    obtain ⟨nts, n1, n2, n3, n4, n5⟩ := topItems_text (fun x hx => hnorm x (t6 x hx))
    -- the literal ends
    have hW : ∀ c ∈ W, (Sub.lit c).Ok false := f7 _ (fun x hx => (htop x hx).litQ)
    have hV : ∀ c ∈ V, (Sub.lit c).Ok false := t7 _ (fun x hx => (hnorm x hx).litQ)
    have hlit : ∀ c ∈ l0 ++ l1, (Sub.lit c).Ok false := by
      intro c hc
      have : Tok.sub (.lit c) ∈ ts := by
        rw [e]
        simp only [litToks, List.map_map, List.mem_append, List.mem_map]
        rcases List.mem_append.1 hc with h | h
        · exact Or.inl ⟨c, h, rfl⟩
        · exact Or.inr (Or.inr ⟨c, h, rfl⟩)
      exact hok _ this
    have hlits : ∀ t ∈ litToks (l0 ++ W) ++ litToks (V ++ l1), ∃ c, t = .sub (.lit c) ∧ t.Ok := by
      intro t ht
      have : ∃ c, t = .sub (.lit c) ∧ c ∈ l0 ++ W ++ (V ++ l1) := by
        simp only [litToks, List.map_map, List.mem_append, List.mem_map] at ht
        rcases ht with ⟨c, h, rfl⟩ | ⟨c, h, rfl⟩
        · exact ⟨c, rfl, by simp only [List.mem_append]; exact Or.inl h⟩
        · exact ⟨c, rfl, by simp only [List.mem_append]; exact Or.inr h⟩
      obtain ⟨c, rfl, hc⟩ := this
      refine ⟨c, rfl, ?_⟩
      simp only [List.mem_append] at hc
      rcases hc with (h | h) | (h | h)
      · exact hlit c (by simp [h])
      · exact hW c h
      · exact hV c h
      · exact hlit c (by simp [h])
    have elit : ∀ l : List Char, renderGlob (litToks l) = l := by
      intro l; rw [litToks, renderGlob_subs, renderSubs_lits]
    refine ⟨litToks (l0 ++ W) ++ (nts ++ litToks (V ++ l1)), ?_, ?_, ?_, ?_, ?_⟩
    · intro t ht
      simp only [List.mem_append] at ht
      rcases ht with h | h | h
      · obtain ⟨c, rfl, hc⟩ := hlits t (List.mem_append.2 (Or.inl h)); exact hc
      · exact n1 t h
      · obtain ⟨c, rfl, hc⟩ := hlits t (List.mem_append.2 (Or.inr h)); exact hc
    · rw [renderGlob_append, renderGlob_append, elit, elit, utf8_append (l0 ++ W), utf8_append (renderGlob nts), ← n2,
        ← hgp, ← hgs]
      by_cases hi : its = []
      · rw [k5 (by rw [hgi]; exact hi), hi]
        simp [Item.writeItems]
      · rw [(k6 (by rw [hgi]; exact hi)).2.2, hgi]
        simp
    · intro cs
      rw [hsem, fits_append]
      constructor
      · rintro ⟨a, b, rfl, ha, hb⟩
        rw [litToks, fits_lits] at ha
        subst ha
        obtain ⟨m, d, rfl, hm, hd⟩ := (fits_append _ _ _).1 hb
        rw [litToks, fits_lits] at hd
        subst hd
        exact ⟨m, by simp, (n3 m).1 hm⟩
      · rintro ⟨m, rfl, hm⟩
        exact ⟨l0 ++ W, m ++ (V ++ l1), by simp, (fits_lits _ _).2 rfl,
          (fits_append _ _ _).2 ⟨m, V ++ l1, rfl, (n3 m).2 hm, (fits_lits _ _).2 rfl⟩⟩
    · intro d t ht
      simp only [List.mem_append] at ht
      rcases ht with h | h | h
      · exact (hlits t (List.mem_append.2 (Or.inl h))).elim fun c hc => hc.2
      · exact n4 d t h
      · exact (hlits t (List.mem_append.2 (Or.inr h))).elim fun c hc => hc.2
    · intro nb t ht
      simp only [List.mem_append] at ht
      rcases ht with h | h | h
      · exact (hlits t (List.mem_append.2 (Or.inl h))).elim fun c hc => ⟨_, hc.1⟩
      · exact n5 nb t h
      · exact (hlits t (List.mem_append.2 (Or.inr h))).elim fun c hc => ⟨_, hc.1⟩

theorem finishGlob_items (g : Glob) : (finishGlob g).items = g.items := by
  unfold finishGlob
  split <;> dsimp only <;> split <;> first | rfl | (split <;> rfl)

theorem parse_spec_words (ts : List Tok) (hok : ∀ t ∈ ts, t.Ok) :
    ∃ g, parseGlob (utf8 (renderGlob ts)) = .ok (.ok g) ∧ GlobOk ts g ∧
      ((∀ alts, .alt alts ∈ ts → plainAlts alts = true) → ∀ x ∈ g.items, NoGroup x) := by
  obtain ⟨l0, ts1, e0, h0⟩ := litRun ts
  obtain ⟨mid, l1, e1, h1⟩ := litRunEnd ts1
  have hl0 : ∀ c ∈ l0, isSpecial c = false := by
    intro c hc
    exact (hok (.sub (.lit c)) (by rw [e0]; simp [hc])).1
  have hl1 : ∀ c ∈ l1, isSpecial c = false := by
    intro c hc
    exact (hok (.sub (.lit c)) (by rw [e0, e1]; simp [hc])).1
  have hmidok : ∀ t ∈ mid, t.Ok := fun t ht => hok t (by rw [e0, e1]; simp [ht])
  have elit : ∀ l : List Char, renderGlob ((l.map Sub.lit).map Tok.sub) = l := by
    intro l; rw [renderGlob_subs, renderSubs_lits]
  by_cases hmid : mid = []
  · -- no wildcard at all
    have hl1' : l1 = [] := by
      cases l1 with
      | nil => rfl
      | cons c l1 =>
        rw [e1, hmid] at h0
        exact absurd rfl (h0 c _)
    rw [hmid, hl1'] at e1
    have e1' : ts1 = [] := by simpa using e1
    rw [e1', List.append_nil] at e0
    have etext : renderGlob ts = l0 := by rw [e0, elit]
    have hfit : ∀ cs, Fits ts cs ↔ cs = l0 := by
      intro cs; rw [e0, fits_lits]
    refine ⟨_, by rw [parseGlob, show indexWildcard (utf8 (renderGlob ts)) = none from
      indexP_none.2 (by rw [etext]; exact no_wild hl0)], ?_, fun _ _ hx => absurd hx (by simp)⟩
    constructor
    · intro _; exact ⟨l0, by rw [etext], hfit⟩
    · intro h; exact absurd rfl h
    · exact Or.inl rfl
    · intro cs h; rw [(hfit cs).1 h, etext]; exact Int.le_refl _
    · intro _; right; intro cs h; rw [(hfit cs).1 h, etext]; exact Int.le_refl _
    · intro x hx; cases hx
    · intro x hx; cases hx
    · exact ⟨[], [], [], by simp, .nil, by simp, fun x hx => by cases hx⟩
    · refine ⟨l0, [], [], [], [], [], [], [], [], by rw [e0]; simp, .nil, rfl, .nil, rfl, .nil, fun h => absurd rfl h, fun _ => ?_⟩
      rw [etext]
      simp
    · intro _ x hx; cases hx
    · intro _ x hx; cases hx
    · intro _; exact ⟨rfl, rfl⟩
    · intro ex _; exact ⟨.nil _, .nil _⟩
    · intro hok _
      refine ⟨ts, ?_, rfl, fun _ => Iff.rfl, fun _ => hok, ?_⟩
      · intro t ht
        have h := hok t ht
        cases t with
        | sub s => exact h
        | alt alts => exact ⟨h.1, h.2.1⟩
      · intro nb t ht
        cases t with
        | sub s => exact ⟨s, rfl⟩
        | alt alts => exact absurd ⟨alts, ht⟩ nb
  · -- first and last byte of the middle
    obtain ⟨t0, mid', em⟩ := List.exists_cons_of_ne_nil hmid
    have ht0 : ∀ c, t0 ≠ .sub (.lit c) := by
      intro c e
      apply h0 c (mid' ++ (l1.map Sub.lit).map Tok.sub)
      rw [e1, em, e]; rfl
    obtain ⟨init, tn, en⟩ : ∃ init tn, mid = init ++ [tn] := by
      rcases List.eq_nil_or_concat mid with h | ⟨i, t, h⟩
      · exact absurd h hmid
      · exact ⟨i, t, by rw [h, List.concat_eq_append]⟩
    have htn : ∀ c, tn ≠ .sub (.lit c) := by
      intro c e
      exact h1 init c (by rw [en, e])
    obtain ⟨c0, r0, hr0, hc0⟩ := render_special ht0
    obtain ⟨b0, hb0, hw0⟩ := isWild_of_special hc0
    obtain ⟨cn, rn, hrn, hcn⟩ := render_special_last htn
    obtain ⟨bn, hbn, hwn⟩ := isWild_of_special hcn
    have hM0 : utf8 (renderGlob mid) = b0 :: utf8 (r0 ++ renderGlob mid') := by
      rw [em, renderGlob_cons, hr0, List.cons_append,
        show c0 :: (r0 ++ renderGlob mid') = [c0] ++ (r0 ++ renderGlob mid') from rfl,
        utf8_append, hb0]
      rfl
    have hMn : utf8 (renderGlob mid) = utf8 (renderGlob init ++ rn) ++ [bn] := by
      rw [en, renderGlob_append, show renderGlob [tn] = tn.render by simp [renderGlob], hrn,
        ← List.append_assoc, utf8_append, hbn]
    have etext : renderGlob ts = l0 ++ (renderGlob mid ++ l1) := by
      rw [e0, e1, renderGlob_append, renderGlob_append, elit, elit]
    have eb : utf8 (renderGlob ts) = utf8 l0 ++ (utf8 (renderGlob mid) ++ utf8 l1) := by
      rw [etext, utf8_append, utf8_append]
    have hidx : indexWildcard (utf8 (renderGlob ts)) = some (utf8 l0).length := by
      rw [eb, hM0]
      exact indexP_append (no_wild hl0) hw0
    have hlast : indexLastWildcard (utf8 (renderGlob mid) ++ utf8 l1) =
        some (utf8 (renderGlob init ++ rn)).length := by
      rw [hMn, List.append_assoc]
      exact lastIndexP_append _ hwn (no_wild hl1)
    have hlenM : (utf8 (renderGlob mid)).length = (utf8 (renderGlob init ++ rn)).length + 1 := by
      rw [hMn]; rw [List.length_append]; rfl
    have hto : sliceTo (utf8 (renderGlob ts)) (utf8 l0).length = .ok (utf8 l0) := by
      unfold sliceTo
      rw [if_pos (by rw [eb]; simp), eb, List.take_left]
    have hfrom : sliceFrom (utf8 (renderGlob ts)) (utf8 l0).length =
        .ok (utf8 (renderGlob mid) ++ utf8 l1) := by
      unfold sliceFrom
      rw [if_pos (by rw [eb]; simp), eb, List.drop_left]
    have hcut : (if ((utf8 (renderGlob init ++ rn)).length : Int) <
          ((utf8 (renderGlob mid) ++ utf8 l1).length : Int) - 1 then
        (do
          let suff ← sliceFrom (utf8 (renderGlob mid) ++ utf8 l1)
            ((utf8 (renderGlob init ++ rn)).length + 1)
          let body ← sliceTo (utf8 (renderGlob mid) ++ utf8 l1)
            ((utf8 (renderGlob init ++ rn)).length + 1)
          R.ok (body, suff) : R (Str × Str))
        else .ok (utf8 (renderGlob mid) ++ utf8 l1, [])) =
        .ok (utf8 (renderGlob mid), utf8 l1) := by
      split
      · rw [← hlenM]
        unfold sliceFrom sliceTo
        rw [if_pos (by simp), if_pos (by simp), List.drop_left]
        simp only [R.bind_ok]
        rw [List.take_left]
      · rename_i h
        have : utf8 l1 = [] := by
          rw [← List.length_eq_zero_iff]
          rw [List.length_append, hlenM] at h
          omega
        rw [this]
        simp
    have hone : (utf8 (renderGlob init ++ rn)).length = 0 → b0 = 63 ∨ b0 = 42 := by
      intro h
      have hnil : utf8 (r0 ++ renderGlob mid') = [] := by
        rw [← List.length_eq_zero_iff]
        have := hlenM
        rw [hM0] at this
        simp only [List.length_cons] at this
        omega
      rw [utf8_eq_nil] at hnil
      have hr0' := (List.append_eq_nil_iff.1 hnil).1
      rw [hr0'] at hr0
      match t0, hr0, ht0 with
      | .sub (.lit c), _, h => exact absurd rfl (h c)
      | .sub .any, h, _ =>
        have : c0 = '?' := by simpa [Tok.render, Sub.render] using h.symm
        subst this
        left
        have : utf8 ['?'] = [63] := by decide
        rw [this] at hb0
        injection hb0 with h
        exact h.symm
      | .sub .star, h, _ =>
        have : c0 = '*' := by simpa [Tok.render, Sub.render] using h.symm
        subst this
        right
        have : utf8 ['*'] = [42] := by decide
        rw [this] at hb0
        injection hb0 with h
        exact h.symm
      | .sub (.cls es), h, _ => simp [Tok.render, Sub.render] at h
      | .alt alts, h, _ => simp [Tok.render] at h
    have ets : ts = litToks l0 ++ (mid ++ litToks l1) := by rw [e0, e1]; rfl
    -- which tokens the shortcuts stand for
    have short : ∀ c : Char, isSpecial c = true → utf8 (renderGlob mid) = utf8 [c] →
        mid = [t0] ∧ t0.render = [c] := by
      intro c _ h
      have := utf8_inj h
      rw [em, renderGlob_cons, hr0] at this
      have h2 : c0 = c ∧ r0 ++ renderGlob mid' = [] := by
        simpa using this
      have h3 := List.append_eq_nil_iff.1 h2.2
      have h4 : mid' = [] := by
        cases mid' with
        | nil => rfl
        | cons x l =>
          exfalso
          rw [renderGlob_cons] at h3
          exact render_ne_nil x (List.append_eq_nil_iff.1 h3.2).1
      exact ⟨by rw [em, h4], by rw [hr0, h2.1, h3.1]⟩
    rw [parseGlob, hidx]
    simp only [hto, hfrom, R.bind_ok, hlast]
    cases hbody : utf8 (renderGlob mid) ++ utf8 l1 with
    | nil => rw [hM0] at hbody; simp at hbody
    | cons b s =>
      have hbb : b = b0 := by
        rw [hM0, List.cons_append] at hbody
        injection hbody with h _
        exact h.symm
      dsimp only
      rw [if_neg (by
        rintro ⟨h, h2, h3⟩
        rw [hbb] at h2 h3
        rcases hone h with h | h
        · exact h2 h
        · exact h3 h)]
      rw [← hbody, hcut]
      simp only [R.bind_ok]
      by_cases hs : utf8 (renderGlob mid) = [42]
      · obtain ⟨m1, m2⟩ := short '*' (by decide) (by rw [hs]; decide)
        have : t0 = .sub .star := by
          match t0, m2, ht0 with
          | .sub (.lit c), _, h => exact absurd rfl (h c)
          | .sub .any, h, _ => exact absurd h (by decide)
          | .sub .star, _, _ => rfl
          | .sub (.cls es), h, _ => simp [Tok.render, Sub.render] at h
          | .alt alts, h, _ => simp [Tok.render] at h
        have hraw : RawToks mid [.star 0] := by
          rw [m1, this]
          exact .chunk (.stars 0) .nil
        rw [if_pos hs]
        obtain ⟨q1, q2⟩ := globOk_of_raw (gs := utf8 (renderGlob ts)) ets (.inl h1) hraw rfl
        refine ⟨_, rfl, q1, fun _ x hx => q2 ?_ x (by rwa [finishGlob_items] at hx)⟩
        intro x hx
        rw [List.mem_singleton.1 hx]
        intro _ _ _ h; cases h
      · rw [if_neg hs]
        by_cases ha : utf8 (renderGlob mid) = [63]
        · obtain ⟨m1, m2⟩ := short '?' (by decide) (by rw [ha]; decide)
          have : t0 = .sub .any := by
            match t0, m2, ht0 with
            | .sub (.lit c), _, h => exact absurd rfl (h c)
            | .sub .star, h, _ => exact absurd h (by decide)
            | .sub .any, _, _ => rfl
            | .sub (.cls es), h, _ => simp [Tok.render, Sub.render] at h
            | .alt alts, h, _ => simp [Tok.render] at h
          have hraw : RawToks mid [.any 1] := by
            rw [m1, this]
            exact .chunk .any .nil
          rw [if_pos ha]
          obtain ⟨q1, q2⟩ := globOk_of_raw (gs := utf8 (renderGlob ts)) ets (.inl h1) hraw rfl
          refine ⟨_, rfl, q1, fun _ x hx => q2 ?_ x (by rwa [finishGlob_items] at hx)⟩
          intro x hx
          rw [List.mem_singleton.1 hx]
          intro _ _ _ h; cases h
        · rw [if_neg ha]
          have htot := parseLoop_total (parseFuel (utf8 (renderGlob mid)).length)
            (utf8 (renderGlob mid))
            { minLen := (utf8 l0).length + (utf8 l1).length,
              maxLen := (utf8 l0).length + (utf8 l1).length, pref := utf8 l0 }
            (by unfold parseFuel; omega)
          obtain ⟨raws, hraw, hng, he⟩ := parseLoop_raw (parseFuel (utf8 (renderGlob mid)).length) mid
            { minLen := (utf8 l0).length + (utf8 l1).length,
              maxLen := (utf8 l0).length + (utf8 l1).length, pref := utf8 l0 } hmidok (by
                obtain ⟨r, hr⟩ := htot
                rw [hr]; exact fun h => nomatch h)
          rw [he]
          simp only [R.bind_ok]
          obtain ⟨q1, q2⟩ := globOk_of_raw (gs := utf8 (renderGlob ts)) ets (.inl h1) hraw rfl
          exact ⟨_, rfl, q1, fun hp x hx => q2 (hng fun a ha => hp a (by rw [ets]; simp [ha])) x
            (by rwa [finishGlob_items] at hx)⟩

theorem parse_spec (ts : List Tok) (hok : ∀ t ∈ ts, t.Ok) :
    ∃ g, parseGlob (utf8 (renderGlob ts)) = .ok (.ok g) ∧ GlobOk ts g := by
  obtain ⟨g, h1, h2, _⟩ := parse_spec_words ts hok
  exact ⟨g, h1, h2⟩

end GoMatcher
