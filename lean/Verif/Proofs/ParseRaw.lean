import Verif.Proofs.ParseChunk

/-! # The parser on written globs: alternatives -/

namespace GoMatcher

/-! ## Meaning and size of chunks -/

theorem subsFit_append (a b : List Sub) (cs : List Char) :
    subsFit (a ++ b) cs ↔ ∃ u v, cs = u ++ v ∧ subsFit a u ∧ subsFit b v := by
  induction a generalizing cs with
  | nil =>
    constructor
    · intro h; exact ⟨[], cs, rfl, rfl, h⟩
    · rintro ⟨u, v, rfl, hu, h⟩
      rw [show u = [] from hu]
      exact h
  | cons s a ih =>
    simp only [List.cons_append, subsFit]
    constructor
    · rintro ⟨x, y, rfl, hx, hy⟩
      obtain ⟨u, v, rfl, hu, hv⟩ := (ih y).1 hy
      exact ⟨x ++ u, v, by simp, ⟨x, u, rfl, hx, hu⟩, hv⟩
    · rintro ⟨w, v, rfl, ⟨x, u, rfl, hx, hu⟩, hv⟩
      exact ⟨x, u ++ v, by simp, hx, (ih _).2 ⟨u, v, rfl, hu, hv⟩⟩

theorem subsFit_lits (ws cs : List Char) : subsFit (ws.map .lit) cs ↔ cs = ws := by
  induction ws generalizing cs with
  | nil => exact Iff.rfl
  | cons w ws ih =>
    simp only [List.map_cons, subsFit, Sub.Fits]
    constructor
    · rintro ⟨a, b, rfl, rfl, hb⟩
      rw [(ih b).1 hb]
      rfl
    · rintro rfl
      exact ⟨[w], ws, rfl, rfl, (ih ws).2 rfl⟩

theorem subsFit_stars (k : Nat) (cs : List Char) :
    subsFit (List.replicate (k + 1) .star) cs := by
  induction k with
  | zero => exact ⟨cs, [], by simp, trivial, rfl⟩
  | succ k ih =>
    rw [List.replicate_succ]
    exact ⟨[], cs, rfl, trivial, ih⟩

theorem subsFit_single (s : Sub) (cs : List Char) : subsFit [s] cs ↔ s.Fits cs := by
  simp only [subsFit]
  constructor
  · rintro ⟨a, b, rfl, h, rfl⟩; simpa using h
  · intro h; exact ⟨cs, [], by simp, h, rfl⟩

theorem Chunk.sem {c : List Sub} {it : Item} (h : Chunk c it) (cs : List Char) :
    it.Sem cs ↔ subsFit c cs := by
  cases h with
  | lits hne h => rw [h.sem, subsFit_lits]
  | any => rw [subsFit_single]; rfl
  | stars k =>
    simp only [Item.Sem]
    exact ⟨fun _ => subsFit_stars k cs, fun _ => Nat.zero_le _⟩
  | cls h => rw [subsFit_single, h.sem]; rfl

theorem Chunk.litWF {c : List Sub} {it : Item} (h : Chunk c it) : LitWF it := by
  cases h with
  | lits hne h => exact Or.inr ⟨_, h⟩
  | any => exact Or.inl (nonLit_any _)
  | stars k => exact Or.inl (nonLit_star _)
  | cls h =>
    rcases h.kind with ⟨c, hc⟩ | ⟨rs, rfl, _⟩
    · exact Or.inr ⟨_, hc⟩
    · exact Or.inl (nonLit_ranges _)

theorem Chunk.not_chain {c : List Sub} {it : Item} (h : Chunk c it) : groupItems it = [it] := by
  cases h with
  | lits hne h => cases it <;> first | rfl | exact h.elim
  | any => rfl
  | stars k => rfl
  | cls h =>
    rcases h.kind with ⟨c, hc⟩ | ⟨rs, rfl, _⟩
    · cases it <;> first | rfl | exact hc.elim
    · rfl

theorem utf8_length_le (cs : List Char) : (utf8 cs).length ≤ 4 * cs.length := by
  induction cs with
  | nil => simp
  | cons c cs ih =>
    rw [utf8_cons]
    have := encodeRune_length_le c.toNat
    simp
    omega

theorem Chunk.min {c : List Sub} {it : Item} (h : Chunk c it) :
    0 ≤ it.minLen ∧ (it.minLen = 0 → ∀ s ∈ c, s = .star) ∧
    ∀ cs, it.Sem cs → it.minLen ≤ (utf8 cs).length := by
  cases h with
  | @lits ws _ hne h =>
    rw [h.lens.1]
    refine ⟨by omega, ?_, ?_⟩
    · intro h0
      have : ws = [] := by
        rw [← utf8_eq_nil, ← List.length_eq_zero_iff]; omega
      exact absurd this hne
    · intro cs hc
      rw [(h.sem cs).1 hc]
      omega
  | any =>
    refine ⟨by decide, by intro h; exact absurd h (by decide), ?_⟩
    intro cs hc
    simp only [Item.Sem] at hc
    have := length_le_utf8 cs
    simp only [Item.minLen]
    omega
  | stars k =>
    refine ⟨by decide, fun _ s hs => (List.mem_replicate.1 hs).2, ?_⟩
    intro cs _
    simp only [Item.minLen]
    omega
  | cls h =>
    have hp := h.pos
    refine ⟨by omega, by intro h0; omega, ?_⟩
    intro cs hc
    obtain ⟨c, rfl, hm⟩ := (h.sem cs).1 hc
    exact (h.bounds c hm).1

theorem Chunk.max {c : List Sub} {it : Item} (h : Chunk c it) :
    (.star ∈ c ∧ it = .star 0) ∨
    (.star ∉ c ∧ 0 ≤ it.maxLen ∧ ∀ cs, it.Sem cs → (utf8 cs).length ≤ it.maxLen) := by
  cases h with
  | @lits ws _ hne h =>
    right
    rw [h.lens.2]
    refine ⟨by simp, by omega, ?_⟩
    intro cs hc
    rw [(h.sem cs).1 hc]
    omega
  | any =>
    right
    refine ⟨by simp, by decide, ?_⟩
    intro cs hc
    simp only [Item.Sem] at hc
    have := utf8_length_le cs
    simp only [Item.maxLen]
    omega
  | stars k => left; exact ⟨by simp, rfl⟩
  | cls h =>
    right
    refine ⟨by simp, ?_, ?_⟩
    · exact h.maxNonneg
    · intro cs hc
      obtain ⟨c, rfl, hm⟩ := (h.sem cs).1 hc
      exact (h.bounds c hm).2

/-! ## Runs of chunks -/

inductive RawSubs : List Sub → List Item → Prop
  | nil : RawSubs [] []
  | cons {c : List Sub} {it : Item} {ss : List Sub} {raws : List Item} (h : Chunk c it)
      (hr : RawSubs ss raws) : RawSubs (c ++ ss) (it :: raws)

theorem RawSubs.sem {ss : List Sub} {raws : List Item} (h : RawSubs ss raws) (cs : List Char) :
    SeqSem raws cs ↔ subsFit ss cs := by
  induction h generalizing cs with
  | nil => exact Iff.rfl
  | cons h _ ih =>
    rw [subsFit_append]
    simp only [SeqSem]
    constructor
    · rintro ⟨a, b, rfl, h1, h2⟩; exact ⟨a, b, rfl, (h.sem a).1 h1, (ih b).1 h2⟩
    · rintro ⟨a, b, rfl, h1, h2⟩; exact ⟨a, b, rfl, (h.sem a).2 h1, (ih b).2 h2⟩

theorem RawSubs.litWF {ss : List Sub} {raws : List Item} (h : RawSubs ss raws) :
    ∀ x ∈ raws, LitWF x := by
  induction h with
  | nil => simp
  | cons h _ ih =>
    intro x hx
    rcases List.mem_cons.1 hx with rfl | hx
    · exact h.litWF
    · exact ih x hx

/-! ### The loop over one alternative -/

theorem renderSubs_ne_nil {ss : List Sub} (h : ss ≠ []) : renderSubs ss ≠ [] := by
  cases ss with
  | nil => exact absurd rfl h
  | cons s ss =>
    unfold renderSubs
    rw [List.flatMap_cons]
    cases s <;> simp [Sub.render]

theorem map_sub_inj {a b : List Sub} (h : a.map Tok.sub = b.map Tok.sub) : a = b :=
  (List.map_inj_right (fun _ _ e => by injection e)).1 h

theorem chainLoop_raw (fuel : Nat) (ss : List Sub) (c : ChainSt) (hok : ∀ s ∈ ss, s.Ok true)
    (ht : chainLoop fuel (utf8 (renderSubs ss)) c ≠ .timeout) :
    ∃ raws, RawSubs ss raws ∧
      chainLoop fuel (utf8 (renderSubs ss)) c = .ok (.ok (raws.foldl ChainSt.append c)) := by
  induction fuel generalizing ss c with
  | zero => exact absurd rfl ht
  | succ fuel ih =>
    cases ss with
    | nil => exact ⟨[], .nil, rfl⟩
    | cons s ss =>
      cases htx : utf8 (renderSubs (s :: ss)) with
      | nil =>
        rw [utf8_eq_nil] at htx
        exact absurd htx (renderSubs_ne_nil (by simp))
      | cons b t =>
        rw [htx] at ht
        rw [chainLoop] at ht ⊢
        cases fuel with
        | zero => exact absurd rfl ht
        | succ fuel =>
          obtain ⟨ch, it, ts', e, hch, hstep⟩ := nextItem_sub fuel s (ss.map .sub)
            (hok s (by simp)).weaken (by
              intro x hx
              obtain ⟨y, hy, rfl⟩ := List.mem_map.1 hx
              exact (hok y (by simp [hy])).weaken)
          rw [← List.map_cons] at e hstep
          rw [renderGlob_subs, htx] at hstep
          obtain ⟨l1, l2, h1, h2, h3⟩ := List.map_eq_append_iff.1 e
          have h2' := map_sub_inj h2
          subst h2'
          subst h3
          rw [renderGlob_subs] at hstep
          rw [hstep] at ht ⊢
          simp only [R.bind_ok] at ht ⊢
          obtain ⟨raws, hr, he⟩ := ih l2 (c.append it) (by
            intro x hx; exact hok x (by rw [h1]; simp [hx])) ht
          exact ⟨it :: raws, by rw [h1]; exact .cons hch hr, by rw [he]; rfl⟩

/-! ### Sizes -/

def sumMin : List Item → Int
  | [] => 0
  | x :: xs => x.minLen + sumMin xs

def sumMax : List Item → Int
  | [] => 0
  | x :: xs => x.maxLen + sumMax xs

theorem foldl_append_items (raws : List Item) (c : ChainSt) :
    (raws.foldl ChainSt.append c).items = raws.foldl appendItem c.items := by
  induction raws generalizing c with
  | nil => rfl
  | cons x xs ih => rw [List.foldl_cons, ih, List.foldl_cons]; rfl

theorem foldl_append_min (raws : List Item) (c : ChainSt) :
    (raws.foldl ChainSt.append c).minSize = c.minSize + sumMin raws := by
  induction raws generalizing c with
  | nil => simp [sumMin]
  | cons x xs ih =>
    rw [List.foldl_cons, ih]
    simp only [ChainSt.append, sumMin]
    omega

theorem foldl_append_max (raws : List Item) (c : ChainSt) (h : ∀ x ∈ raws, 0 ≤ x.maxLen) :
    (raws.foldl ChainSt.append c).maxSize = c.maxSize + sumMax raws := by
  induction raws generalizing c with
  | nil => simp [sumMax]
  | cons x xs ih =>
    have hx := h x (by simp)
    rw [List.foldl_cons, ih _ (fun y hy => h y (by simp [hy]))]
    simp only [ChainSt.append, sumMax]
    rw [if_neg (by omega)]
    omega

theorem foldl_append_star (raws : List Item) (c : ChainSt) (n : Nat) :
    ((raws ++ [Item.star n]).foldl ChainSt.append c).maxSize = -1 := by
  rw [List.foldl_append]
  simp [ChainSt.append, Item.maxLen]

theorem mergeItem_lens {x y m : Item} (hx : LitWF x) (hy : LitWF y) (h : mergeItem x y = some m) :
    m.minLen = x.minLen + y.minLen ∧
    m.maxLen = if x.maxLen = -1 ∨ y.maxLen = -1 then -1 else x.maxLen + y.maxLen := by
  rcases hx with hx | ⟨u, hx⟩
  · rcases hy with hy | ⟨v, hy⟩
    · cases x <;> first | (simp [NonLit, litBytes] at hx; done) | skip
      all_goals cases y <;> first | (simp [NonLit, litBytes] at hy; done) | skip
      all_goals first | (simp [mergeItem] at h; done) | skip
      all_goals
        simp only [mergeItem, Option.some.injEq] at h
        subst h
      · rw [if_neg (by simp only [Item.maxLen]; omega)]
        simp only [Item.minLen, Item.maxLen]; omega
      · rw [if_pos (by right; rfl)]
        exact ⟨by simp [Item.minLen]; omega, rfl⟩
      · rw [if_pos (by left; rfl)]
        exact ⟨by simp [Item.minLen], rfl⟩
      · rw [if_pos (by left; rfl)]
        exact ⟨by simp [Item.minLen], rfl⟩
    · rw [mergeItem_non_lit hx hy] at h; cases h
  · rcases hy with hy | ⟨v, hy⟩
    · rw [mergeItem_lit_non hx hy] at h; cases h
    · rw [mergeItem_lit hx hy] at h
      cases h
      have hm : IsLit (.str (utf8 (u ++ v))) (u ++ v) := rfl
      rw [hm.lens.1, hm.lens.2, hx.lens.1, hx.lens.2, hy.lens.1, hy.lens.2]
      rw [if_neg (by omega)]
      simp

/-- When everything merges into one item its size is the sum. -/
theorem normAux_one (x : Item) (ys : List Item) (z : Item) (hx : LitWF x)
    (hy : ∀ y ∈ ys, LitWF y) (h : normAux x ys = [z]) :
    z.minLen = x.minLen + sumMin ys ∧
    (x.maxLen = -1 ∨ (∃ y ∈ ys, y.maxLen = -1) → z.maxLen = -1) ∧
    (0 ≤ x.maxLen → (∀ y ∈ ys, 0 ≤ y.maxLen) → z.maxLen = x.maxLen + sumMax ys) := by
  induction ys generalizing x with
  | nil =>
    simp only [normAux, List.cons.injEq, and_true] at h
    subst h
    simp [sumMin, sumMax]
  | cons y ys ih =>
    unfold normAux at h
    cases hm : mergeItem x y with
    | none =>
      rw [hm] at h
      injection h with _ h2
      exact absurd h2 (normAux_ne_nil _ _)
    | some m =>
      rw [hm] at h
      have hy1 := hy y (by simp)
      have hy2 : ∀ z ∈ ys, LitWF z := fun z hz => hy z (by simp [hz])
      obtain ⟨i1, i2, i3⟩ := ih m (mergeItem_sem hx hy1 hm).1 hy2 h
      obtain ⟨l1, l2⟩ := mergeItem_lens hx hy1 hm
      refine ⟨by simp only [sumMin]; omega, ?_, ?_⟩
      · intro hor
        apply i2
        rcases hor with h1 | ⟨z', hz', h1⟩
        · left; rw [l2, if_pos (Or.inl h1)]
        · rcases List.mem_cons.1 hz' with rfl | hz'
          · left; rw [l2, if_pos (Or.inr h1)]
          · right; exact ⟨z', hz', h1⟩
      · intro h1 h2
        have hyn := h2 y (by simp)
        rw [if_neg (by omega)] at l2
        rw [i3 (by omega) (fun w hw => h2 w (by simp [hw]))]
        simp only [sumMax]
        omega

theorem RawSubs.sumMin_spec {ss : List Sub} {raws : List Item} (h : RawSubs ss raws) :
    0 ≤ sumMin raws ∧ (sumMin raws = 0 → ∀ s ∈ ss, s = .star) ∧
    ∀ cs, SeqSem raws cs → sumMin raws ≤ (utf8 cs).length := by
  induction h with
  | nil => exact ⟨by simp [sumMin], by simp, by intro cs _; simp [sumMin]⟩
  | cons h _ ih =>
    obtain ⟨i1, i2, i3⟩ := ih
    obtain ⟨m1, m2, m3⟩ := h.min
    simp only [sumMin]
    refine ⟨by omega, ?_, ?_⟩
    · intro h0 s hs
      rcases List.mem_append.1 hs with hs | hs
      · exact m2 (by omega) s hs
      · exact i2 (by omega) s hs
    · rintro cs ⟨a, b, rfl, ha, hb⟩
      have := m3 a ha
      have := i3 b hb
      rw [utf8_append]
      simp
      omega

theorem RawSubs.sumMax_spec {ss : List Sub} {raws : List Item} (h : RawSubs ss raws)
    (hns : .star ∉ ss) : (∀ x ∈ raws, 0 ≤ x.maxLen) ∧ 0 ≤ sumMax raws ∧
    ∀ cs, SeqSem raws cs → (utf8 cs).length ≤ sumMax raws := by
  induction h with
  | nil => exact ⟨by simp, by simp [sumMax], by intro cs h; rw [show cs = [] from h]; simp [sumMax]⟩
  | cons h _ ih =>
    obtain ⟨i1, i2, i3⟩ := ih (fun hm => hns (by simp [hm]))
    rcases h.max with ⟨hm, _⟩ | ⟨_, m2, m3⟩
    · exact absurd (by simp [hm]) hns
    · simp only [sumMax]
      refine ⟨?_, by omega, ?_⟩
      · intro x hx
        rcases List.mem_cons.1 hx with rfl | hx
        · exact m2
        · exact i1 x hx
      · rintro cs ⟨a, b, rfl, ha, hb⟩
        have := m3 a ha
        have := i3 b hb
        rw [utf8_append]
        simp
        omega

theorem RawSubs.last_star {ss : List Sub} {raws : List Item} (h : RawSubs ss raws)
    (hl : ss.getLast? = some .star) : ∃ init, raws = init ++ [.star 0] := by
  induction h with
  | nil => cases hl
  | @cons c it ss raws h hr ih =>
    cases hr with
    | nil =>
      rw [List.append_nil] at hl
      have hm : .star ∈ c := List.mem_of_getLast? hl
      rcases h.max with ⟨_, rfl⟩ | ⟨hn, _⟩
      · exact ⟨[], rfl⟩
      · exact absurd hm hn
    | @cons c' it' ss' raws' h' hr' =>
      have hne : c' ++ ss' ≠ [] := by simp [h'.ne_nil]
      rw [List.getLast?_append, List.getLast?_eq_some_getLast hne, Option.some_or,
        ← List.getLast?_eq_some_getLast hne] at hl
      obtain ⟨init, e⟩ := ih hl
      exact ⟨it :: init, by rw [e]; rfl⟩

end GoMatcher
