import Verif.Proofs.ParseRaw

/-! # The parser on written globs: braces -/

namespace GoMatcher

/-! ## The written form determines the tokens -/

theorem classRender_head {es : List ClassElt} (h : ∀ e ∈ es, e.Ok) (t : List Char) :
    es.flatMap ClassElt.render ≠ '-' :: t := by
  cases es with
  | nil => simp
  | cons e es =>
    have he := h e (by simp)
    cases e with
    | one c =>
      simp only [List.flatMap_cons, ClassElt.render, List.singleton_append]
      intro e
      injection e with e _
      exact he.1 e
    | range a b =>
      simp only [List.flatMap_cons, ClassElt.render, List.cons_append]
      intro e
      injection e with e _
      exact he.1 e

theorem classRender_inj {a b : List ClassElt} (ha : ∀ e ∈ a, e.Ok) (hb : ∀ e ∈ b, e.Ok)
    (h : a.flatMap ClassElt.render = b.flatMap ClassElt.render) : a = b := by
  induction a generalizing b with
  | nil =>
    cases b with
    | nil => rfl
    | cons e b => cases e <;> simp [ClassElt.render] at h
  | cons x a ih =>
    have ha' : ∀ e ∈ a, e.Ok := fun e he => ha e (by simp [he])
    cases b with
    | nil => cases x <;> simp [ClassElt.render] at h
    | cons y b =>
      have hb' : ∀ e ∈ b, e.Ok := fun e he => hb e (by simp [he])
      cases x with
      | one c =>
        cases y with
        | one d =>
          simp only [List.flatMap_cons, ClassElt.render, List.singleton_append,
            List.cons.injEq] at h
          rw [h.1, ih ha' hb' h.2]
        | range d e =>
          simp only [List.flatMap_cons, ClassElt.render, List.cons_append, List.nil_append,
            List.cons.injEq] at h
          exact absurd h.2 (classRender_head ha' _)
      | range c e =>
        cases y with
        | one d =>
          simp only [List.flatMap_cons, ClassElt.render, List.cons_append, List.nil_append,
            List.cons.injEq] at h
          exact absurd h.2.symm (classRender_head hb' _)
        | range d f =>
          simp only [List.flatMap_cons, ClassElt.render, List.cons_append, List.nil_append,
            List.cons.injEq] at h
          rw [h.1, h.2.2.1, ih ha' hb' h.2.2.2]

theorem append_sep_inj {α : Type} {x : α} {a b c d : List α} (ha : x ∉ a) (hb : x ∉ b)
    (h : a ++ x :: c = b ++ x :: d) : a = b ∧ c = d := by
  induction a generalizing b with
  | nil =>
    cases b with
    | nil => simpa using h
    | cons y b =>
      simp only [List.nil_append, List.cons_append, List.cons.injEq] at h
      exact absurd (by simp [h.1]) hb
  | cons z a ih =>
    cases b with
    | nil =>
      simp only [List.nil_append, List.cons_append, List.cons.injEq] at h
      exact absurd (by simp [h.1]) ha
    | cons y b =>
      simp only [List.cons_append, List.cons.injEq] at h
      obtain ⟨h1, h2⟩ := ih (b := b) (by simp at ha; exact ha.2) (by simp at hb; exact hb.2) h.2
      exact ⟨by rw [h.1, h1], h2⟩

theorem renderSubs_cons (s : Sub) (ss : List Sub) :
    renderSubs (s :: ss) = s.render ++ renderSubs ss := rfl

theorem renderSubs_inj {a b : List Sub} (ha : ∀ s ∈ a, s.Ok true) (hb : ∀ s ∈ b, s.Ok true)
    (h : renderSubs a = renderSubs b) : a = b := by
  induction a generalizing b with
  | nil =>
    cases b with
    | nil => rfl
    | cons s b => exact absurd h.symm (renderSubs_ne_nil (by simp))
  | cons x a ih =>
    have ha' : ∀ s ∈ a, s.Ok true := fun e he => ha e (by simp [he])
    have hx := ha x (by simp)
    cases b with
    | nil => exact absurd h (renderSubs_ne_nil (by simp))
    | cons y b =>
      have hb' : ∀ s ∈ b, s.Ok true := fun e he => hb e (by simp [he])
      have hy := hb y (by simp)
      rw [renderSubs_cons, renderSubs_cons] at h
      have spec : ∀ c : Char, isSpecial c = true → isSpecial c = false → False := by
        intro c h1 h2; rw [h1] at h2; cases h2
      cases x with
      | lit c =>
        cases y with
        | lit d =>
          simp only [Sub.render, List.singleton_append, List.cons.injEq] at h
          rw [h.1, ih ha' hb' h.2]
        | any =>
          simp only [Sub.render, List.singleton_append, List.cons.injEq] at h
          exact (spec c (by rw [h.1]; decide) hx.1).elim
        | star =>
          simp only [Sub.render, List.singleton_append, List.cons.injEq] at h
          exact (spec c (by rw [h.1]; decide) hx.1).elim
        | cls es =>
          simp only [Sub.render, List.cons_append, List.cons.injEq] at h
          exact (spec c (by rw [h.1]; decide) hx.1).elim
      | any =>
        cases y with
        | lit d =>
          simp only [Sub.render, List.singleton_append, List.cons.injEq] at h
          exact (spec d (by rw [← h.1]; decide) hy.1).elim
        | any =>
          simp only [Sub.render, List.singleton_append, List.cons.injEq, true_and] at h
          rw [ih ha' hb' h]
        | star => simp [Sub.render] at h
        | cls es => simp [Sub.render] at h
      | star =>
        cases y with
        | lit d =>
          simp only [Sub.render, List.singleton_append, List.cons.injEq] at h
          exact (spec d (by rw [← h.1]; decide) hy.1).elim
        | any => simp [Sub.render] at h
        | star =>
          simp only [Sub.render, List.singleton_append, List.cons.injEq, true_and] at h
          rw [ih ha' hb' h]
        | cls es => simp [Sub.render] at h
      | cls es =>
        cases y with
        | lit d =>
          simp only [Sub.render, List.cons_append, List.cons.injEq] at h
          exact (spec d (by rw [← h.1]; decide) hy.1).elim
        | any => simp [Sub.render] at h
        | star => simp [Sub.render] at h
        | cls fs =>
          simp only [Sub.render, List.cons_append, List.append_assoc, List.cons.injEq,
            true_and, List.nil_append] at h
          obtain ⟨h1, h2⟩ := append_sep_inj (fun hm => (hx.2.2.2 _ hm).1 rfl)
            (fun hm => (hy.2.2.2 _ hm).1 rfl) h
          rw [classRender_inj hx.2.1 hy.2.1 h1, ih ha' hb' h2]

/-! ## Characters of alternatives -/

theorem renderSubs_chars {a : List Sub} (ha : ∀ s ∈ a, s.Ok true) :
    ∀ c ∈ renderSubs a, c ≠ ',' ∧ c ≠ '}' := by
  intro c hc
  obtain ⟨s, hs, hcs⟩ := List.mem_flatMap.1 hc
  have hok := ha s hs
  cases s with
  | lit d =>
    rw [List.mem_singleton.1 hcs]
    refine ⟨hok.2.2 rfl, ?_⟩
    rintro rfl
    exact absurd hok.1 (by decide)
  | any => rw [List.mem_singleton.1 hcs]; decide
  | star => rw [List.mem_singleton.1 hcs]; decide
  | cls es =>
    simp only [Sub.render, List.cons_append, List.mem_cons, List.mem_append,
      List.not_mem_nil, or_false] at hcs
    rcases hcs with rfl | hcs | rfl
    · decide
    · exact (hok.2.2.2 c hcs).2 rfl
    · decide

theorem hasWildcard_subs {a : List Sub} (ha : ∀ s ∈ a, s.Ok true) :
    hasWildcard (utf8 (renderSubs a)) = !(a.all Sub.isLit) := by
  rw [hasWildcard_utf8]
  induction a with
  | nil => rfl
  | cons s a ih =>
    have hok := ha s (by simp)
    rw [renderSubs_cons, List.any_append, ih (fun x hx => ha x (by simp [hx])), List.all_cons]
    cases s with
    | lit c => simp [Sub.render, Sub.isLit, hok.1]
    | any => simp [Sub.render, Sub.isLit, isSpecial]
    | star => simp [Sub.render, Sub.isLit, isSpecial]
    | cls es => simp [Sub.render, Sub.isLit, isSpecial]

theorem allLit_map {a : List Sub} (h : a.all Sub.isLit = true) :
    ∃ cs : List Char, a = cs.map Sub.lit := by
  induction a with
  | nil => exact ⟨[], rfl⟩
  | cons s a ih =>
    simp only [List.all_cons, Bool.and_eq_true] at h
    obtain ⟨cs, rfl⟩ := ih h.2
    cases s with
    | lit c => exact ⟨c :: cs, rfl⟩
    | any => cases h.1
    | star => cases h.1
    | cls es => cases h.1

/-! ## Items of alternatives -/

def AltRaw (a : List Sub) (raws : List Item) : Prop :=
  (RawSubs a raws ∧ raws ≠ []) ∨ (a = [] ∧ raws = [.str []])

structure AltItem (a : List Sub) (v : Item) : Prop where
  raw : ∃ raws, AltRaw a raws ∧ groupItems v = norm raws
  zero : v.minLen = 0 → ∀ s ∈ a, s = .star
  nonneg : 0 ≤ v.minLen
  min : ∀ cs, subsFit a cs → v.minLen ≤ (utf8 cs).length
  maxFin : .star ∉ a → 0 ≤ v.maxLen ∧ ∀ cs, subsFit a cs → (utf8 cs).length ≤ v.maxLen
  maxInf : a.getLast? = some .star → v.maxLen = -1

theorem AltRaw.sem {a : List Sub} {raws : List Item} (h : AltRaw a raws) (cs : List Char) :
    SeqSem raws cs ↔ subsFit a cs := by
  rcases h with ⟨h, _⟩ | ⟨rfl, rfl⟩
  · exact h.sem cs
  · rw [seqSem_singleton]
    simp [Item.Sem, subsFit]

theorem AltRaw.litWF {a : List Sub} {raws : List Item} (h : AltRaw a raws) :
    ∀ x ∈ raws, LitWF x := by
  rcases h with ⟨h, _⟩ | ⟨rfl, rfl⟩
  · exact h.litWF
  · intro x hx
    rw [List.mem_singleton.1 hx]
    exact Or.inr ⟨[], rfl⟩

theorem AltItem.sem {a : List Sub} {v : Item} (h : AltItem a v) (cs : List Char) :
    v.Sem cs ↔ subsFit a cs := by
  obtain ⟨raws, hr, hg⟩ := h.raw
  rw [← seqSem_groupItems, hg, norm_sem _ hr.litWF, hr.sem]

theorem AltItem.ne_nil {a : List Sub} {v : Item} (h : AltItem a v) : groupItems v ≠ [] := by
  obtain ⟨raws, hr, hg⟩ := h.raw
  rw [hg]
  have hne : raws ≠ [] := by
    rcases hr with ⟨_, h⟩ | ⟨_, rfl⟩
    · exact h
    · simp
  cases raws with
  | nil => exact absurd rfl hne
  | cons x xs => exact normAux_ne_nil x xs

theorem altItem_lits (cs : List Char) : AltItem (cs.map .lit) (.str (utf8 cs)) where
  raw := by
    refine ⟨[.str (utf8 cs)], ?_, rfl⟩
    cases cs with
    | nil => exact Or.inr ⟨rfl, rfl⟩
    | cons c cs =>
      refine Or.inl ⟨?_, by simp⟩
      have := RawSubs.cons (Chunk.lits (cs := c :: cs) (it := .str (utf8 (c :: cs))) (by simp) rfl)
        RawSubs.nil
      simpa using this
  zero := by
    intro h
    have : cs = [] := by
      rw [← utf8_eq_nil, ← List.length_eq_zero_iff]
      simp only [Item.minLen] at h
      omega
    subst this
    simp
  nonneg := by simp only [Item.minLen]; omega
  min := by
    intro ds hd
    rw [(subsFit_lits _ _).1 hd]
    simp only [Item.minLen]
    omega
  maxFin := by
    intro _
    simp only [Item.maxLen]
    refine ⟨by omega, ?_⟩
    intro ds hd
    rw [(subsFit_lits _ _).1 hd]
    omega
  maxInf := by
    intro h
    have := List.mem_of_getLast? h
    simp at this

theorem rawSubs_single {c : List Sub} {it : Item} (h : Chunk c it) : RawSubs c [it] := by
  have := RawSubs.cons h RawSubs.nil
  simpa using this

theorem altItem_any : AltItem [.any] (.any 1) where
  raw := ⟨[.any 1], Or.inl ⟨rawSubs_single Chunk.any, by simp⟩, rfl⟩
  zero := by intro h; exact absurd h (by decide)
  nonneg := by decide
  min := by
    intro cs h
    rw [← Chunk.any.sem] at h
    exact Chunk.any.min.2.2 cs h
  maxFin := by
    intro hn
    rcases Chunk.any.max with ⟨h, _⟩ | ⟨_, h1, h2⟩
    · exact absurd h hn
    · exact ⟨h1, fun cs h => h2 cs ((Chunk.any.sem cs).2 h)⟩
  maxInf := by intro h; simp at h

theorem norm_not_chain {x : Item} {ys : List Item} (hx : groupItems x = [x])
    (hy : ∀ y ∈ ys, groupItems y = [y]) : ∀ z ∈ normAux x ys, groupItems z = [z] := by
  induction ys generalizing x with
  | nil =>
    intro z hz
    rw [List.mem_singleton.1 hz]
    exact hx
  | cons y ys ih =>
    have hy1 := hy y (by simp)
    have hy2 : ∀ z ∈ ys, groupItems z = [z] := fun z hz => hy z (by simp [hz])
    unfold normAux
    cases hm : mergeItem x y with
    | none =>
      intro z hz
      rcases List.mem_cons.1 hz with rfl | hz
      · exact hx
      · exact ih hy1 hy2 z hz
    | some m =>
      refine ih ?_ hy2
      cases m with
      | chain i a b =>
        cases x <;> cases y <;> simp [mergeItem] at hm
      | _ => rfl

theorem RawSubs.not_chain {ss : List Sub} {raws : List Item} (h : RawSubs ss raws) :
    ∀ x ∈ raws, groupItems x = [x] := by
  induction h with
  | nil => simp
  | cons h _ ih =>
    intro x hx
    rcases List.mem_cons.1 hx with rfl | hx
    · exact h.not_chain
    · exact ih x hx

theorem altItem_chain {a : List Sub} {raws : List Item} (h : RawSubs a raws) (hne : raws ≠ []) :
    AltItem a (match (raws.foldl ChainSt.append {}).items with
      | [x] => x
      | _ => .chain (raws.foldl ChainSt.append {}).items (raws.foldl ChainSt.append {}).minSize
          (raws.foldl ChainSt.append {}).maxSize) := by
  have hi : (raws.foldl ChainSt.append {}).items = norm raws := by
    rw [foldl_append_items]; exact foldl_append_norm raws
  have hmn := foldl_append_min raws {}
  have hsm := h.sumMin_spec
  rw [hi]
  have e0 : ({} : ChainSt).minSize = 0 := rfl
  have e1 : ({} : ChainSt).maxSize = 0 := rfl
  rw [e0] at hmn
  split
  · rename_i x hx
    cases raws with
    | nil => exact absurd rfl hne
    | cons y ys =>
      have hx' : normAux y ys = [x] := hx
      obtain ⟨n1, n2, n3⟩ := normAux_one y ys x (h.litWF y (by simp))
        (fun z hz => h.litWF z (by simp [hz])) hx'
      have hmin : x.minLen = sumMin (y :: ys) := by rw [n1]; rfl
      refine ⟨⟨y :: ys, Or.inl ⟨h, hne⟩, ?_⟩, ?_, ?_, ?_, ?_, ?_⟩
      · rw [hx]
        exact norm_not_chain (x := y) (ys := ys) (h.not_chain y (by simp)) (fun z hz => h.not_chain z (by simp [hz])) x
          (by rw [hx']; simp)
      · rw [hmin]; exact hsm.2.1
      · rw [hmin]; exact hsm.1
      · intro cs hc
        rw [hmin]
        exact hsm.2.2 cs ((h.sem cs).2 hc)
      · intro hn
        obtain ⟨s1, s2, s3⟩ := h.sumMax_spec hn
        rw [n3 (s1 y (by simp)) (fun z hz => s1 z (by simp [hz]))]
        exact ⟨s2, fun cs hc => s3 cs ((h.sem cs).2 hc)⟩
      · intro hl
        obtain ⟨init, e⟩ := h.last_star hl
        apply n2
        cases init with
        | nil =>
          simp only [List.nil_append, List.cons.injEq] at e
          left; rw [e.1]; rfl
        | cons w init =>
          simp only [List.cons_append, List.cons.injEq] at e
          right
          exact ⟨.star 0, by rw [e.2]; simp, rfl⟩
  · refine ⟨⟨raws, Or.inl ⟨h, hne⟩, rfl⟩, ?_, ?_, ?_, ?_, ?_⟩
    · intro hz
      simp only [Item.minLen] at hz
      exact hsm.2.1 (by omega)
    · simp only [Item.minLen]; omega
    · intro cs hc
      have := hsm.2.2 cs ((h.sem cs).2 hc)
      simp only [Item.minLen]
      omega
    · intro hn
      obtain ⟨s1, s2, s3⟩ := h.sumMax_spec hn
      have := foldl_append_max raws {} s1
      rw [e1] at this
      simp only [Item.maxLen]
      refine ⟨by omega, fun cs hc => ?_⟩
      have := s3 cs ((h.sem cs).2 hc)
      omega
    · intro hl
      obtain ⟨init, rfl⟩ := h.last_star hl
      exact foldl_append_star init {} 0

/-! ## The loop over the alternatives -/

theorem renderSubs_star {a : List Sub} (ha : ∀ s ∈ a, s.Ok true) :
    utf8 (renderSubs a) = [42] ↔ a = [.star] := by
  constructor
  · intro h
    have h1 : utf8 (renderSubs a) = utf8 (renderSubs [.star]) := h
    exact renderSubs_inj ha (by simp [Sub.Ok]) (utf8_inj h1)
  · rintro rfl; rfl

theorem renderSubs_any {a : List Sub} (ha : ∀ s ∈ a, s.Ok true) :
    utf8 (renderSubs a) = [63] ↔ a = [.any] := by
  constructor
  · intro h
    have h1 : utf8 (renderSubs a) = utf8 (renderSubs [.any]) := h
    exact renderSubs_inj ha (by simp [Sub.Ok]) (utf8_inj h1)
  · rintro rfl; rfl

theorem newGroup_raw (fuel : Nat) (as : List (List Sub)) (items : List Item)
    (hok : ∀ a ∈ as, ∀ s ∈ a, s.Ok true)
    (ht : newGroup fuel (as.map fun a => utf8 (renderSubs a)) items ≠ .timeout) :
    ([.star] ∈ as →
      newGroup fuel (as.map fun a => utf8 (renderSubs a)) items = .ok (.ok (some (.star 0)))) ∧
    ([.star] ∉ as → ∃ its,
      newGroup fuel (as.map fun a => utf8 (renderSubs a)) items = .ok (.ok (groupOf (items ++ its))) ∧
      its.length = as.length ∧
      (∀ a ∈ as, ∃ v ∈ its, AltItem a v) ∧ (∀ v ∈ its, ∃ a ∈ as, AltItem a v)) := by
  induction fuel generalizing as items with
  | zero => exact absurd (by cases as <;> rfl) ht
  | succ fuel ih =>
    cases as with
    | nil =>
      refine ⟨by simp, fun _ => ⟨[], ?_, rfl, by simp, by simp⟩⟩
      rw [List.map_nil, newGroup, List.append_nil]
    | cons a as =>
      have ha := hok a (by simp)
      have hok' : ∀ a ∈ as, ∀ s ∈ a, s.Ok true := fun x hx => hok x (by simp [hx])
      rw [List.map_cons, newGroup] at ht ⊢
      -- what happens after an item is appended
      have key : ∀ v, AltItem a v → a ≠ [.star] →
          newGroup fuel (as.map fun a => utf8 (renderSubs a)) (items ++ [v]) ≠ .timeout →
          ([.star] ∈ a :: as →
            newGroup fuel (as.map fun a => utf8 (renderSubs a)) (items ++ [v]) =
              .ok (.ok (some (.star 0)))) ∧
          ([.star] ∉ a :: as → ∃ its,
            newGroup fuel (as.map fun a => utf8 (renderSubs a)) (items ++ [v]) =
              .ok (.ok (groupOf (items ++ its))) ∧
            its.length = (a :: as).length ∧
            (∀ b ∈ a :: as, ∃ v ∈ its, AltItem b v) ∧
            (∀ v ∈ its, ∃ b ∈ a :: as, AltItem b v)) := by
        intro v hv hns ht
        obtain ⟨i1, i2⟩ := ih as (items ++ [v]) hok' ht
        refine ⟨fun hm => i1 ?_, fun hm => ?_⟩
        · rcases List.mem_cons.1 hm with h | h
          · exact absurd h.symm hns
          · exact h
        · obtain ⟨its, h1, hlen, h2, h3⟩ := i2 (fun h => hm (by simp [h]))
          refine ⟨v :: its, by rw [h1]; simp, by simp [hlen], ?_, ?_⟩
          · intro b hb
            rcases List.mem_cons.1 hb with rfl | hb
            · exact ⟨v, by simp, hv⟩
            · obtain ⟨w, hw, hbw⟩ := h2 b hb
              exact ⟨w, by simp [hw], hbw⟩
          · intro w hw
            rcases List.mem_cons.1 hw with rfl | hw
            · exact ⟨a, by simp, hv⟩
            · obtain ⟨b, hb, hbw⟩ := h3 w hw
              exact ⟨b, by simp [hb], hbw⟩
      cases hall : a.all Sub.isLit with
      | true =>
        have hw : ¬ hasWildcard (utf8 (renderSubs a)) = true := by
          rw [hasWildcard_subs ha, hall]; simp
        rw [if_neg hw] at ht ⊢
        obtain ⟨cs, rfl⟩ := allLit_map hall
        rw [renderSubs_lits] at ht ⊢
        refine key _ (altItem_lits cs) ?_ ht
        intro e
        have := congrArg (List.all · Sub.isLit) e
        rw [hall] at this
        cases this
      | false =>
        have hw : hasWildcard (utf8 (renderSubs a)) = true := by
          rw [hasWildcard_subs ha, hall]; rfl
        rw [if_pos hw] at ht ⊢
        by_cases hs : a = [.star]
        · rw [if_pos ((renderSubs_star ha).2 hs)] at ht ⊢
          refine ⟨fun _ => rfl, fun hm => absurd (by simp [hs]) hm⟩
        · rw [if_neg (fun h => hs ((renderSubs_star ha).1 h))] at ht ⊢
          by_cases hq : a = [.any]
          · rw [if_pos ((renderSubs_any ha).2 hq)] at ht ⊢
            exact key _ (by rw [hq]; exact altItem_any) hs ht
          · rw [if_neg (fun h => hq ((renderSubs_any ha).1 h))] at ht ⊢
            have htc : chainLoop fuel (utf8 (renderSubs a)) {} ≠ .timeout := by
              intro e
              rw [e] at ht
              exact ht rfl
            obtain ⟨raws, hr, he⟩ := chainLoop_raw fuel a {} ha htc
            rw [he] at ht ⊢
            simp only [R.bind_ok] at ht ⊢
            have hne : raws ≠ [] := by
              rintro rfl
              cases hr
              cases hall
            exact key _ (altItem_chain hr hne) hs ht

/-! ## Lists -/

theorem listScan_hasStar (st : ListScan) (vs : List Str) :
    (listScan st vs).hasStar = (st.hasStar || vs.any hasWildcard) := by
  induction vs generalizing st with
  | nil => simp [listScan]
  | cons v vs ih =>
    unfold listScan
    dsimp only
    generalize hst1 : (if st.maxLen < (v.length : Int) then { st with maxLen := (v.length : Int) } else st) = st1
    have h1 : st1.hasStar = st.hasStar := by rw [← hst1]; split <;> rfl
    generalize hst2 : (if st1.minLen > (v.length : Int) then { st1 with minLen := (v.length : Int) } else st1) = st2
    have h2 : st2.hasStar = st.hasStar := by rw [← hst2, ← h1]; split <;> rfl
    cases v with
    | nil =>
      dsimp only
      rw [ih, h2]
      simp [hasWildcard]
    | cons b t =>
      dsimp only
      split
      · rename_i hw
        simp [hw]
      · rename_i hw
        rw [ih]
        dsimp only
        rw [h2, List.any_cons, Bool.eq_false_iff.2 hw, Bool.false_or]

theorem listScan_max (st : ListScan) (vs : List Str) (h : (listScan st vs).hasStar = false) :
    (∀ v ∈ vs, (v.length : Int) ≤ (listScan st vs).maxLen) ∧ st.maxLen ≤ (listScan st vs).maxLen := by
  induction vs generalizing st with
  | nil => simp [listScan]
  | cons v vs ih =>
    unfold listScan at h ⊢
    dsimp only at h ⊢
    generalize hst1 : (if st.maxLen < (v.length : Int) then { st with maxLen := (v.length : Int) } else st) = st1 at h ⊢
    have h1 : st.maxLen ≤ st1.maxLen ∧ (v.length : Int) ≤ st1.maxLen := by
      rw [← hst1]
      split
      · dsimp only; omega
      · omega
    generalize hst2 : (if st1.minLen > (v.length : Int) then { st1 with minLen := (v.length : Int) } else st1) = st2 at h ⊢
    have h2 : st2.maxLen = st1.maxLen := by rw [← hst2]; split <;> rfl
    cases v with
    | nil =>
      obtain ⟨i1, i2⟩ := ih st2 h
      dsimp only
      refine ⟨?_, by omega⟩
      intro w hw
      rcases List.mem_cons.1 hw with rfl | hw
      · omega
      · exact i1 w hw
    | cons b t =>
      dsimp only at h ⊢
      split at h
      · simp at h
      · rename_i hw
        rw [if_neg hw]
        obtain ⟨i1, i2⟩ := ih _ h
        dsimp only at i2
        refine ⟨?_, by omega⟩
        intro w hw
        rcases List.mem_cons.1 hw with rfl | hw
        · omega
        · exact i1 w hw

/-! ## Sizes of groups -/

theorem groupSizes_spec (xs : List Item) (mn mx : Int) :
    (groupSizes xs (mn, mx)).1 ≤ mn ∧ (∀ x ∈ xs, (groupSizes xs (mn, mx)).1 ≤ x.minLen) ∧
    ((groupSizes xs (mn, mx)).1 = mn ∨ ∃ x ∈ xs, (groupSizes xs (mn, mx)).1 = x.minLen) ∧
    ((mx = -1 ∨ ∃ x ∈ xs, x.maxLen = -1) → (groupSizes xs (mn, mx)).2 = -1) ∧
    (0 ≤ mx → (∀ x ∈ xs, 0 ≤ x.maxLen) → mx ≤ (groupSizes xs (mn, mx)).2 ∧
      ∀ x ∈ xs, x.maxLen ≤ (groupSizes xs (mn, mx)).2) := by
  induction xs generalizing mn mx with
  | nil => simp [groupSizes]
  | cons x xs ih =>
    rw [groupSizes]
    generalize hm : (if mn > x.minLen then x.minLen else mn) = mn'
    generalize hM : (if mx ≠ -1 ∧ (x.maxLen = -1 ∨ mx < x.maxLen) then x.maxLen else mx) = mx'
    obtain ⟨i1, i2, i3, i4, i5⟩ := ih mn' mx'
    have hm' : mn' ≤ mn ∧ mn' ≤ x.minLen ∧ (mn' = mn ∨ mn' = x.minLen) := by
      rw [← hm]; split <;> omega
    have hM' : (mx = -1 ∨ x.maxLen = -1 → mx' = -1) ∧
        (0 ≤ mx → 0 ≤ x.maxLen → mx ≤ mx' ∧ x.maxLen ≤ mx') := by
      rw [← hM]
      split <;> omega
    refine ⟨by omega, ?_, ?_, ?_, ?_⟩
    · intro y hy
      rcases List.mem_cons.1 hy with rfl | hy
      · omega
      · exact i2 y hy
    · rcases i3 with h | ⟨y, hy, h⟩
      · rcases hm'.2.2 with h' | h'
        · left; omega
        · right; exact ⟨x, by simp, by omega⟩
      · right; exact ⟨y, by simp [hy], h⟩
    · intro h
      apply i4
      rcases h with h | ⟨y, hy, h⟩
      · left; exact hM'.1 (Or.inl h)
      · rcases List.mem_cons.1 hy with rfl | hy
        · left; exact hM'.1 (Or.inr h)
        · right; exact ⟨y, hy, h⟩
    · intro h0 hall
      have hx := hall x (by simp)
      have hmx := hM'.2 h0 hx
      obtain ⟨j1, j2⟩ := i5 (by omega) (fun y hy => hall y (by simp [hy]))
      refine ⟨by omega, ?_⟩
      intro y hy
      rcases List.mem_cons.1 hy with rfl | hy
      · omega
      · exact j2 y hy

/-! ## The result for braces -/

/-- What braces are read to.  With `strict`, alternatives without wildcards never make a group. -/
inductive AltResS (strict : Bool) (alts : List (List Sub)) : Option Item → Prop
  | none (h : ∀ a ∈ alts, a = []) : AltResS strict alts none
  | lit {it : Item} {ws : List Char} (hne : ws ≠ []) (h : ∀ a ∈ alts, a = ws.map .lit)
      (hl : IsLit it ws) : AltResS strict alts (some it)
  | list {l : StringList} (hp : plainAlts alts = true) (hw : ListWF l)
      (hsem : ∀ cs, (Item.list l).Sem cs ↔ ∃ a ∈ alts, subsFit a cs)
      (h0 : l.minSize = 0 → [] ∈ alts) (hmx : 0 ≤ l.maxSize)
      (hmax : ∀ cs, (∃ a ∈ alts, subsFit a cs) → (utf8 cs).length ≤ l.maxSize)
      (hmin : 0 ≤ l.minSize)
      (h2 : ¬ alts.length ≤ 1) (hv : l.vals ≠ [])
      (hsort : l.vals.Pairwise fun a b => strLt a b = true) (htwo : ∃ a ∈ alts, ∃ b ∈ alts, a ≠ b) :
      AltResS strict alts (some (.list l))
  | star (hp : plainAlts alts = false) (h : [.star] ∈ alts) : AltResS strict alts (some (.star 0))
  | group {vals : List Item} {mn mx : Int} (hp : ¬ alts.length ≤ 1) (h : [.star] ∉ alts)
      (h1 : ∀ a ∈ alts, ∃ v ∈ vals, AltItem a v) (h2 : ∀ v ∈ vals, ∃ a ∈ alts, AltItem a v)
      (hmn : ∀ v ∈ vals, mn ≤ v.minLen) (hmn' : ∃ v ∈ vals, mn = v.minLen)
      (hinf : (∃ v ∈ vals, v.maxLen = -1) → mx = -1)
      (hfin : (∀ v ∈ vals, 0 ≤ v.maxLen) → ∀ v ∈ vals, v.maxLen ≤ mx) (hw : strict = true → plainAlts alts = false) :
      AltResS strict alts (some (.group vals mn mx))

abbrev AltRes := AltResS false

theorem AltResS.loose {alts : List (List Sub)} {r : Option Item} (h : AltResS true alts r) : AltRes alts r := by
  cases h with
  | none h => exact .none h
  | lit a b c => exact .lit a b c
  | list a b c d e f g h i j k => exact .list a b c d e f g h i j k
  | star a b => exact .star a b
  | group a b c d e f g h _ => exact .group a b c d e f g h (fun h => nomatch h)

/-- The item is no group. -/
def NoGroup (x : Item) : Prop := ∀ vals mn mx, x ≠ .group vals mn mx

theorem IsLit.noGroup {x : Item} {w : List Char} (h : IsLit x w) : NoGroup x := by
  rintro vals mn mx rfl
  exact h

theorem AltResS.noGroup {alts : List (List Sub)} {x : Item} (h : AltResS true alts (some x))
    (hp : plainAlts alts = true) : NoGroup x := by
  cases h with
  | lit _ _ h => exact h.noGroup
  | list => intro _ _ _ h; cases h
  | star => intro _ _ _ h; cases h
  | group _ _ _ _ _ _ _ _ hw => rw [hw rfl] at hp; cases hp

theorem utf8_renderAlts (alts : List (List Sub)) :
    utf8 (renderAlts alts) = joinByte 44 (alts.map fun a => utf8 (renderSubs a)) := by
  match alts with
  | [] => rfl
  | [a] => rfl
  | a :: b :: l =>
    rw [List.map_cons, List.map_cons, joinByte_cons_cons, renderAlts, utf8_append,
      utf8_ascii_cons (by decide), utf8_renderAlts (b :: l)]
    rfl

theorem exists_preimages {α β : Type} (f : α → β) (as : List α) (vs : List β)
    (h : ∀ v ∈ vs, ∃ a ∈ as, v = f a) : ∃ l : List α, l.map f = vs ∧ ∀ a ∈ l, a ∈ as := by
  induction vs with
  | nil => exact ⟨[], rfl, by simp⟩
  | cons v vs ih =>
    obtain ⟨l, h1, h2⟩ := ih (fun w hw => h w (by simp [hw]))
    obtain ⟨a, ha, rfl⟩ := h v (by simp)
    refine ⟨a :: l, by simp [h1], ?_⟩
    intro b hb
    rcases List.mem_cons.1 hb with rfl | hb
    · exact ha
    · exact h2 b hb

theorem plainAlts_iff (alts : List (List Sub)) :
    plainAlts alts = true ↔ ∀ a ∈ alts, ∃ cs : List Char, a = cs.map Sub.lit := by
  unfold plainAlts
  rw [List.all_eq_true]
  constructor
  · intro h a ha; exact allLit_map (h a ha)
  · intro h a ha
    obtain ⟨cs, rfl⟩ := h a ha
    simp [Sub.isLit]

theorem nextItem_alt (fuel : Nat) (alts : List (List Sub)) (ts : List Tok)
    (hok : (Tok.alt alts).Ok)
    (ht : nextItem (fuel + 1) (utf8 (renderGlob (.alt alts :: ts))) ≠ .timeout) :
    ∃ r, AltResS true alts r ∧ nextItem (fuel + 1) (utf8 (renderGlob (.alt alts :: ts))) =
      .ok (.ok (r, utf8 (renderGlob ts))) := by
  obtain ⟨hne, hsub, hdist⟩ := hok
  have hnoc : ∀ v ∈ alts.map (fun a => utf8 (renderSubs a)), (44 : UInt8) ∉ v := by
    intro v hv hm
    obtain ⟨a, ha, rfl⟩ := List.mem_map.1 hv
    obtain ⟨c, hc, e⟩ := (mem_utf8_ascii (by decide) _).1 hm
    exact (renderSubs_chars (hsub a ha) c hc).1 (Char.toNat_val_inj e)
  have hnob : (125 : UInt8) ∉ utf8 (renderAlts alts) := by
    intro hm
    obtain ⟨c, hc, e⟩ := (mem_utf8_ascii (by decide) _).1 hm
    have hcc : c = '}' := Char.toNat_val_inj e
    subst hcc
    clear hm hnoc hdist hne ht e
    induction alts with
    | nil => cases hc
    | cons a alts ih =>
      cases alts with
      | nil => exact (renderSubs_chars (hsub a (by simp)) _ hc).2 rfl
      | cons b alts =>
        rw [renderAlts] at hc
        rcases List.mem_append.1 hc with hc | hc
        · exact (renderSubs_chars (hsub a (by simp)) _ hc).2 rfl
        · rcases List.mem_cons.1 hc with hc | hc
          · exact absurd hc (by decide)
          · exact ih (fun x hx => hsub x (by simp [hx])) hc
  have hu : utf8 (renderGlob (.alt alts :: ts)) =
      (123 :: utf8 (renderAlts alts)) ++ 125 :: utf8 (renderGlob ts) := by
    rw [renderGlob_cons]
    show utf8 (('{' :: renderAlts alts ++ ['}']) ++ renderGlob ts) = _
    rw [utf8_append, utf8_append, utf8_ascii_cons (by decide)]
    simp only [List.append_assoc]
    rfl
  have hnot : (125 : UInt8) ∉ (123 :: utf8 (renderAlts alts)) := by
    intro hm
    rcases List.mem_cons.1 hm with h | h
    · exact absurd h (by decide)
    · exact hnob h
  have hcut := cutAfter_byte (utf8 (renderGlob ts)) hnot
  rw [hu] at ht ⊢
  rw [List.cons_append] at hcut ht ⊢
  rw [nextItem] at ht ⊢
  dsimp only at ht ⊢
  rw [if_neg (by decide), if_pos rfl, hcut] at ht ⊢
  simp only [R.bind_ok] at ht ⊢
  have hle := listExpand_braces (utf8 (renderAlts alts))
  rw [← List.cons_append] at hle
  rw [hle] at ht ⊢
  by_cases hbody : utf8 (renderAlts alts) = []
  · rw [if_pos hbody]
    refine ⟨none, .none ?_, rfl⟩
    rw [utf8_eq_nil] at hbody
    match alts, hne, hbody with
    | [a], _, hb =>
      intro x hx
      rw [List.mem_singleton.1 hx]
      apply Classical.byContradiction
      intro h
      exact renderSubs_ne_nil h hb
    | a :: b :: l, _, hb => simp [renderAlts] at hb
  · rw [if_neg hbody] at ht ⊢
    have hexp : listExpand (123 :: (utf8 (renderAlts alts) ++ [125])) =
        some (removeDuplicated (sortBy strLe (splitByte (utf8 (renderAlts alts)) 44))) := by
      rw [listExpand_braces, if_neg hbody]
    have hsorted := (listExpand_some hexp).1
    have hsplit : splitByte (utf8 (renderAlts alts)) 44 = alts.map fun a => utf8 (renderSubs a) := by
      rw [utf8_renderAlts, splitByte_joinByte (by simpa using hne) hnoc]
    have hmem : ∀ v, v ∈ removeDuplicated (sortBy strLe (splitByte (utf8 (renderAlts alts)) 44)) ↔
        ∃ a ∈ alts, v = utf8 (renderSubs a) := by
      intro v
      have hne2 : sortBy strLe (splitByte (utf8 (renderAlts alts)) 44) ≠ [] := by
        intro h0
        have := (sortBy_perm strLe (splitByte (utf8 (renderAlts alts)) 44)).length_eq
        rw [h0] at this
        exact splitByte_ne_nil _ 44 (List.length_eq_zero_iff.mp this.symm)
      obtain ⟨b, hb1, _, hb3⟩ := removeDuplicated_spec _ hne2
      rw [hb1, mem_dedupAdj, hb3, mem_sortBy, hsplit, List.mem_map]
      constructor
      · rintro ⟨a, ha, rfl⟩; exact ⟨a, ha, rfl⟩
      · rintro ⟨a, ha, rfl⟩; exact ⟨a, ha, rfl⟩
    generalize hvals : removeDuplicated (sortBy strLe (splitByte (utf8 (renderAlts alts)) 44)) = vals at *
    dsimp only at ht ⊢
    match vals, hmem, hsorted, ht with
    | [], hmem, _, _ =>
      obtain ⟨a, ha⟩ := List.exists_mem_of_ne_nil _ hne
      have := (hmem _).2 ⟨a, ha, rfl⟩
      cases this
    | [v], hmem, _, _ =>
      obtain ⟨a0, ha0, hv0⟩ := (hmem v).1 (by simp)
      have hall : ∀ a ∈ alts, a = a0 := by
        intro a ha
        have h1 := List.mem_singleton.1 ((hmem _).2 ⟨a, ha, rfl⟩)
        exact renderSubs_inj (hsub a ha) (hsub a0 ha0) (utf8_inj (h1.trans hv0))
      by_cases hv : v = []
      · refine ⟨none, .none ?_, by simp [listItem, hv]⟩
        intro a ha
        rw [hall a ha]
        apply Classical.byContradiction
        intro h
        rw [hv] at hv0
        exact renderSubs_ne_nil h ((utf8_eq_nil _).1 hv0.symm)
      · have hplain : plainAlts alts = true := by
          rcases hdist with h | ⟨a, ha, b, hb, hab⟩
          · exact h
          · rw [hall a ha, hall b hb] at hab
            exact absurd rfl hab
        obtain ⟨ws, hws⟩ := (plainAlts_iff alts).1 hplain a0 ha0
        have hwne : ws ≠ [] := by
          rintro rfl
          rw [hws] at hv0
          exact hv hv0
        have hvw : v = utf8 ws := by rw [hv0, hws, renderSubs_lits]
        refine ⟨some (literalItem v), .lit hwne (fun a ha => by rw [hall a ha, hws]) ?_,
          by simp [listItem, hv]⟩
        rw [hvw]
        apply literalItem_isLit hwne
        intro c hc
        have := hsub a0 ha0 (.lit c) (by rw [hws]; simp [hc])
        exact this.2.1
    | v0 :: v1 :: vs, hmem, hsorted, ht =>
      have hlen2 : ¬ alts.length ≤ 1 := by
        intro hlen
        obtain ⟨a, ha, e0⟩ := (hmem v0).1 (by simp)
        obtain ⟨b, hb, e1⟩ := (hmem v1).1 (by simp)
        have hab : a = b := by
          match alts, hne, hlen, ha, hb with
          | [x], _, _, ha, hb => rw [List.mem_singleton.1 ha, List.mem_singleton.1 hb]
          | x :: y :: l, _, hlen, _, _ => simp at hlen
        have hlt := (List.pairwise_cons.1 hsorted).1 v1 (by simp)
        rw [e0, e1, hab] at hlt
        simp [strLt, strLe_refl] at hlt
      have hstar : (listScan {} (v0 :: v1 :: vs)).hasStar = !plainAlts alts := by
        rw [listScan_hasStar, Bool.eq_iff_iff]
        simp only [Bool.false_or, List.any_eq_true, Bool.not_eq_true', ← Bool.not_eq_true,
          plainAlts_iff]
        constructor
        · rintro ⟨v, hv, hw⟩ hp
          obtain ⟨a, ha, rfl⟩ := (hmem v).1 hv
          rw [hasWildcard_subs (hsub a ha)] at hw
          obtain ⟨cs, rfl⟩ := hp a ha
          simp [Sub.isLit] at hw
        · intro hp
          apply Classical.byContradiction
          intro hn
          apply hp
          intro a ha
          apply allLit_map
          have := hasWildcard_subs (hsub a ha)
          cases hal : a.all Sub.isLit with
          | true => rfl
          | false =>
            rw [hal] at this
            exact absurd ⟨_, (hmem _).2 ⟨a, ha, rfl⟩, this⟩ hn
      cases hp : plainAlts alts with
      | true =>
        rw [hp] at hstar
        have hstar' : (listScan {} (v0 :: v1 :: vs)).hasStar = false := hstar
        obtain ⟨m1, m2, m3⟩ := listScan_min {} _ hstar'
        obtain ⟨x1, x2⟩ := listScan_max {} _ hstar'
        have hmx : ({} : ListScan).maxLen = 0 := rfl
        rw [hmx] at x2
        -- the minimum is zero exactly when the first value is empty
        have hnn : 0 ≤ (listScan {} (v0 :: v1 :: vs)).minLen := by
          rcases m3 with h | ⟨v, _, h⟩
          · rw [h]; decide
          · omega
        have hz : (listScan {} (v0 :: v1 :: vs)).minLen = 0 → v0 = [] := by
          intro h0
          rcases m3 with h | ⟨v, hv, h⟩
          · rw [h0] at h; exact absurd h (by decide)
          · have hv' : v = [] := List.length_eq_zero_iff.1 (by omega)
            subst hv'
            rcases List.mem_cons.1 hv with h | h
            · exact h.symm
            · have := (List.pairwise_cons.1 hsorted).1 [] h
              rw [strLt_nil] at this
              cases this
        have hz' : v0 = [] → (listScan {} (v0 :: v1 :: vs)).minLen = 0 := by
          intro h
          have := m1 v0 (by simp)
          rw [h] at this hnn ⊢
          simp at this
          omega
        have hnil : ∀ v ∈ v1 :: vs, v ≠ [] := by
          intro v hv e
          subst e
          have := (List.pairwise_cons.1 hsorted).1 [] hv
          rw [strLt_nil] at this
          cases this
        -- the kept values
        let kept : List Str := if (listScan {} (v0 :: v1 :: vs)).minLen = 0 then v1 :: vs else v0 :: v1 :: vs
        have hkept : ∀ v, v ∈ kept ↔ v ≠ [] ∧ ∃ a ∈ alts, v = utf8 (renderSubs a) := by
          intro v
          show v ∈ (if (listScan {} (v0 :: v1 :: vs)).minLen = 0 then v1 :: vs else v0 :: v1 :: vs) ↔ _
          rw [← hmem]
          split
          · rename_i h0
            constructor
            · intro hv; exact ⟨hnil v hv, by simp [List.mem_cons.1 hv]⟩
            · rintro ⟨h1, h2⟩
              rcases List.mem_cons.1 h2 with h | h
              · exact absurd (h.trans (hz h0)) h1
              · exact h
          · rename_i h0
            constructor
            · intro hv
              refine ⟨?_, hv⟩
              rcases List.mem_cons.1 hv with h | h
              · intro e; exact h0 (hz' (h.symm.trans e))
              · exact hnil v h
            · exact fun h => h.2
        have hres : ∃ l : StringList, listItem (v0 :: v1 :: vs) = .inl (.ok (some (.list l))) ∧
            l.vals = kept ∧ l.minSize = (listScan {} (v0 :: v1 :: vs)).minLen ∧
            l.maxSize = (listScan {} (v0 :: v1 :: vs)).maxLen := by
          unfold listItem
          dsimp only
          rw [if_neg (by rw [hstar']; simp), if_neg (by rintro ⟨h1, h2⟩; exact h2 (hz h1))]
          by_cases has : (listScan {} (v0 :: v1 :: vs)).asciiStarted = true
          · rw [if_pos has]; exact ⟨_, rfl, rfl, rfl, rfl⟩
          · rw [if_neg has]; exact ⟨_, rfl, rfl, rfl, rfl⟩
        obtain ⟨l, hl, hlv, hlmin, hlmax⟩ := hres
        have hsem : ∀ cs, (Item.list l).Sem cs ↔ ∃ a ∈ alts, subsFit a cs := by
          intro cs
          simp only [Item.Sem]
          rw [hlv, hkept, hlmin]
          constructor
          · rintro (⟨_, a, ha, e⟩ | ⟨h0, rfl⟩)
            · obtain ⟨ws, rfl⟩ := (plainAlts_iff alts).1 hp a ha
              rw [renderSubs_lits] at e
              exact ⟨_, ha, (subsFit_lits _ _).2 (utf8_inj e)⟩
            · obtain ⟨a, ha, e⟩ := (hmem v0).1 (by simp)
              obtain ⟨ws, rfl⟩ := (plainAlts_iff alts).1 hp a ha
              rw [renderSubs_lits, hz h0] at e
              exact ⟨_, ha, (subsFit_lits _ _).2 ((utf8_eq_nil _).1 e.symm).symm⟩
          · rintro ⟨a, ha, hf⟩
            obtain ⟨ws, rfl⟩ := (plainAlts_iff alts).1 hp a ha
            rw [subsFit_lits] at hf
            subst hf
            by_cases hcs : cs = []
            · right
              refine ⟨hz' ?_, hcs⟩
              have := (hmem _).2 ⟨_, ha, rfl⟩
              rw [renderSubs_lits, hcs] at this
              rcases List.mem_cons.1 this with h | h
              · exact h.symm
              · exact absurd rfl (hnil _ h)
            · left
              exact ⟨by simpa using hcs, _, ha, by rw [renderSubs_lits]⟩
        refine ⟨some (.list l), .list hp ⟨?_, ?_, ?_⟩ hsem ?_ ?_ ?_ ?_ ?_ ?_ ?_ ?_, ?_⟩
        · intro v hv
          rw [hlv, hkept] at hv
          obtain ⟨h1, a, ha, rfl⟩ := hv
          refine ⟨renderSubs a, rfl, ?_⟩
          intro e
          rw [e] at h1
          exact h1 rfl
        · intro v hv
          rw [hlv, hkept, ← hmem] at hv
          rw [hlmin]
          exact m1 v hv.2
        · intro h; rw [hlmin] at h ⊢; omega
        · intro h0
          rw [hlmin] at h0
          obtain ⟨a, ha, e⟩ := (hmem v0).1 (by simp)
          rw [hz h0] at e
          have : a = [] := by
            apply Classical.byContradiction
            intro h
            exact renderSubs_ne_nil h ((utf8_eq_nil _).1 e.symm)
          rw [← this]; exact ha
        · rw [hlmax]; exact x2
        · rintro cs ⟨a, ha, hf⟩
          obtain ⟨ws, rfl⟩ := (plainAlts_iff alts).1 hp a ha
          rw [subsFit_lits] at hf
          subst hf
          rw [hlmax]
          have := x1 _ ((hmem _).2 ⟨_, ha, rfl⟩)
          rw [renderSubs_lits] at this
          exact this
        · rw [hlmin]; exact hnn
        · exact hlen2
        · rw [hlv]
          show (if (listScan {} (v0 :: v1 :: vs)).minLen = 0 then v1 :: vs else v0 :: v1 :: vs) ≠ []
          split <;> simp
        · rw [hlv]
          show (if (listScan {} (v0 :: v1 :: vs)).minLen = 0 then v1 :: vs else v0 :: v1 :: vs).Pairwise _
          split
          · exact (List.pairwise_cons.1 hsorted).2
          · exact hsorted
        · obtain ⟨a, ha, e0⟩ := (hmem v0).1 (by simp)
          obtain ⟨b, hb, e1⟩ := (hmem v1).1 (by simp)
          refine ⟨a, ha, b, hb, ?_⟩
          rintro rfl
          have hlt := (List.pairwise_cons.1 hsorted).1 v1 (by simp)
          rw [e0, e1] at hlt
          simp [strLt, strLe_refl] at hlt
        · rw [hl]
          rfl
      | false =>
        rw [hp] at hstar
        have hstar' : (listScan {} (v0 :: v1 :: vs)).hasStar = true := hstar
        have hl : listItem (v0 :: v1 :: vs) = .inr () := by
          unfold listItem
          dsimp only
          rw [if_pos hstar']
        rw [hl] at ht ⊢
        dsimp only at ht ⊢
        obtain ⟨as, has1, has2⟩ := exists_preimages (fun a => utf8 (renderSubs a)) alts
          (v0 :: v1 :: vs) (fun v hv => (hmem v).1 hv)
        rw [← has1] at ht ⊢
        have hmemas : ∀ a, a ∈ as ↔ a ∈ alts := by
          intro a
          refine ⟨has2 a, fun ha => ?_⟩
          have := (hmem _).2 ⟨a, ha, rfl⟩
          rw [← has1, List.mem_map] at this
          obtain ⟨a', ha', e⟩ := this
          rw [← renderSubs_inj (hsub a' (has2 a' ha')) (hsub a ha) (utf8_inj e)]
          exact ha'
        have htg : newGroup fuel (as.map fun a => utf8 (renderSubs a)) [] ≠ .timeout := by
          intro e
          rw [e] at ht
          exact ht rfl
        obtain ⟨g1, g2⟩ := newGroup_raw fuel as [] (fun a ha => hsub a (has2 a ha)) htg
        by_cases hst : [.star] ∈ alts
        · rw [g1 ((hmemas _).2 hst)]
          exact ⟨_, .star hp hst, rfl⟩
        · obtain ⟨its, h1, hlen, h2, h3⟩ := g2 (fun h => hst ((hmemas _).1 h))
          rw [h1]
          have hitsne : its ≠ [] := by
            rintro rfl
            have : as.length = 2 + vs.length := by
              rw [← List.length_map (fun a => utf8 (renderSubs a)), has1]
              simp; omega
            simp at hlen
            omega
          cases its with
          | nil => exact absurd rfl hitsne
          | cons x xs =>
            obtain ⟨s1, s2, s3, s4, s5⟩ := groupSizes_spec xs x.minLen x.maxLen
            refine ⟨_, AltResS.group (vals := x :: xs)
              (mn := (groupSizes xs (x.minLen, x.maxLen)).1)
              (mx := (groupSizes xs (x.minLen, x.maxLen)).2) hlen2 hst ?_ ?_ ?_ ?_ ?_ ?_ (fun _ => hp), rfl⟩
            · intro a ha
              exact h2 a ((hmemas a).2 ha)
            · intro v hv
              obtain ⟨a, ha, h⟩ := h3 v hv
              exact ⟨a, (hmemas a).1 ha, h⟩
            · intro v hv
              rcases List.mem_cons.1 hv with rfl | hv
              · exact s1
              · exact s2 v hv
            · rcases s3 with h | ⟨y, hy, h⟩
              · exact ⟨x, by simp, h⟩
              · exact ⟨y, by simp [hy], h⟩
            · rintro ⟨v, hv, h⟩
              rcases List.mem_cons.1 hv with rfl | hv
              · exact s4 (Or.inl h)
              · exact s4 (Or.inr ⟨v, hv, h⟩)
            · intro hall
              obtain ⟨j1, j2⟩ := s5 (hall x (by simp)) (fun y hy => hall y (by simp [hy]))
              intro v hv
              rcases List.mem_cons.1 hv with rfl | hv
              · exact j1
              · exact j2 v hv

end GoMatcher
