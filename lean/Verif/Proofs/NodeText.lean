import Verif.Proofs.ParseToks
import Verif.Proofs.NodeClass

/-! # The normal form of a glob is a glob with the same meaning -/

namespace GoMatcher

/-! ## Items that are written as simple tokens -/

inductive SubItem (inb : Bool) : Item → Prop
  | lit {x : Item} {ws : List Char} (h : IsLit x ws) (hq : ∀ c ∈ ws, (Sub.lit c).Ok inb) :
      SubItem inb x
  | any (n : Nat) : SubItem inb (.any n)
  | star (n : Nat) : SubItem inb (.star n)
  | cls {rs : RunesRanges} {es : List ClassElt} (hok : (Sub.cls es).Ok inb)
      (hw : rs.writeString = utf8 (Sub.render (.cls es)))
      (hm : ∀ c, rs.contains c = true ↔ ClassMem es c) : SubItem inb (.ranges rs)

/-- `x` is written as the simple tokens `ss` and means the same. -/
structure RunText (inb : Bool) (x : List Item) (ss : List Sub) : Prop where
  ok : ∀ s ∈ ss, s.Ok inb
  write : Item.writeItems x = utf8 (renderSubs ss)
  sem : ∀ cs, subsFit ss cs ↔ SeqSem x cs

theorem subsFit_anys (n : Nat) (cs : List Char) :
    subsFit (List.replicate n .any) cs ↔ cs.length = n := by
  induction n generalizing cs with
  | zero => simp [subsFit]
  | succ n ih =>
    rw [List.replicate_succ]
    simp only [subsFit, Sub.Fits]
    constructor
    · rintro ⟨a, b, rfl, h1, h2⟩
      rw [ih] at h2
      simp [h1, h2]; omega
    · intro h
      cases cs with
      | nil => simp at h
      | cons c cs => exact ⟨[c], cs, rfl, rfl, (ih cs).2 (by simpa using h)⟩

theorem renderSubs_anys (n : Nat) :
    utf8 (renderSubs (List.replicate n .any)) = List.replicate n 63 := by
  induction n with
  | zero => rfl
  | succ n ih =>
    rw [List.replicate_succ, renderSubs_cons, utf8_append, ih]
    rfl

theorem isLit_write {x : Item} {ws : List Char} (h : IsLit x ws) : x.writeString = utf8 ws := by
  cases x with
  | str w => simp only [IsLit] at h; simp [Item.writeString, h]
  | byte b => simp only [IsLit] at h; simp [Item.writeString, h.1]
  | rune r =>
    obtain ⟨c, rfl, rfl, _⟩ := h
    simp [Item.writeString, utf8]
  | _ => exact h.elim

theorem SubItem.text {inb : Bool} {x : Item} (h : SubItem inb x) : ∃ ss, RunText inb [x] ss := by
  have w1 : ∀ x : Item, Item.writeItems [x] = x.writeString := by
    intro x; simp [Item.writeItems]
  cases h with
  | @lit _ ws h hq =>
    refine ⟨ws.map .lit, ?_, ?_, ?_⟩
    · intro s hs
      obtain ⟨c, hc, rfl⟩ := List.mem_map.1 hs
      exact hq c hc
    · rw [w1, isLit_write h, renderSubs_lits]
    · intro cs
      rw [subsFit_lits, seqSem_singleton, h.sem]
  | any n =>
    refine ⟨List.replicate n .any, ?_, ?_, ?_⟩
    · intro s hs; rw [List.eq_of_mem_replicate hs]; trivial
    · rw [w1, renderSubs_anys]; rfl
    · intro cs; rw [subsFit_anys, seqSem_singleton]; simp [Item.Sem]
  | star n =>
    refine ⟨.star :: List.replicate n .any, ?_, ?_, ?_⟩
    · intro s hs
      rcases List.mem_cons.1 hs with rfl | hs
      · trivial
      · rw [List.eq_of_mem_replicate hs]; trivial
    · rw [w1, renderSubs_cons, utf8_append, renderSubs_anys]; rfl
    · intro cs
      rw [seqSem_singleton]
      simp only [subsFit, Sub.Fits, true_and, subsFit_anys, Item.Sem]
      constructor
      · rintro ⟨a, b, rfl, h⟩; simp; omega
      · intro h
        exact ⟨cs.take (cs.length - n), cs.drop (cs.length - n), by simp, by simp; omega⟩
  | @cls rs es hok hw hm =>
    refine ⟨[.cls es], ?_, ?_, ?_⟩
    · intro s hs; rw [List.mem_singleton.1 hs]; exact hok
    · rw [w1]
      show rs.writeString = _
      rw [hw]
      simp [renderSubs]
    · intro cs
      rw [subsFit_single, seqSem_singleton]
      simp only [Sub.Fits, Item.Sem, hm]

theorem RunText.append {inb : Bool} {x y : List Item} {a b : List Sub} (h1 : RunText inb x a)
    (h2 : RunText inb y b) : RunText inb (x ++ y) (a ++ b) where
  ok := by
    intro s hs
    rcases List.mem_append.1 hs with h | h
    · exact h1.ok s h
    · exact h2.ok s h
  write := by
    have : ∀ u v : List Item, Item.writeItems (u ++ v) = Item.writeItems u ++ Item.writeItems v := by
      intro u v
      induction u with
      | nil => rfl
      | cons x u ih => simp [Item.writeItems, ih]
    rw [this, h1.write, h2.write, ← utf8_append]
    simp [renderSubs]
  sem := by
    intro cs
    rw [subsFit_append, seqSem_append]
    simp only [h1.sem, h2.sem]

theorem subItems_text {inb : Bool} {xs : List Item} (h : ∀ x ∈ xs, SubItem inb x) :
    ∃ ss, RunText inb xs ss := by
  induction xs with
  | nil => exact ⟨[], by simp, rfl, fun cs => Iff.rfl⟩
  | cons x xs ih =>
    obtain ⟨a, ha⟩ := (h x (by simp)).text
    obtain ⟨b, hb⟩ := ih (fun y hy => h y (by simp [hy]))
    exact ⟨a ++ b, by simpa using ha.append hb⟩

/-! ## Merging keeps the form -/

theorem nonLit_subItem {inb : Bool} {x : Item} (h : SubItem inb x) :
    (∃ ws, IsLit x ws ∧ ∀ c ∈ ws, (Sub.lit c).Ok inb) ∨ NonLit x := by
  cases h with
  | lit h hq => exact Or.inl ⟨_, h, hq⟩
  | any n => exact Or.inr (nonLit_any n)
  | star n => exact Or.inr (nonLit_star n)
  | cls => exact Or.inr (nonLit_ranges _)

theorem mergeItem_subItem {inb : Bool} {x y m : Item} (hx : SubItem inb x) (hy : SubItem inb y)
    (h : mergeItem x y = some m) : SubItem inb m := by
  rcases nonLit_subItem hx with ⟨u, hu, qu⟩ | nx
  · rcases nonLit_subItem hy with ⟨v, hv, qv⟩ | ny
    · rw [mergeItem_lit hu hv] at h
      cases h
      refine .lit (ws := u ++ v) rfl ?_
      intro c hc
      rcases List.mem_append.1 hc with hc | hc
      · exact qu c hc
      · exact qv c hc
    · rw [mergeItem_lit_non hu ny] at h; cases h
  · rcases nonLit_subItem hy with ⟨v, hv, qv⟩ | ny
    · rw [mergeItem_non_lit nx hv] at h; cases h
    · cases x <;> first | (simp [NonLit, litBytes] at nx; done) | skip
      all_goals cases y <;> first | (simp [NonLit, litBytes] at ny; done) | skip
      all_goals first | (simp [mergeItem] at h; done) | skip
      all_goals
        simp only [mergeItem, Option.some.injEq] at h
        subst h
        first | exact .any _ | exact .star _

theorem normAux_closed {P : Item → Prop}
    (hP : ∀ x y m, P x → P y → mergeItem x y = some m → P m)
    (x : Item) (ys : List Item) (hx : P x) (hy : ∀ y ∈ ys, P y) : ∀ z ∈ normAux x ys, P z := by
  induction ys generalizing x with
  | nil => intro z hz; rw [List.mem_singleton.1 hz]; exact hx
  | cons y ys ih =>
    unfold normAux
    have hy2 : ∀ z ∈ ys, P z := fun z hz => hy z (by simp [hz])
    cases hm : mergeItem x y with
    | some m => exact ih m (hP x y m hx (hy y (by simp)) hm) hy2
    | none =>
      intro z hz
      rcases List.mem_cons.1 hz with rfl | hz
      · exact hx
      · exact ih y (hy y (by simp)) hy2 z hz

theorem norm_closed {P : Item → Prop}
    (hP : ∀ x y m, P x → P y → mergeItem x y = some m → P m)
    (xs : List Item) (h : ∀ x ∈ xs, P x) : ∀ z ∈ norm xs, P z := by
  cases xs with
  | nil => intro z hz; cases hz
  | cons x xs => exact normAux_closed hP x xs (h x (by simp)) (fun y hy => h y (by simp [hy]))

/-! ## Parsed pieces -/

theorem mem_specials {c : Char} (h : isSpecial c = true) : c ∈ specials := by
  unfold isSpecial at h
  unfold specials
  simp only [Bool.or_eq_true, decide_eq_true_eq] at h
  simp only [List.mem_cons, List.not_mem_nil, or_false]
  rcases h with ((((h | h) | h) | h) | h) | h <;> simp [h]

theorem only_of_single {es : List ClassElt} {c : Char} (hok : ∀ e ∈ es, e.Ok)
    (h : ∀ d : Char, ClassMem es d.toNat → d = c) : es.all (ClassElt.only c) = true := by
  rw [List.all_eq_true]
  intro e he
  have hoke := hok e he
  cases e with
  | one d =>
    have := h d ⟨_, he, by simp [ClassElt.Mem]⟩
    simp [ClassElt.only, this]
  | range a b =>
    simp only [ClassElt.Ok] at hoke
    have ha := h a ⟨_, he, by simp only [ClassElt.Mem]; omega⟩
    have hb := h b ⟨_, he, by simp only [ClassElt.Mem]; omega⟩
    simp [ClassElt.only, ha, hb]

theorem clsItem_subItem {inb : Bool} {es : List ClassElt} {it : Item} (h : ClsItem es it)
    (hok : (Sub.cls es).Ok inb) (ht : TidyClass es) : SubItem inb it := by
  obtain ⟨o1, o2, o3, o4⟩ := hok
  rcases h.kind with ⟨c, hc⟩ | ⟨rs, rfl, _⟩
  · refine .lit hc ?_
    have hmem : ∀ d : Char, ClassMem es d.toNat ↔ d = c := by
      intro d
      have h1 := h.sem [d]
      rw [hc.sem] at h1
      constructor
      · intro hd
        have := h1.2 ⟨d, rfl, hd⟩
        simpa using this
      · rintro rfl
        obtain ⟨e, he, hm⟩ := h1.1 rfl
        simp only [List.cons.injEq, and_true] at he
        rw [he]; exact hm
    have honly : es.all (ClassElt.only c) = true := only_of_single o2 (fun d hd => (hmem d).1 hd)
    have hmem2 : c ∈ es.flatMap ClassElt.render ∧ c.toNat ≠ 0xFFFD := by
      cases es with
      | nil => exact absurd rfl o1
      | cons e es =>
        rw [List.all_cons, Bool.and_eq_true] at honly
        have h2 := o2 e (by simp)
        have h3 := honly.1
        unfold ClassElt.only at h3
        simp only [Bool.or_eq_true, decide_eq_true_eq] at h3
        rcases h3 with rfl | rfl
        · exact ⟨by simp [ClassElt.render], h2.2⟩
        · exact ⟨by simp [ClassElt.render], h2.2.2.1⟩
    intro d hd
    rw [List.mem_singleton.1 hd]
    refine ⟨?_, ?_, fun hb => ((o4 c hmem2.1).2 hb).1⟩
    · cases hsp : isSpecial c with
      | false => rfl
      | true =>
        have := ht.1 c (mem_specials hsp)
        rw [honly] at this
        cases this
    · simpa [isFF] using hmem2.2
  · have hs := h.cls rs rfl
    obtain ⟨es', q1, q2, q3, q4⟩ := class_write o2 o3 ht hs
    refine .cls (es := es') ⟨?_, q1, by rw [q3]; exact o3, ?_⟩ q2 (fun c => by rw [hs.mem, q3])
    · rintro rfl
      obtain ⟨c, hc, _⟩ := class_endpoint o1 o2
      have := (q3 c.toNat).2 hc
      obtain ⟨e, he, _⟩ := this
      cases he
    · intro c hc
      rcases q4 c hc with rfl | h'
      · exact ⟨by decide, fun _ => ⟨by decide, by decide⟩⟩
      · exact o4 c h'

theorem chunk_subItem {inb : Bool} {c : List Sub} {it : Item} (h : Chunk c it)
    (hok : ∀ s ∈ c, s.Ok inb) (ht : ∀ s ∈ c, s.Tidy) : SubItem inb it := by
  cases h with
  | @lits cs _ hne h => exact .lit h (fun c hc => hok (.lit c) (by simp [hc]))
  | any => exact .any 1
  | stars k => exact .star 0
  | @cls es _ h => exact clsItem_subItem h (hok (.cls es) (by simp)) (ht (.cls es) (by simp))

theorem rawSubs_subItem {inb : Bool} {ss : List Sub} {raws : List Item} (h : RawSubs ss raws)
    (hok : ∀ s ∈ ss, s.Ok inb) (ht : ∀ s ∈ ss, s.Tidy) : ∀ x ∈ raws, SubItem inb x := by
  induction h with
  | nil => intro x hx; cases hx
  | cons h _ ih =>
    intro x hx
    rcases List.mem_cons.1 hx with rfl | hx
    · exact chunk_subItem h (fun s hs => hok s (by simp [hs])) (fun s hs => ht s (by simp [hs]))
    · exact ih (fun s hs => hok s (by simp [hs])) (fun s hs => ht s (by simp [hs])) x hx

theorem writeItems_groupItems (v : Item) : Item.writeItems (groupItems v) = v.writeString := by
  cases v <;> simp [groupItems, Item.writeItems, Item.writeString]

theorem litItem_text {inb : Bool} {x : Item} {ws : List Char} (h : IsLit x ws)
    (hq : ∀ c ∈ ws, (Sub.lit c).Ok inb) : RunText inb [x] (ws.map .lit) where
  ok := by
    intro s hs
    obtain ⟨c, hc, rfl⟩ := List.mem_map.1 hs
    exact hq c hc
  write := by rw [renderSubs_lits, ← isLit_write h]; simp [Item.writeItems]
  sem := by intro cs; rw [subsFit_lits, seqSem_singleton, h.sem]

theorem litItems_text {inb : Bool} {xs : List Item}
    (h : ∀ x ∈ xs, ∃ ws, IsLit x ws ∧ ∀ c ∈ ws, (Sub.lit c).Ok inb) :
    ∃ w : List Char, RunText inb xs (w.map .lit) := by
  induction xs with
  | nil => exact ⟨[], by simp, rfl, fun cs => Iff.rfl⟩
  | cons x xs ih =>
    obtain ⟨u, h1, h2⟩ := h x (by simp)
    obtain ⟨v, hv⟩ := ih (fun y hy => h y (by simp [hy]))
    refine ⟨u ++ v, ?_⟩
    rw [List.map_append]
    exact (litItem_text h1 h2).append hv

/-- The items of literal text. -/
theorem rawSubs_words {a : List Sub} {raws : List Item} (h : RawSubs a raws)
    (ha : ∀ s ∈ a, ∃ c, s = .lit c) : ∀ x ∈ raws, ¬ NonLit x := by
  induction h with
  | nil => simp
  | @cons c it ss raws h _ ih =>
    intro x hx
    rcases List.mem_cons.1 hx with rfl | hx
    · cases h with
      | lits hne hl => cases x <;> first | exact hl.elim | exact fun h => by simp [NonLit, litBytes] at h
      | any => obtain ⟨c, e⟩ := ha .any (by simp); cases e
      | stars k => obtain ⟨c, e⟩ := ha .star (by simp); cases e
      | @cls es _ _ => obtain ⟨c, e⟩ := ha (.cls es) (by simp); cases e
    · exact ih (fun s hs => ha s (by simp [hs])) x hx

theorem altItem_text {a : List Sub} {v : Item} (h : AltItem a v) (hok : ∀ s ∈ a, s.Ok true)
    (ht : ∀ s ∈ a, s.Tidy) : ∃ ss, (∀ s ∈ ss, s.Ok true) ∧ v.writeString = utf8 (renderSubs ss) ∧
      (∀ cs, subsFit ss cs ↔ subsFit a cs) ∧
      ((∃ w : List Char, a = w.map .lit) → ∃ w : List Char, ss = w.map .lit) := by
  obtain ⟨raws, hr, hg⟩ := h.raw
  have hsub : ∀ x ∈ raws, SubItem true x := by
    rcases hr with ⟨h, _⟩ | ⟨_, rfl⟩
    · exact rawSubs_subItem h hok ht
    · intro x hx
      rw [List.mem_singleton.1 hx]
      exact .lit (ws := []) rfl (by simp)
  have hsub' := norm_closed (fun x y m => mergeItem_subItem) raws hsub
  obtain ⟨ss, ⟨h1, h2, h3⟩, h4⟩ : ∃ ss, RunText true (norm raws) ss ∧
      ((∃ w : List Char, a = w.map .lit) → ∃ w : List Char, ss = w.map .lit) := by
    by_cases hw : ∃ w : List Char, a = w.map .lit
    · obtain ⟨w, e⟩ := hw
      have hl : ∀ x ∈ raws, ¬ NonLit x := by
        rcases hr with ⟨h, _⟩ | ⟨_, rfl⟩
        · exact rawSubs_words h (fun s hs => by
            rw [e] at hs
            obtain ⟨c, _, rfl⟩ := List.mem_map.1 hs
            exact ⟨c, rfl⟩)
        · intro x hx
          rw [List.mem_singleton.1 hx]
          exact fun h => by simp [NonLit, litBytes] at h
      have hl' := norm_closed (P := fun x => SubItem true x ∧ ¬ NonLit x) (by
        rintro x y m ⟨hx, nx⟩ ⟨hy, ny⟩ hm
        refine ⟨mergeItem_subItem hx hy hm, ?_⟩
        obtain ⟨u, hu, _⟩ := (nonLit_subItem hx).resolve_right nx
        obtain ⟨v, hv, _⟩ := (nonLit_subItem hy).resolve_right ny
        rw [mergeItem_lit hu hv] at hm
        cases hm
        exact fun h => by simp [NonLit, litBytes] at h) raws (fun x hx => ⟨hsub x hx, hl x hx⟩)
      obtain ⟨w', hw'⟩ := litItems_text (inb := true) (xs := norm raws) (fun x hx =>
        (nonLit_subItem (hl' x hx).1).resolve_right (hl' x hx).2)
      exact ⟨_, hw', fun _ => ⟨w', rfl⟩⟩
    · obtain ⟨ss, hss⟩ := subItems_text hsub'
      exact ⟨ss, hss, fun h => absurd h hw⟩
  refine ⟨ss, h1, ?_, ?_, h4⟩
  · rw [← writeItems_groupItems, hg, h2]
  · intro cs
    rw [h3, norm_sem _ hr.litWF, hr.sem]

/-! ## Braces -/

theorem writeAlts_true (vs : List Item) :
    Item.writeAlts true vs = vs.flatMap fun v => 44 :: v.writeString := by
  induction vs with
  | nil => rfl
  | cons v vs ih => simp [Item.writeAlts, ih]

theorem writeVals_true (vs : List Str) : Item.writeVals true vs = vs.flatMap fun v => 44 :: v := by
  induction vs with
  | nil => rfl
  | cons v vs ih => simp [Item.writeVals, ih]

theorem renderAlts_cons (a : List Sub) (as : List (List Sub)) :
    utf8 (renderAlts (a :: as)) = utf8 (renderSubs a) ++ as.flatMap fun b => 44 :: utf8 (renderSubs b) := by
  induction as generalizing a with
  | nil => simp [renderAlts]
  | cons b as ih =>
    rw [renderAlts, utf8_append, utf8_ascii_cons (by decide), ih, List.flatMap_cons]
    rfl

theorem render_alt (alts : List (List Sub)) :
    utf8 (Tok.render (.alt alts)) = 123 :: utf8 (renderAlts alts) ++ [125] := by
  show utf8 (('{' :: renderAlts alts) ++ ['}']) = _
  rw [utf8_append, utf8_ascii_cons (by decide)]
  rfl

/-- A single item is written as tokens with its meaning. -/
structure ItemText (x : Item) (nts : List Tok) : Prop where
  ok : ∀ t ∈ nts, t.Written
  write : x.writeString = utf8 (renderGlob nts)
  sem : ∀ cs, Fits nts cs ↔ x.Sem cs

theorem SubItem.itemText {x : Item} (h : SubItem false x) :
    ∃ nts, ItemText x nts ∧ ∀ t ∈ nts, ∃ s, t = .sub s := by
  obtain ⟨ss, h1, h2, h3⟩ := h.text
  refine ⟨ss.map .sub, ⟨?_, ?_, ?_⟩, ?_⟩
  · intro t ht
    obtain ⟨s, hs, rfl⟩ := List.mem_map.1 ht
    exact h1 s hs
  · rw [renderGlob_subs, ← h2]; simp [Item.writeItems]
  · intro cs; rw [fits_subs, h3, seqSem_singleton]
  · intro t ht
    obtain ⟨s, hs, rfl⟩ := List.mem_map.1 ht
    exact ⟨s, rfl⟩

theorem fits_alt (alts : List (List Sub)) (cs : List Char) :
    Fits [.alt alts] cs ↔ ∃ a ∈ alts, subsFit a cs := by
  simp only [Fits]
  constructor
  · rintro ⟨a, b, rfl, h, rfl⟩; simpa [Tok.Fits] using h
  · intro h; exact ⟨cs, [], by simp, h, rfl⟩

/-- The written alternatives of a group. -/
theorem group_text {B : Prop} {vals : List Item}
    (h : ∀ v ∈ vals, ∃ ss, (∀ s ∈ ss, s.Ok true) ∧
      v.writeString = utf8 (renderSubs ss) ∧ (∀ cs, subsFit ss cs ↔ v.Sem cs) ∧
      (B → ∃ w : List Char, ss = w.map .lit)) :
    ∃ nas : List (List Sub), (∀ a ∈ nas, ∀ s ∈ a, s.Ok true) ∧
      (B → ∀ a ∈ nas, ∃ w : List Char, a = w.map .lit) ∧
      vals.map Item.writeString = nas.map (fun a => utf8 (renderSubs a)) ∧
      (∀ ss ∈ nas, ∃ v ∈ vals, ∀ cs, subsFit ss cs ↔ v.Sem cs) ∧
      (∀ v ∈ vals, ∃ ss ∈ nas, ∀ cs, subsFit ss cs ↔ v.Sem cs) := by
  induction vals with
  | nil => exact ⟨[], by simp, by simp, rfl, by simp, by simp⟩
  | cons v vals ih =>
    obtain ⟨nas, i1, i0, i2, i3, i4⟩ := ih (fun w hw => h w (by simp [hw]))
    obtain ⟨ss, h1, h2, h3, h0⟩ := h v (by simp)
    refine ⟨ss :: nas, ?_, ?_, by simp [h2, i2], ?_, ?_⟩
    · intro b hb
      rcases List.mem_cons.1 hb with rfl | hb
      · exact h1
      · exact i1 b hb
    · intro hB b hb
      rcases List.mem_cons.1 hb with rfl | hb
      · exact h0 hB
      · exact i0 hB b hb
    · intro b hb
      rcases List.mem_cons.1 hb with rfl | hb
      · exact ⟨v, by simp, h3⟩
      · obtain ⟨w, hw, e⟩ := i3 b hb
        exact ⟨w, by simp [hw], e⟩
    · intro w hw
      rcases List.mem_cons.1 hw with rfl | hw
      · exact ⟨ss, by simp, h3⟩
      · obtain ⟨b, hb, e⟩ := i4 w hw
        exact ⟨b, by simp [hb], e⟩

theorem writeAlts_render {vals : List Item} {nas : List (List Sub)}
    (h : vals.map Item.writeString = nas.map (fun a => utf8 (renderSubs a))) :
    Item.writeAlts false vals = utf8 (renderAlts nas) := by
  cases vals with
  | nil =>
    cases nas with
    | nil => rfl
    | cons a nas => simp at h
  | cons v vals =>
    cases nas with
    | nil => simp at h
    | cons a nas =>
      simp only [List.map_cons, List.cons.injEq] at h
      rw [renderAlts_cons, Item.writeAlts, writeAlts_true, h.1]
      simp only [Bool.false_eq_true, if_false, List.nil_append]
      congr 1
      have e1 := List.flatMap_map Item.writeString (fun s : Str => 44 :: s) (l := vals)
      have e2 := List.flatMap_map (fun a => utf8 (renderSubs a)) (fun s : Str => 44 :: s) (l := nas)
      rw [← e1, ← e2, h.2]

/-- The item of braces is written as tokens with the meaning of the braces; if two of the
alternatives differ in meaning, the written form can be parsed again. -/
theorem altRes_text {alts : List (List Sub)} {it : Item} (hne : alts ≠ [])
    (h : AltRes alts (some it)) (hok : ∀ a ∈ alts, ∀ s ∈ a, s.Ok true)
    (ht : ∀ a ∈ alts, ∀ s ∈ a, s.Tidy) :
    SubItem false it ∨
    (NonLit it ∧ Alone it ∧ ∃ nts, ItemText it nts ∧
      (plainAlts alts = true ∨ TwoMeanings alts → ∀ t ∈ nts, t.Ok)) := by
  cases h with
  | @lit _ ws hw h hl =>
    obtain ⟨a, ha⟩ := List.exists_mem_of_ne_nil _ hne
    left
    refine .lit hl ?_
    intro c hc
    exact (hok a ha (.lit c) (by rw [h a ha]; simp [hc])).weaken
  | @list l hp hw hsem h0 hmx hmax hmin h2 =>
    right
    refine ⟨nonLit_list l, alone_list l, ?_⟩
    -- the words
    have hwords : ∀ v ∈ l.vals, ∃ ws : List Char, v = utf8 ws ∧ ∀ c ∈ ws, (Sub.lit c).Ok true := by
      intro v hv
      obtain ⟨ws, rfl, _⟩ := hw.vals v hv
      refine ⟨ws, rfl, ?_⟩
      obtain ⟨a, ha, hf⟩ := (hsem ws).1 (Or.inl hv)
      obtain ⟨us, rfl⟩ := (plainAlts_iff alts).1 hp a ha
      rw [subsFit_lits] at hf
      subst hf
      intro c hc
      exact hok _ ha (.lit c) (by simp [hc])
    have hlist : ∀ vs : List Str, (∀ v ∈ vs, ∃ ws : List Char, v = utf8 ws ∧ ∀ c ∈ ws, (Sub.lit c).Ok true) →
        ∃ nas : List (List Char), vs = nas.map utf8 ∧ ∀ a ∈ nas, ∀ c ∈ a, (Sub.lit c).Ok true := by
      intro vs hvs
      induction vs with
      | nil => exact ⟨[], rfl, by simp⟩
      | cons v vs ih =>
        obtain ⟨nas, e, hn⟩ := ih (fun w hw => hvs w (by simp [hw]))
        obtain ⟨ws, rfl, hq⟩ := hvs v (by simp)
        refine ⟨ws :: nas, by simp [e], ?_⟩
        intro a ha
        rcases List.mem_cons.1 ha with rfl | ha
        · exact hq
        · exact hn a ha
    obtain ⟨nas, e, hn⟩ := hlist l.vals hwords
    -- with the empty alternative
    have hall : ∃ was : List (List Char), was ≠ [] ∧ (∀ a ∈ was, ∀ c ∈ a, (Sub.lit c).Ok true) ∧
        Item.writeVals (l.minSize = 0) l.vals = utf8 (renderAlts (was.map fun a => a.map Sub.lit)) ∧
        ∀ cs, cs ∈ was ↔ (Item.list l).Sem cs := by
      have hmem : ∀ cs : List Char, utf8 cs ∈ l.vals ↔ cs ∈ nas := by
        intro cs
        rw [e, List.mem_map]
        constructor
        · rintro ⟨a, ha, e⟩; rw [← utf8_inj e]; exact ha
        · intro h; exact ⟨cs, h, rfl⟩
      have hrest : ∀ l : List (List Char), (l.map fun a => a.map Sub.lit).flatMap
          (fun b => 44 :: utf8 (renderSubs b)) = (l.map utf8).flatMap fun v => 44 :: v := by
        intro l
        rw [List.flatMap_map, List.flatMap_map]
        congr 1
        funext a
        rw [renderSubs_lits]
      by_cases hz : l.minSize = 0
      · refine ⟨[] :: nas, by simp, ?_, ?_, ?_⟩
        · intro a ha
          rcases List.mem_cons.1 ha with rfl | ha
          · simp
          · exact hn a ha
        · rw [List.map_cons, renderAlts_cons, hrest, ← e]
          simp only [hz, decide_true, writeVals_true]
          rfl
        · intro cs
          simp only [Item.Sem, hz, hmem, List.mem_cons, true_and]
          exact or_comm
      · have hnn : nas ≠ [] := by
          rintro rfl
          obtain ⟨a, ha⟩ := List.exists_mem_of_ne_nil _ hne
          obtain ⟨ws, rfl⟩ := (plainAlts_iff alts).1 hp a ha
          have := (hsem ws).2 ⟨_, ha, (subsFit_lits _ _).2 rfl⟩
          simp only [Item.Sem, hmem, hz, false_and, or_false] at this
          cases this
        refine ⟨nas, hnn, hn, ?_, ?_⟩
        · obtain ⟨a, as, rfl⟩ := List.exists_cons_of_ne_nil hnn
          rw [List.map_cons, renderAlts_cons, hrest, e]
          simp only [hz, decide_false, List.map_cons, Item.writeVals, writeVals_true, renderSubs_lits]
          simp
        · intro cs
          simp only [Item.Sem, hz, hmem, false_and, or_false]
    obtain ⟨was, w1, w2, w3, w4⟩ := hall
    have hw : (Tok.alt (was.map fun a => a.map Sub.lit)).Written := by
      refine ⟨by simpa using w1, ?_⟩
      intro a ha s hs
      obtain ⟨b, hb, rfl⟩ := List.mem_map.1 ha
      obtain ⟨c, hc, rfl⟩ := List.mem_map.1 hs
      exact w2 b hb c hc
    refine ⟨[.alt (was.map fun a => a.map Sub.lit)], ⟨?_, ?_, ?_⟩, ?_⟩
    · intro t ht
      rw [List.mem_singleton.1 ht]
      exact hw
    · rw [renderGlob_cons, renderGlob, List.flatMap_nil, List.append_nil, render_alt, ← w3]
      rfl
    · intro cs
      rw [fits_alt, ← w4]
      constructor
      · rintro ⟨a, ha, hf⟩
        obtain ⟨b, hb, rfl⟩ := List.mem_map.1 ha
        rw [subsFit_lits] at hf
        rw [hf]; exact hb
      · intro h
        exact ⟨_, List.mem_map.2 ⟨cs, h, rfl⟩, (subsFit_lits _ _).2 rfl⟩
    · intro _ t ht
      rw [List.mem_singleton.1 ht]
      refine ⟨hw.1, hw.2, Or.inl ?_⟩
      rw [plainAlts_iff]
      intro a ha
      obtain ⟨b, hb, rfl⟩ := List.mem_map.1 ha
      exact ⟨b, rfl⟩
  | star hp h => exact Or.inl (.star 0)
  | @group vals mn mx hp h h1 h2 hmn hmn' hinf hfin =>
    right
    refine ⟨nonLit_group vals mn mx, alone_group vals mn mx, ?_⟩
    obtain ⟨nas, g1, g0, g2, g3, g4⟩ := group_text (B := plainAlts alts = true) (vals := vals) (by
      intro v hv
      obtain ⟨a, ha, hav⟩ := h2 v hv
      obtain ⟨ss, s1, s2, s3, s4⟩ := altItem_text hav (hok a ha) (ht a ha)
      exact ⟨ss, s1, s2, fun cs => by rw [s3, hav.sem],
        fun hB => s4 ((plainAlts_iff alts).1 hB a ha)⟩)
    have hnn : nas ≠ [] := by
      rintro rfl
      obtain ⟨a, ha⟩ := List.exists_mem_of_ne_nil _ hne
      obtain ⟨v, hv, _⟩ := h1 a ha
      obtain ⟨b, hb, _⟩ := g4 v hv
      cases hb
    refine ⟨[.alt nas], ⟨?_, ?_, ?_⟩, ?_⟩
    · intro t ht
      rw [List.mem_singleton.1 ht]
      exact ⟨hnn, g1⟩
    · rw [renderGlob_cons, renderGlob, List.flatMap_nil, List.append_nil, render_alt,
        ← writeAlts_render g2]
      rfl
    · intro cs
      rw [fits_alt]
      simp only [Item.Sem]
      rw [anySem_iff]
      constructor
      · rintro ⟨a, ha, hf⟩
        obtain ⟨v, hv, e⟩ := g3 a ha
        exact ⟨v, hv, (e cs).1 hf⟩
      · rintro ⟨v, hv, hf⟩
        obtain ⟨a, ha, e⟩ := g4 v hv
        exact ⟨a, ha, (e cs).2 hf⟩
    · intro hd t ht
      rw [List.mem_singleton.1 ht]
      refine ⟨hnn, g1, ?_⟩
      rcases hd with hd | ⟨a, ha, b, hb, hab⟩
      · exact Or.inl ((plainAlts_iff nas).2 (g0 hd))
      · right
        obtain ⟨va, hva, ea⟩ := h1 a ha
        obtain ⟨vb, hvb, eb⟩ := h1 b hb
        obtain ⟨sa, hsa, fa⟩ := g4 va hva
        obtain ⟨sb, hsb, fb⟩ := g4 vb hvb
        refine ⟨sa, hsa, sb, hsb, ?_⟩
        intro e
        have := renderSubs_inj (g1 sa hsa) (g1 sb hsb) e
        apply hab
        intro cs
        rw [← ea.sem, ← fa, this, fb, eb.sem]

/-! ## All items of a glob -/

/-- What is known about every item of a glob: it is a simple item, or (`B`: the glob has
braces) it is written as braces, which can be parsed again if `D` holds. -/
def TopItem (B D : Prop) (x : Item) : Prop :=
  SubItem false x ∨ (B ∧ NonLit x ∧ Alone x ∧ ∃ nts, ItemText x nts ∧ (D → ∀ t ∈ nts, t.Ok))

theorem TopItem.mono {B B' D D' : Prop} {x : Item} (h : TopItem B D x) (hB : B → B') (hD : D' → D) :
    TopItem B' D' x := by
  rcases h with h | ⟨b, h1, h2, nts, h3, h4⟩
  · exact Or.inl h
  · exact Or.inr ⟨hB b, h1, h2, nts, h3, fun d => h4 (hD d)⟩

theorem TopItem.merge {B D : Prop} {x y m : Item} (hx : TopItem B D x) (hy : TopItem B D y)
    (h : mergeItem x y = some m) : TopItem B D m := by
  rcases hx with hx | ⟨_, _, hx, _⟩
  · rcases hy with hy | ⟨_, _, hy, _⟩
    · exact Or.inl (mergeItem_subItem hx hy h)
    · rw [(hy x).2] at h; cases h
  · rw [(hx y).1] at h; cases h

/-- The glob has braces. -/
def HasAlt (ts : List Tok) : Prop := ∃ alts, Tok.alt alts ∈ ts

/-- Braces with wildcards have two alternatives of different meaning. -/
def AltsDiffer (ts : List Tok) : Prop :=
  ∀ alts, Tok.alt alts ∈ ts → plainAlts alts = true ∨ TwoMeanings alts

theorem rawToks_top {ts : List Tok} {raws : List Item} (h : RawToks ts raws)
    (hok : ∀ t ∈ ts, t.Ok) (ht : ∀ t ∈ ts, t.Tidy) :
    ∀ x ∈ raws, TopItem (HasAlt ts) (AltsDiffer ts) x := by
  induction h with
  | nil => intro x hx; cases hx
  | @chunk c it ts raws h hr ih =>
    have step : ∀ x ∈ raws, TopItem (HasAlt (c.map Tok.sub ++ ts)) (AltsDiffer (c.map Tok.sub ++ ts)) x := by
      intro x hx
      exact (ih (fun t h => hok t (by simp [h])) (fun t h => ht t (by simp [h])) x hx).mono
        (fun ⟨a, ha⟩ => ⟨a, by simp [ha]⟩) (fun h a ha => h a (by simp [ha]))
    intro x hx
    rcases List.mem_cons.1 hx with rfl | hx
    · exact Or.inl (chunk_subItem h (fun s hs => hok (.sub s) (by simp [hs]))
        (fun s hs => ht (.sub s) (by simp [hs])))
    · exact step x hx
  | @skip alts ts raws hne h hr ih =>
    intro x hx
    exact (ih (fun t h => hok t (by simp [h])) (fun t h => ht t (by simp [h])) x hx).mono
      (fun ⟨a, ha⟩ => ⟨a, by simp [ha]⟩) (fun h a ha => h a (by simp [ha]))
  | @alt alts it ts raws hne h hr ih =>
    intro x hx
    rcases List.mem_cons.1 hx with rfl | hx
    · rcases altRes_text hne h (hok (.alt alts) (by simp)).2.1 (ht (.alt alts) (by simp)) with
        h | ⟨h1, h2, nts, h3, h4⟩
      · exact Or.inl h
      · exact Or.inr ⟨⟨alts, by simp⟩, h1, h2, nts, h3, fun d => h4 (d alts (by simp))⟩
    · exact (ih (fun t h => hok t (by simp [h])) (fun t h => ht t (by simp [h])) x hx).mono
        (fun ⟨a, ha⟩ => ⟨a, by simp [ha]⟩) (fun h a ha => h a (by simp [ha]))

theorem topItem_text {B D : Prop} {x : Item} (h : TopItem B D x) :
    ∃ nts, ItemText x nts ∧ (D → ∀ t ∈ nts, t.Ok) ∧ (¬ B → ∀ t ∈ nts, ∃ s, t = .sub s) := by
  rcases h with h | ⟨b, _, _, nts, h1, h2⟩
  · obtain ⟨nts, h1, h2⟩ := h.itemText
    refine ⟨nts, h1, fun _ t ht => ?_, fun _ => h2⟩
    obtain ⟨s, rfl⟩ := h2 t ht
    exact h1.ok _ ht
  · exact ⟨nts, h1, h2, fun nb => absurd b nb⟩

theorem topItems_text {B D : Prop} {xs : List Item} (h : ∀ x ∈ xs, TopItem B D x) :
    ∃ nts, (∀ t ∈ nts, t.Written) ∧ Item.writeItems xs = utf8 (renderGlob nts) ∧
      (∀ cs, Fits nts cs ↔ SeqSem xs cs) ∧ (D → ∀ t ∈ nts, t.Ok) ∧
      (¬ B → ∀ t ∈ nts, ∃ s, t = .sub s) := by
  induction xs with
  | nil => exact ⟨[], by simp, rfl, fun cs => Iff.rfl, by simp, by simp⟩
  | cons x xs ih =>
    obtain ⟨a, a1, a2, a3⟩ := topItem_text (h x (by simp))
    obtain ⟨b, b1, b2, b3, b4, b5⟩ := ih (fun y hy => h y (by simp [hy]))
    refine ⟨a ++ b, ?_, ?_, ?_, ?_, ?_⟩
    · intro t ht
      rcases List.mem_append.1 ht with ht | ht
      · exact a1.ok t ht
      · exact b1 t ht
    · rw [Item.writeItems, a1.write, b2, renderGlob_append, utf8_append]
    · intro cs
      rw [fits_append]
      simp only [SeqSem, a1.sem, b3]
    · intro d t ht
      rcases List.mem_append.1 ht with ht | ht
      · exact a2 d t ht
      · exact b4 d t ht
    · intro nb t ht
      rcases List.mem_append.1 ht with ht | ht
      · exact a3 nb t ht
      · exact b5 nb t ht

/-- The characters of a literal item. -/
def LitQ (Q : Char → Prop) (x : Item) : Prop := ∀ ws, IsLit x ws → ∀ c ∈ ws, Q c

theorem IsLit.inj {x : Item} {u v : List Char} (h1 : IsLit x u) (h2 : IsLit x v) : u = v := by
  have a := h1.bytes
  rw [h2.bytes] at a
  simp only [Option.some.injEq] at a
  exact (utf8_inj a).symm

theorem TopItem.litQ {B D : Prop} {x : Item} (h : TopItem B D x) :
    LitQ (fun c => (Sub.lit c).Ok false) x := by
  intro ws hw
  rcases h with h | ⟨_, h, _⟩
  · rcases nonLit_subItem h with ⟨us, hu, hq⟩ | hn
    · rw [hw.inj hu]; exact hq
    · unfold NonLit at hn; rw [hw.bytes] at hn; cases hn
  · unfold NonLit at h; rw [hw.bytes] at h; cases h

end GoMatcher
