import Verif.Model.Random
import Verif.Spec.Sampled
import Verif.Proofs.ParseGlob

/-! # Random samples of items -/

namespace GoMatcher

/-- Whatever the random numbers are, a text of the item is written. -/
def Gen (x : Item) : Prop :=
  ∀ ω i, ∃ cs j, Item.writeRandom ω x i = .ok (utf8 cs, j) ∧ x.Sem cs

theorem randIntn_ok (ω : Nat → Nat) (i : Nat) {n : Nat} (h : n ≠ 0) :
    ∃ k, randIntn ω i n = .ok (k, i + 1) ∧ k < n := by
  refine ⟨ω i % n, ?_, Nat.mod_lt _ (by omega)⟩
  unfold randIntn
  rw [if_neg h]

theorem IsLit.gen {it : Item} {ws : List Char} (h : IsLit it ws) : Gen it := by
  intro ω i
  refine ⟨ws, i, ?_, (h.sem ws).2 rfl⟩
  cases it with
  | str w => rw [Item.writeRandom, show w = utf8 ws from h]
  | byte b => rw [Item.writeRandom, h.1]
  | rune r =>
    obtain ⟨c, rfl, rfl, _⟩ := h
    rw [Item.writeRandom, utf8_cons]
    simp
  | _ => exact h.elim

theorem utf8_replicate_ascii (c : Char) (hc : c.toNat < 128) (n : Nat) :
    utf8 (List.replicate n c) = List.replicate n (UInt8.ofNat c.toNat) := by
  induction n with
  | zero => rfl
  | succ n ih =>
    rw [List.replicate_succ, utf8_cons, ih, encodeRune_ascii hc, List.replicate_succ]
    rfl

theorem gen_any (n : Nat) : Gen (.any n) := by
  intro ω i
  refine ⟨List.replicate n 'x', i, ?_, by simp [Item.Sem]⟩
  rw [utf8_replicate_ascii _ (by decide), Item.writeRandom]
  rfl

theorem gen_star (n : Nat) : Gen (.star n) := by
  intro ω i
  refine ⟨List.replicate n 'x' ++ List.replicate 9 'X', i, ?_, by simp [Item.Sem]⟩
  rw [utf8_append, utf8_replicate_ascii _ (by decide), utf8_replicate_ascii _ (by decide),
    Item.writeRandom]
  rfl

/-- The first code point of a merged range is a character. -/
theorem first_char {es : List ClassElt} {rs : RunesRanges}
    (hs : RunesRanges.ClassSem rs (ClassMem es)) {r : RuneRange} (hr : r ∈ rs.ranges) :
    ∃ c : Char, c.toNat = r.first ∧ ClassMem es r.first := by
  have hw := hs.sorted.wf r hr
  have h127 := hs.wf r hr
  have hin : ∀ d, 127 < d → (ClassMem es d ↔ InRanges rs.ranges d) := by
    intro d hd
    rw [← hs.mem, RunesRanges.contains_of_ge rs (by omega)]
    exact RunesRanges.containsUnicode_spec hs.sorted d
  have hmem : ClassMem es r.first := (hin _ h127).2 ⟨r, hr, by omega, hw⟩
  obtain ⟨e, he, hm⟩ := hmem
  refine (?_ : (∃ c : Char, c.toNat = r.first)).elim fun c hc => ⟨c, hc, e, he, hm⟩
  cases e with
  | one c => exact ⟨c, hm.symm⟩
  | range a b =>
    obtain ⟨h1, h2⟩ := hm
    by_cases ha : a.toNat = r.first
    · exact ⟨a, ha⟩
    by_cases h128 : r.first = 128
    · exact ⟨Char.ofNat 128, by rw [h128]; rfl⟩
    · -- the code point before it would belong to the class too
      exfalso
      have hp : ClassMem es (r.first - 1) := ⟨_, he, by simp only [ClassElt.Mem]; omega⟩
      obtain ⟨r', hr', h3, h4⟩ := (hin _ (by omega)).1 hp
      obtain ⟨i, hi, rfl⟩ := List.getElem_of_mem hr
      obtain ⟨j, hj, rfl⟩ := List.getElem_of_mem hr'
      have hsep := List.pairwise_iff_getElem.1 hs.sorted.sep
      have hw' := hs.sorted.wf _ hr'
      rcases Nat.lt_trichotomy i j with h | h | h
      · have := hsep i j hi hj h
        omega
      · subst h; omega
      · have := hsep j i hj hi h
        omega

theorem ClsItem.gen {es : List ClassElt} {it : Item} (h : ClsItem es it) (hs : ClassSampled es) :
    Gen it := by
  rcases h.kind with ⟨c, hc⟩ | ⟨rs, rfl, _⟩
  · exact hc.gen
  · have hcls := h.cls rs rfl
    obtain ⟨c, d, hcd, hc, hd⟩ := h.two rs rfl
    rcases hs with hs | ⟨e, he⟩
    · intro ω i
      have hin : ∀ d, 127 < d → (ClassMem es d ↔ InRanges rs.ranges d) := by
        intro d hd
        rw [← hcls.mem, RunesRanges.contains_of_ge rs (by omega)]
        exact RunesRanges.containsUnicode_spec hcls.sorted d
      obtain ⟨r0, hr0, _⟩ := (hin c (hs c hc)).1 hc
      have hlen : rs.ranges.length ≠ 0 := by
        intro e
        rw [List.length_eq_zero_iff.1 e] at hr0
        cases hr0
      obtain ⟨k, hk, hlt⟩ := randIntn_ok ω i hlen
      have hascii : (if rs.ascii.isEmpty then []
          else ((List.range' 1 127).map UInt8.ofNat).filter rs.ascii.contains) = [] := by
        split
        · rfl
        · rw [List.filter_eq_nil_iff]
          intro b _ hb
          have hb' := ascii_of_contains hb
          have : ClassMem es b.toNat := by
            rw [← hcls.mem, RunesRanges.contains_of_lt rs (by omega)]
            simpa using hb
          have := hs _ this
          omega
      obtain ⟨ch, hch, hm⟩ := first_char hcls (List.getElem_mem hlt)
      refine ⟨[ch], i + 1, ?_, ?_⟩
      · rw [Item.writeRandom, RunesRanges.writeRandom, hk]
        simp only [R.bind_ok, hascii, List.getElem?_eq_getElem hlt, List.nil_append]
        rw [utf8_cons, ← hch]
        simp
      · rw [h.sem]
        exact ⟨ch, rfl, by rw [hch]; exact hm⟩
    · exact absurd ((he c hc).trans (he d hd).symm) hcd

theorem Chunk.gen {c : List Sub} {it : Item} (h : Chunk c it) (hs : ∀ s ∈ c, s.Sampled) : Gen it := by
  cases h with
  | lits _ h => exact h.gen
  | any => exact gen_any 1
  | stars _ => exact gen_star 0
  | @cls es _ h => exact h.gen (hs (.cls es) (by simp))

theorem mergeItem_gen {x y m : Item} (hx : LitWF x) (hy : LitWF y) (h : mergeItem x y = some m) :
    LitWF m ∧ Gen m := by
  have hm := (mergeItem_sem hx hy h).1
  refine ⟨hm, ?_⟩
  rcases hm with hm | ⟨ws, hm⟩
  · cases x <;> cases y <;> simp only [mergeItem, Option.some.injEq, reduceCtorEq] at h <;>
      subst h <;> first | exact gen_any _ | exact gen_star _ | (simp [NonLit, litBytes] at hm)
  · exact hm.gen

theorem norm_gen {raws : List Item} (hw : ∀ x ∈ raws, LitWF x) (hg : ∀ x ∈ raws, Gen x) :
    ∀ x ∈ norm raws, Gen x := fun x hx =>
  (norm_closed (P := fun x => LitWF x ∧ Gen x) (fun _ _ _ hx hy h => mergeItem_gen hx.1 hy.1 h)
    raws (fun x hx => ⟨hw x hx, hg x hx⟩) x hx).2

theorem RawSubs.gen {ss : List Sub} {raws : List Item} (h : RawSubs ss raws)
    (hs : ∀ s ∈ ss, s.Sampled) : ∀ x ∈ raws, Gen x := by
  induction h with
  | nil => simp
  | cons h _ ih =>
    intro x hx
    rcases List.mem_cons.1 hx with rfl | hx
    · exact h.gen (fun s h => hs s (by simp [h]))
    · exact ih (fun s h => hs s (by simp [h])) x hx

theorem writeRandoms_gen {items : List Item} (h : ∀ x ∈ items, Gen x) (ω : Nat → Nat) (i : Nat) :
    ∃ cs j, Item.writeRandoms ω items i = .ok (utf8 cs, j) ∧ SeqSem items cs := by
  induction items generalizing i with
  | nil => exact ⟨[], i, rfl, rfl⟩
  | cons x xs ih =>
    obtain ⟨a, j, ha, hsa⟩ := h x (by simp) ω i
    obtain ⟨b, k, hb, hsb⟩ := ih (fun y hy => h y (by simp [hy])) j
    refine ⟨a ++ b, k, ?_, a, b, rfl, hsa, hsb⟩
    rw [Item.writeRandoms, ha]
    simp only [R.bind_ok]
    rw [hb]
    simp only [R.bind_ok, utf8_append]

theorem gen_of_groupItems {v : Item} (h : ∀ x ∈ groupItems v, Gen x) : Gen v := by
  cases v with
  | chain items mn mx =>
    intro ω i
    obtain ⟨cs, j, h1, h2⟩ := writeRandoms_gen (items := items) h ω i
    exact ⟨cs, j, by rw [Item.writeRandom]; exact h1, by rw [Item.Sem]; exact h2⟩
  | _ => exact h _ (by simp [groupItems])

theorem AltItem.gen {a : List Sub} {v : Item} (h : AltItem a v) (hs : ∀ s ∈ a, s.Sampled) : Gen v := by
  obtain ⟨raws, hr, hg⟩ := h.raw
  apply gen_of_groupItems
  rw [hg]
  refine norm_gen hr.litWF ?_
  rcases hr with ⟨hr, _⟩ | ⟨_, rfl⟩
  · exact hr.gen hs
  · intro x hx
    rw [List.mem_singleton.1 hx]
    exact IsLit.gen (ws := []) rfl

theorem writeNth_eq (ω : Nat → Nat) (vals : List Item) (k i : Nat) (h : k < vals.length) :
    Item.writeNth ω vals k i = Item.writeRandom ω vals[k] i := by
  induction vals generalizing k with
  | nil => simp at h
  | cons x xs ih =>
    cases k with
    | zero => rw [Item.writeNth]; rfl
    | succ k =>
      rw [Item.writeNth, ih k (by simpa using h)]
      rfl

theorem gen_group {vals : List Item} {mn mx : Int} (hne : vals ≠ []) (h : ∀ v ∈ vals, Gen v) :
    Gen (.group vals mn mx) := by
  intro ω i
  obtain ⟨k, hk, hlt⟩ := randIntn_ok ω i (n := vals.length) (by simpa using hne)
  obtain ⟨cs, j, h1, h2⟩ := h _ (List.getElem_mem hlt) ω (i + 1)
  refine ⟨cs, j, ?_, ?_⟩
  · rw [Item.writeRandom, hk]
    simp only [R.bind_ok]
    rw [writeNth_eq _ _ _ _ hlt, h1]
  · rw [Item.Sem]
    exact (anySem_iff _ _).2 ⟨_, List.getElem_mem hlt, h2⟩

theorem gen_list {l : StringList} (hne : l.vals ≠ []) (hv : ValsOk l.vals) : Gen (.list l) := by
  intro ω i
  obtain ⟨k, hk, hlt⟩ := randIntn_ok ω i (n := l.vals.length) (by simpa using hne)
  obtain ⟨ws, h1, _⟩ := hv _ (List.getElem_mem hlt)
  refine ⟨ws, i + 1, ?_, ?_⟩
  · rw [Item.writeRandom, StringList.writeRandom, hk]
    simp only [R.bind_ok, List.getElem?_eq_getElem hlt, h1]
  · rw [Item.Sem]
    exact Or.inl (h1 ▸ List.getElem_mem hlt)

theorem AltRes.gen {alts : List (List Sub)} {it : Item} (h : AltRes alts (some it))
    (hs : ∀ a ∈ alts, ∀ s ∈ a, s.Sampled) : Gen it := by
  cases h with
  | lit _ _ hl => exact hl.gen
  | list hp hw _ _ _ _ _ _ hv => exact gen_list hv hw.vals
  | star => exact gen_star 0
  | group hp h h1 h2 hmn hmn' hinf hfin =>
    refine gen_group ?_ ?_
    · obtain ⟨v, hv, _⟩ := hmn'
      exact List.ne_nil_of_mem hv
    · intro v hv
      obtain ⟨a, ha, hav⟩ := h2 v hv
      exact hav.gen (hs a ha)

theorem RawToks.gen {ts : List Tok} {raws : List Item} (h : RawToks ts raws)
    (hs : ∀ t ∈ ts, t.Sampled) : ∀ x ∈ raws, Gen x := by
  induction h with
  | nil => simp
  | chunk h _ ih =>
    intro x hx
    rcases List.mem_cons.1 hx with rfl | hx
    · exact h.gen (fun s h => hs (.sub s) (by simp [h]))
    · exact ih (fun s h => hs s (by simp [h])) x hx
  | skip _ _ _ ih => exact ih (fun s h => hs s (by simp [h]))
  | alt _ h _ ih =>
    intro x hx
    rcases List.mem_cons.1 hx with rfl | hx
    · exact h.gen (hs (.alt _) (by simp))
    · exact ih (fun s h => hs s (by simp [h])) x hx

theorem GlobOk.gen {ts : List Tok} {g : Glob} (h : GlobOk ts g) (hs : ∀ t ∈ ts, t.Sampled) :
    ∀ x ∈ g.items, Gen x := by
  obtain ⟨mid, raws, rest, h1, h2, h3, h4⟩ := h.origin
  intro x hx
  exact norm_gen (fun y hy => h2.litWF y (h3 y hy))
    (fun y hy => h2.gen (fun t ht => hs t (h1 t ht)) y (h3 y hy)) x (h4 x hx)

/-- Such a class is no literal. -/
theorem ClsItem.ranges {es : List ClassElt} {it : Item} (h : ClsItem es it)
    (hok : ∀ e ∈ es, e.Ok) (hs : ¬ ClassSampled es) : ∃ rs, it = .ranges rs := by
  rcases h.kind with ⟨c, hc⟩ | ⟨rs, rfl, _⟩
  · exfalso
    apply hs
    right
    have hone : ∀ d : Char, ClassMem es d.toNat → d = c := by
      intro d hd
      have := (h.sem [d]).2 ⟨d, rfl, hd⟩
      rw [hc.sem] at this
      simpa using this
    refine ⟨c.toNat, fun d ⟨e, he, hd⟩ => ?_⟩
    cases e with
    | one a =>
      rw [show d = a.toNat from hd, hone a ⟨_, he, by simp [ClassElt.Mem]⟩]
    | range a b =>
      have hab := (hok _ he).2.2.2.2.1
      have ha := hone a ⟨_, he, by simp only [ClassElt.Mem]; omega⟩
      have hb := hone b ⟨_, he, by simp only [ClassElt.Mem]; omega⟩
      rw [ha, hb] at hd
      simp only [ClassElt.Mem] at hd
      omega
  · exact ⟨rs, rfl⟩

/-- A class of several members with an ASCII member writes several bytes, the first
of them ASCII. -/
theorem ClsItem.write_long {es : List ClassElt} {it : Item} (h : ClsItem es it)
    (hok : ∀ e ∈ es, e.Ok) (hs : ¬ ClassSampled es) (h0 : ¬ ClassMem es 0)
    (ω : Nat → Nat) (i j : Nat) (s : Str)
    (hw : Item.writeRandom ω it i = .ok (s, j)) : ∃ b t, s = b :: t ∧ b.toNat < 128 ∧ t ≠ [] := by
  obtain ⟨rs, rfl⟩ := h.ranges hok hs
  have hcls := h.cls rs rfl
  have hex : ∃ a, ClassMem es a ∧ a ≤ 127 := by
    apply Classical.byContradiction
    intro hn
    apply hs
    left
    intro c hc
    apply Classical.byContradiction
    intro hlt
    exact hn ⟨c, hc, by omega⟩
  obtain ⟨a, ha, ha'⟩ := hex
  have ha0 : a ≠ 0 := by rintro rfl; exact h0 ha
  have hcon : rs.ascii.contains (UInt8.ofNat a) = true := by
    rw [← RunesRanges.contains_of_lt rs (by omega), hcls.mem]
    exact ha
  have hne : rs.ascii.isEmpty = false := by
    cases he : rs.ascii.isEmpty with
    | false => rfl
    | true =>
      rw [ASCIISet.isEmpty_contains he] at hcon
      cases hcon
  have hin : UInt8.ofNat a ∈
      ((List.range' 1 127).map UInt8.ofNat).filter rs.ascii.contains :=
    List.mem_filter.2 ⟨List.mem_map.2 ⟨a, by simp [List.mem_range'_1]; omega, rfl⟩, hcon⟩
  rw [Item.writeRandom, RunesRanges.writeRandom, hne] at hw
  obtain ⟨⟨k, i'⟩, _, hw⟩ := R.bind_eq_ok.1 hw
  dsimp only at hw
  split at hw
  · rename_i r hr
    simp only [Bool.false_eq_true, ↓reduceIte, R.ok.injEq, Prod.mk.injEq] at hw
    generalize hL : ((List.range' 1 127).map UInt8.ofNat).filter rs.ascii.contains = L at *
    cases L with
    | nil => cases hin
    | cons b L =>
      have hb : b.toNat < 128 := by
        have : b ∈ ((List.range' 1 127).map UInt8.ofNat).filter rs.ascii.contains := by
          rw [hL]; simp
        exact ascii_of_contains (List.mem_filter.1 this).2
      exact ⟨b, L ++ encodeRune r.first, hw.1.symm, hb, by simp [encodeRune_ne_nil]⟩
  · cases hw

/-- Several bytes of which the first is ASCII are not one character. -/
theorem not_single {b : UInt8} {t : Str} (hb : b.toNat < 128) (ht : t ≠ []) (c : Char) :
    utf8 [c] ≠ b :: t := by
  intro h
  obtain ⟨b', rest, he, _, _, _, h1, h2⟩ := encodeRune_shape (Char.runeOk c)
  rw [utf8_cons, he, utf8_nil, List.append_nil] at h
  injection h with e1 e2
  exact ht (e2 ▸ h1.2 (h2.1 (by rw [e1]; exact hb)))

/-- The items of a glob made of copies of one such class. -/
theorem RawToks.onlyCls {es : List ClassElt} {ts : List Tok} {raws : List Item} (h : RawToks ts raws)
    (ht : ∀ t ∈ ts, t = .sub (.cls es)) : ∀ x ∈ raws, ClsItem es x := by
  induction h with
  | nil => simp
  | chunk h _ ih =>
    intro x hx
    rcases List.mem_cons.1 hx with rfl | hx
    · cases h with
      | @lits cs _ hne h =>
        obtain ⟨c, hc⟩ := List.exists_mem_of_ne_nil cs hne
        have := ht (.sub (.lit c)) (by simp [hc])
        cases this
      | any => cases ht (.sub .any) (by simp)
      | stars k => cases ht (.sub .star) (by simp)
      | @cls es' _ h =>
        have := ht (.sub (.cls es')) (by simp)
        injection this with this
        injection this with this
        exact this ▸ h
    · exact ih (fun t h => ht t (by simp [h])) x hx
  | skip _ _ _ ih => exact ih (fun t h => ht t (by simp [h]))
  | alt _ h _ ih => cases ht _ List.mem_cons_self

theorem GlobOk.onlyCls {es : List ClassElt} {g : Glob} (h : GlobOk [.sub (.cls es)] g)
    (hok : ∀ e ∈ es, e.Ok) (hs : ¬ ClassSampled es) : ∀ x ∈ g.items, ClsItem es x := by
  obtain ⟨mid, raws, rest, h1, h2, h3, h4⟩ := h.origin
  intro x hx
  refine norm_closed (P := ClsItem es) ?_ rest (fun y hy => h2.onlyCls (by simpa using h1) y (h3 y hy)) x (h4 x hx)
  intro x y m hx hy hm
  obtain ⟨rs, rfl⟩ := hx.ranges hok hs
  cases y <;> simp [mergeItem] at hm

end GoMatcher
