import Verif.Proofs.Random
import Verif.Spec.Branch

/-! # Every alternative can be drawn by `WriteRandom` -/

namespace GoMatcher

/-! ## Only the random numbers used matter -/

mutual
theorem writeRandom_local (x : Item) (ω : Nat → Nat) (i j : Nat) (s : Str)
    (h : Item.writeRandom ω x i = .ok (s, j)) :
    ∃ n, j = i + n ∧ ∀ ω' i', (∀ k, k < n → ω' (i' + k) = ω (i + k)) →
      Item.writeRandom ω' x i' = .ok (s, i' + n) := by
  cases x with
  | str w | byte b | rune r | any m | star m =>
    rw [Item.writeRandom] at h
    simp only [R.ok.injEq, Prod.mk.injEq] at h
    refine ⟨0, h.2.symm, fun ω' i' _ => ?_⟩
    rw [Item.writeRandom, h.1]
    rfl
  | ranges rs =>
    rw [Item.writeRandom, RunesRanges.writeRandom] at h
    obtain ⟨⟨k, i1⟩, h1, h⟩ := R.bind_eq_ok.1 h
    unfold randIntn at h1
    split at h1
    · cases h1
    · rename_i hne
      simp only [R.ok.injEq, Prod.mk.injEq] at h1
      dsimp only at h
      refine ⟨1, ?_, fun ω' i' hw => ?_⟩
      · split at h
        · simp only [R.ok.injEq, Prod.mk.injEq] at h
          omega
        · cases h
      · rw [Item.writeRandom, RunesRanges.writeRandom]
        unfold randIntn
        rw [if_neg hne]
        simp only [R.bind_ok]
        have := hw 0 (by omega)
        rw [Nat.add_zero, Nat.add_zero] at this
        rw [this, h1.1]
        split at h
        · simp only [R.ok.injEq, Prod.mk.injEq] at h
          rw [← h.1]
        · cases h
  | list l =>
    rw [Item.writeRandom, StringList.writeRandom] at h
    obtain ⟨⟨k, i1⟩, h1, h⟩ := R.bind_eq_ok.1 h
    unfold randIntn at h1
    split at h1
    · cases h1
    · rename_i hne
      simp only [R.ok.injEq, Prod.mk.injEq] at h1
      dsimp only at h
      refine ⟨1, ?_, fun ω' i' hw => ?_⟩
      · split at h
        · simp only [R.ok.injEq, Prod.mk.injEq] at h
          omega
        · cases h
      · rw [Item.writeRandom, StringList.writeRandom]
        unfold randIntn
        rw [if_neg hne]
        simp only [R.bind_ok]
        have := hw 0 (by omega)
        rw [Nat.add_zero, Nat.add_zero] at this
        rw [this, h1.1]
        split at h
        · simp only [R.ok.injEq, Prod.mk.injEq] at h
          rw [← h.1]
        · cases h
  | group vals mn mx =>
    rw [Item.writeRandom] at h
    obtain ⟨⟨k, i1⟩, h1, h⟩ := R.bind_eq_ok.1 h
    unfold randIntn at h1
    split at h1
    · cases h1
    · rename_i hne
      simp only [R.ok.injEq, Prod.mk.injEq] at h1
      obtain ⟨rfl, rfl⟩ := h1
      obtain ⟨n, hn, hl⟩ := writeNth_local vals _ ω _ j s h
      refine ⟨n + 1, by omega, fun ω' i' hw => ?_⟩
      rw [Item.writeRandom]
      unfold randIntn
      rw [if_neg hne]
      simp only [R.bind_ok]
      have := hw 0 (by omega)
      rw [Nat.add_zero, Nat.add_zero] at this
      rw [this, hl ω' (i' + 1)]
      · rw [show i' + 1 + n = i' + (n + 1) by omega]
      · intro k hk
        have := hw (k + 1) (by omega)
        rwa [show i' + 1 + k = i' + (k + 1) by omega, show i + 1 + k = i + (k + 1) by omega]
  | chain items mn mx =>
    rw [Item.writeRandom] at h
    obtain ⟨n, hn, hl⟩ := writeRandoms_local items ω i j s h
    refine ⟨n, hn, fun ω' i' hw => ?_⟩
    rw [Item.writeRandom]
    exact hl ω' i' hw
theorem writeNth_local (xs : List Item) (m : Nat) (ω : Nat → Nat) (i j : Nat) (s : Str)
    (h : Item.writeNth ω xs m i = .ok (s, j)) :
    ∃ n, j = i + n ∧ ∀ ω' i', (∀ k, k < n → ω' (i' + k) = ω (i + k)) →
      Item.writeNth ω' xs m i' = .ok (s, i' + n) := by
  cases xs with
  | nil => rw [Item.writeNth] at h; cases h
  | cons x xs =>
    cases m with
    | zero =>
      rw [Item.writeNth] at h
      obtain ⟨n, hn, hl⟩ := writeRandom_local x ω i j s h
      refine ⟨n, hn, fun ω' i' hw => ?_⟩
      rw [Item.writeNth]
      exact hl ω' i' hw
    | succ m =>
      rw [Item.writeNth] at h
      obtain ⟨n, hn, hl⟩ := writeNth_local xs m ω i j s h
      refine ⟨n, hn, fun ω' i' hw => ?_⟩
      rw [Item.writeNth]
      exact hl ω' i' hw
theorem writeRandoms_local (xs : List Item) (ω : Nat → Nat) (i j : Nat) (s : Str)
    (h : Item.writeRandoms ω xs i = .ok (s, j)) :
    ∃ n, j = i + n ∧ ∀ ω' i', (∀ k, k < n → ω' (i' + k) = ω (i + k)) →
      Item.writeRandoms ω' xs i' = .ok (s, i' + n) := by
  cases xs with
  | nil =>
    rw [Item.writeRandoms] at h
    simp only [R.ok.injEq, Prod.mk.injEq] at h
    refine ⟨0, h.2.symm, fun ω' i' _ => ?_⟩
    rw [Item.writeRandoms, h.1]
    rfl
  | cons x xs =>
    rw [Item.writeRandoms] at h
    obtain ⟨⟨a, i1⟩, h1, h⟩ := R.bind_eq_ok.1 h
    obtain ⟨⟨b, i2⟩, h2, h⟩ := R.bind_eq_ok.1 h
    simp only [R.ok.injEq, Prod.mk.injEq] at h
    obtain ⟨n, hn, hl⟩ := writeRandom_local x ω i i1 a h1
    obtain ⟨m, hm, hl'⟩ := writeRandoms_local xs ω i1 i2 b h2
    refine ⟨n + m, by omega, fun ω' i' hw => ?_⟩
    rw [Item.writeRandoms, hl ω' i' (fun k hk => hw k (by omega))]
    simp only [R.bind_ok]
    rw [hl' ω' (i' + n)]
    · simp only [R.bind_ok]
      rw [h.1, show i' + n + m = i' + (n + m) by omega]
    · intro k hk
      have := hw (n + k) (by omega)
      rw [hn]
      rwa [show i' + n + k = i' + (n + k) by omega, show i + n + k = i + (n + k) by omega]
end

/-! ## Choices among items -/

/-- `y` is `x` or one of its values. -/
inductive Sel : Item → Item → Prop
  | self (x : Item) : Sel x x
  | list {l : StringList} {v : Str} (h : v ∈ l.vals) : Sel (.list l) (.str v)
  | group {vals : List Item} {mn mx : Int} {v : Item} (h : v ∈ vals) : Sel (.group vals mn mx) v

/-- A choice for every item. -/
inductive Sels : List Item → List Item → Prop
  | nil : Sels [] []
  | cons {x y : Item} {xs ys : List Item} (h : Sel x y) (hr : Sels xs ys) : Sels (x :: xs) (y :: ys)

theorem Sels.append_inv {a b c : List Item} (h : Sels (a ++ b) c) :
    ∃ c1 c2, c = c1 ++ c2 ∧ Sels a c1 ∧ Sels b c2 := by
  induction a generalizing c with
  | nil => exact ⟨[], c, rfl, .nil, h⟩
  | cons x a ih =>
    rw [List.cons_append] at h
    cases h with
    | cons hx hr =>
      obtain ⟨c1, c2, rfl, h1, h2⟩ := ih hr
      exact ⟨_ :: c1, c2, rfl, .cons hx h1, h2⟩

theorem IsLit.sel {x y : Item} {ws : List Char} (h : IsLit x ws) (hs : Sel x y) : y = x := by
  cases hs with
  | self => rfl
  | list => exact h.elim
  | group => exact h.elim

theorem LitsAre.sels {xs ys : List Item} {ws : List Char} (h : LitsAre xs ws) (hs : Sels xs ys) :
    ys = xs := by
  induction h generalizing ys with
  | nil => cases hs; rfl
  | cons h _ ih =>
    cases hs with
    | cons h1 h2 => rw [h.sel h1, ih h2]

/-- The chosen item can be written. -/
theorem sel_write {x y : Item} (h : Sel x y) (hg : Gen y) :
    ∃ n cs, y.Sem cs ∧ ∃ ω : Nat → Nat, ∀ ω' i', (∀ k, k < n → ω' (i' + k) = ω k) →
      Item.writeRandom ω' x i' = .ok (utf8 cs, i' + n) := by
  obtain ⟨cs, j, h1, h2⟩ := hg (fun _ => 0) 0
  obtain ⟨n, hn, hl⟩ := writeRandom_local y _ _ _ _ h1
  cases h with
  | self =>
    exact ⟨n, cs, h2, fun _ => 0, fun ω' i' hw => hl ω' i' hw⟩
  | @list l v h =>
    obtain ⟨k, hk, rfl⟩ := List.getElem_of_mem h
    have hv : l.vals[k] = utf8 cs := by
      rw [Item.writeRandom] at h1
      simp only [R.ok.injEq, Prod.mk.injEq] at h1
      exact h1.1
    refine ⟨1, cs, h2, fun _ => k, fun ω' i' hw => ?_⟩
    have h0 := hw 0 (by omega)
    rw [Nat.add_zero] at h0
    rw [Item.writeRandom, StringList.writeRandom]
    unfold randIntn
    rw [if_neg (by omega), h0]
    simp only [R.bind_ok, Nat.mod_eq_of_lt hk, List.getElem?_eq_getElem hk, hv]
  | @group vals mn mx v h =>
    obtain ⟨m, hm, rfl⟩ := List.getElem_of_mem h
    refine ⟨n + 1, cs, h2, fun k => if k = 0 then m else 0, fun ω' i' hw => ?_⟩
    dsimp only at hw
    have h0 := hw 0 (by omega)
    rw [Nat.add_zero, if_pos rfl] at h0
    rw [Item.writeRandom]
    unfold randIntn
    rw [if_neg (by omega), h0]
    simp only [R.bind_ok, Nat.mod_eq_of_lt hm]
    rw [writeNth_eq _ _ _ _ hm, hl ω' (i' + 1), show i' + 1 + n = i' + (n + 1) by omega]
    intro k hk
    have := hw (k + 1) (by omega)
    rw [if_neg (by omega)] at this
    rwa [show i' + 1 + k = i' + (k + 1) by omega]

theorem sels_write {xs ys : List Item} (h : Sels xs ys) (hg : ∀ y ∈ ys, Gen y) :
    ∃ n cs, SeqSem ys cs ∧ ∃ ω : Nat → Nat, ∀ ω' i', (∀ k, k < n → ω' (i' + k) = ω k) →
      Item.writeRandoms ω' xs i' = .ok (utf8 cs, i' + n) := by
  induction h with
  | nil => exact ⟨0, [], rfl, fun _ => 0, fun ω' i' _ => by rw [Item.writeRandoms]; rfl⟩
  | cons h _ ih =>
    obtain ⟨n, a, ha, ω1, h1⟩ := sel_write h (hg _ (by simp))
    obtain ⟨m, b, hb, ω2, h2⟩ := ih (fun y hy => hg y (by simp [hy]))
    refine ⟨n + m, a ++ b, ⟨a, b, rfl, ha, hb⟩, fun k => if k < n then ω1 k else ω2 (k - n), fun ω' i' hw => ?_⟩
    dsimp only at hw
    rw [Item.writeRandoms, h1 ω' i']
    · simp only [R.bind_ok]
      rw [h2 ω' (i' + n)]
      · simp only [R.bind_ok, utf8_append]
        rw [show i' + n + m = i' + (n + m) by omega]
      · intro k hk
        have := hw (n + k) (by omega)
        rw [if_neg (by omega), show n + k - n = k by omega] at this
        rwa [show i' + n + k = i' + (n + k) by omega]
    · intro k hk
      have := hw k (by omega)
      rwa [if_pos hk] at this

/-! ## Choices and merging -/

theorem merge_sel {x y m x' y' : Item} (h : mergeItem x y = some m) (hx : Sel x x') (hy : Sel y y') :
    x' = x ∧ y' = y := by
  constructor
  · cases hx with
    | self => rfl
    | list => cases y <;> simp [mergeItem] at h
    | group => cases y <;> simp [mergeItem] at h
  · cases hy with
    | self => rfl
    | list => cases x <;> simp [mergeItem] at h
    | group => cases x <;> simp [mergeItem] at h

theorem normAux_sels (ys : List Item) : ∀ (x x' : Item) (ys' : List Item), Sel x x' → Sels ys ys' → LitWF x →
    (∀ y ∈ ys, LitWF y) → Gen x' → (∀ y ∈ ys', Gen y) →
    ∃ n', Sels (normAux x ys) n' ∧ (∀ cs, SeqSem n' cs ↔ SeqSem (x' :: ys') cs) ∧ ∀ z ∈ n', Gen z := by
  induction ys with
  | nil =>
    intro x x' ys' hx hys _ _ hg _
    cases hys
    exact ⟨[x'], .cons hx .nil, fun _ => Iff.rfl, by simpa using hg⟩
  | cons y ys ih =>
    intro x x' ys' hx hys hwx hwy hg hgs
    cases hys with
    | @cons _ y' _ ys' hy hr =>
      unfold normAux
      have hwy1 := hwy y (by simp)
      have hwy2 : ∀ z ∈ ys, LitWF z := fun z hz => hwy z (by simp [hz])
      cases hm : mergeItem x y with
      | none =>
        obtain ⟨n', h1, h2, h3⟩ := ih y y' ys' hy hr hwy1 hwy2 (hgs _ (by simp)) (fun z hz => hgs z (by simp [hz]))
        refine ⟨x' :: n', .cons hx h1, ?_, ?_⟩
        · intro cs
          simp only [SeqSem] at h2 ⊢
          simp only [h2]
        · intro z hz
          rcases List.mem_cons.1 hz with rfl | hz
          · exact hg
          · exact h3 z hz
      | some m =>
        obtain ⟨rfl, rfl⟩ := merge_sel hm hx hy
        obtain ⟨hm1, hm2⟩ := mergeItem_sem hwx hwy1 hm
        obtain ⟨n', h1, h2, h3⟩ := ih m m ys' (.self m) hr hm1 hwy2 (mergeItem_gen hwx hwy1 hm).2
          (fun z hz => hgs z (by simp [hz]))
        refine ⟨n', h1, ?_, h3⟩
        intro cs
        rw [h2]
        simp only [SeqSem]
        constructor
        · rintro ⟨a, b, rfl, h1, h2⟩
          obtain ⟨c, d, rfl, h3, h4⟩ := (hm2 a).1 h1
          exact ⟨c, d ++ b, by simp, h3, d, b, rfl, h4, h2⟩
        · rintro ⟨c, e, rfl, h3, d, b, rfl, h4, h2⟩
          exact ⟨c ++ d, b, by simp, (hm2 _).2 ⟨c, d, rfl, h3, h4⟩, h2⟩

theorem norm_sels {xs ys : List Item} (h : Sels xs ys) (hw : ∀ x ∈ xs, LitWF x) (hg : ∀ y ∈ ys, Gen y) :
    ∃ n', Sels (norm xs) n' ∧ (∀ cs, SeqSem n' cs ↔ SeqSem ys cs) ∧ ∀ z ∈ n', Gen z := by
  cases h with
  | nil => exact ⟨[], .nil, fun _ => Iff.rfl, by simp⟩
  | cons h hr =>
    exact normAux_sels _ _ _ _ h hr (hw _ (by simp)) (fun y hy => hw y (by simp [hy])) (hg _ (by simp))
      (fun y hy => hg y (by simp [hy]))

/-! ## Choices among tokens -/

theorem Branch.append_inv {a b u : List Tok} (h : Branch (a ++ b) u) :
    ∃ u1 u2, u = u1 ++ u2 ∧ Branch a u1 ∧ Branch b u2 := by
  induction a generalizing u with
  | nil => exact ⟨[], u, rfl, .nil, h⟩
  | cons t a ih =>
    rw [List.cons_append] at h
    cases h with
    | sub hr =>
      obtain ⟨u1, u2, rfl, h1, h2⟩ := ih hr
      exact ⟨_ :: u1, u2, rfl, .sub h1, h2⟩
    | alt ha hc hr =>
      obtain ⟨u1, u2, rfl, h1, h2⟩ := ih hr
      exact ⟨_ ++ u1, u2, by simp, .alt ha hc h1, h2⟩

theorem Branch.subs {c : List Sub} {u : List Tok} (h : Branch (c.map .sub) u) : u = c.map .sub := by
  induction c generalizing u with
  | nil => cases h; rfl
  | cons s c ih =>
    rw [List.map_cons] at h ⊢
    cases h with
    | sub hr => rw [ih hr]

theorem AltRes.sel {alts : List (List Sub)} {it : Item} (h : AltRes alts (some it)) {a : List Sub}
    (ha : a ∈ alts) (hc : Choosable alts a) (hs : ∀ s ∈ a, s.Sampled) :
    ∃ y, Sel it y ∧ (∀ cs, y.Sem cs ↔ subsFit a cs) ∧ Gen y := by
  cases h with
  | @lit _ ws _ h hl =>
    refine ⟨it, .self _, fun cs => ?_, hl.gen⟩
    rw [hl.sem, h a ha, subsFit_lits]
  | @list l hp hw hsem h0 _ _ _ h2 hv =>
    have hlit : a.all Sub.isLit = true := by
      unfold plainAlts at hp
      exact List.all_eq_true.1 hp a ha
    obtain ⟨ws, rfl⟩ : ∃ ws : List Char, a = ws.map .lit := allLit_map hlit
    have hfit := (hsem ws).2 ⟨_, ha, (subsFit_lits _ _).2 rfl⟩
    rw [Item.Sem] at hfit
    have hmem : utf8 ws ∈ l.vals := by
      rcases hfit with h | ⟨_, rfl⟩
      · exact h
      · exfalso
        rcases hc.2 rfl with h | h
        · rw [hp] at h; cases h
        · apply hv
          apply Classical.byContradiction
          intro hne
          obtain ⟨v, hv⟩ := List.exists_mem_of_ne_nil _ hne
          obtain ⟨vs, rfl, hvs⟩ := hw.vals v hv
          obtain ⟨b, hb, hbf⟩ := (hsem vs).1 (by rw [Item.Sem]; exact Or.inl hv)
          rw [h b hb] at hbf
          exact hvs hbf
    refine ⟨.str (utf8 ws), .list hmem, fun cs => ?_, IsLit.gen (ws := ws) rfl⟩
    rw [subsFit_lits, IsLit.sem (it := .str (utf8 ws)) (ws := ws) rfl]
  | star _ h =>
    obtain rfl := hc.1 h
    refine ⟨.star 0, .self _, fun cs => ?_, gen_star 0⟩
    exact Chunk.sem (Chunk.stars 0) cs
  | group _ _ h1 _ _ _ _ _ =>
    obtain ⟨v, hv, hav⟩ := h1 a ha
    exact ⟨v, .group hv, fun cs => hav.sem cs, hav.gen hs⟩

theorem RawToks.branch {ts : List Tok} {raws : List Item} (h : RawToks ts raws) :
    ∀ {us : List Tok}, Branch ts us → (∀ u ∈ us, u.Sampled) →
    ∃ ys, Sels raws ys ∧ (∀ cs, SeqSem ys cs ↔ Fits us cs) ∧ ∀ y ∈ ys, Gen y := by
  induction h with
  | nil =>
    intro us hb _
    cases hb
    exact ⟨[], .nil, fun _ => Iff.rfl, by simp⟩
  | @chunk c it ts raws h _ ih =>
    intro us hb hs
    obtain ⟨u1, u2, rfl, h1, h2⟩ := hb.append_inv
    obtain rfl := h1.subs
    obtain ⟨ys, k1, k2, k3⟩ := ih h2 (fun u hu => hs u (by simp [hu]))
    refine ⟨it :: ys, .cons (.self _) k1, fun cs => ?_, fun y hy => ?_⟩
    · rw [fits_append]
      simp only [SeqSem, fits_subs, k2, h.sem]
    · rcases List.mem_cons.1 hy with rfl | hy
      · exact h.gen (fun s hs' => hs (.sub s) (by simp [hs']))
      · exact k3 y hy
  | @skip alts ts raws _ h _ ih =>
    intro us hb hs
    cases hb with
    | alt ha _ hr =>
      obtain rfl := h _ ha
      exact ih hr hs
  | @alt alts it ts raws _ h _ ih =>
    intro us hb hs
    cases hb with
    | @alt _ a _ us ha hc hr =>
      obtain ⟨y, y1, y2, y3⟩ := h.sel ha hc (fun s hs' => hs (.sub s) (by simp [hs']))
      obtain ⟨ys, k1, k2, k3⟩ := ih hr (fun u hu => hs u (by simp [hu]))
      refine ⟨y :: ys, .cons y1 k1, fun cs => ?_, fun z hz => ?_⟩
      · rw [fits_append]
        simp only [SeqSem, fits_subs, k2, y2]
      · rcases List.mem_cons.1 hz with rfl | hz
        · exact y3
        · exact k3 z hz

/-- Every branch of a glob is drawn with suitable random numbers. -/
theorem GlobOk.branch {ts us : List Tok} {g : Glob} (h : GlobOk ts g) (hb : Branch ts us)
    (hs : ∀ u ∈ us, u.Sampled) :
    ∃ P S, g.pref = utf8 P ∧ g.suff = utf8 S ∧
      ∃ ω w j, g.writeRandom ω 0 = .ok (utf8 w, j) ∧ Fits us (P ++ w ++ S) := by
  obtain ⟨l0, mid, l1, raws, lits, rest, tail, W, V, e, hr, f1, f2, f3, f4, f5, f6⟩ := h.layout
  rw [e] at hb
  obtain ⟨u1, u2, rfl, b1, hb⟩ := hb.append_inv
  obtain ⟨u2, u3, rfl, b2, b3⟩ := hb.append_inv
  obtain rfl := b1.subs
  obtain rfl := b3.subs
  obtain ⟨ys, k1, k2, k3⟩ := hr.branch b2 (fun u hu => hs u (by simp [hu]))
  rw [f1] at k1
  obtain ⟨y1, y2, rfl, s1, s2⟩ := k1.append_inv
  obtain rfl := f2.sels s1
  obtain ⟨n', n1, n2, n3⟩ := norm_sels s2 (fun x hx => hr.litWF x (by rw [f1]; simp [hx]))
    (fun y hy => k3 y (by simp [hy]))
  rw [f3] at n1
  obtain ⟨i1, i2, rfl, m1, m2⟩ := n1.append_inv
  obtain rfl := f4.sels m2
  obtain ⟨n, w, hw, ω, hω⟩ := sels_write m1 (fun y hy => n3 y (by simp [hy]))
  have hfit : Fits ((l0.map Sub.lit).map Tok.sub ++ (u2 ++ (l1.map Sub.lit).map Tok.sub))
      ((l0 ++ W) ++ w ++ (V ++ l1)) := by
    refine (fits_append _ _ _).2 ⟨l0, W ++ w ++ V ++ l1, by simp, (fits_lits _ _).2 rfl, ?_⟩
    refine (fits_append _ _ _).2 ⟨W ++ w ++ V, l1, rfl, ?_, (fits_lits _ _).2 rfl⟩
    rw [← k2]
    refine (seqSem_append _ _ _).2 ⟨W, w ++ V, by simp, (f2.sem _).2 rfl, ?_⟩
    rw [← n2]
    exact (seqSem_append _ _ _).2 ⟨w, V, rfl, hw, (f4.sem _).2 rfl⟩
  by_cases hi : g.items = []
  · obtain ⟨hp, hsf⟩ := h.bare hi
    refine ⟨[], [], by rw [hp]; rfl, by rw [hsf]; rfl, ω, (l0 ++ W) ++ (V ++ l1), 0, ?_, ?_⟩
    · rw [Glob.writeRandom, if_pos (by simp [hi]), f6 hi]
    · rw [hi] at m1
      cases m1
      rw [show w = [] from hw] at hfit
      simpa using hfit
  · obtain ⟨hp, hsf⟩ := f5 hi
    refine ⟨l0 ++ W, V ++ l1, hp, hsf, ω, w, n, ?_, hfit⟩
    rw [Glob.writeRandom, if_neg (by simpa using hi), hω ω 0 (fun k _ => by rw [Nat.zero_add])]
    simp

end GoMatcher
