import Verif.Proofs.TagFind
import Verif.Proofs.TagTree

/-! # The groups of a tag tree stay sorted -/

namespace GoMatcher

/-- The keys of the groups. -/
def groupKeys (gs : List TGroup) : List Str := gs.map Prod.fst

/-- Where the loop of `findOrAppend` stops on sorted keys. -/
theorem placeLoop_place (ks : List Str) (key : Str) (base : Nat)
    (hs : ∀ i j a b, base ≤ i → i < j → ks[i]? = some a → ks[j]? = some b → strLt a b = true)
    (fuel low high : Nat) (h1 : base ≤ low) (h2 : low ≤ high) (h3 : high < ks.length)
    (hlo : ∀ i a, base ≤ i → i < low → ks[i]? = some a → strLt a key = true)
    (hhi : ∀ i a, high < i → ks[i]? = some a → strLt key a = true) (hf : high - low < fuel) :
    ∃ r, placeLoop ks key fuel low high = .ok r ∧
      match r with
      | .ok mid => ks[mid]? = some key
      | .error h => base ≤ h ∧ h ≤ ks.length ∧
          (∀ i a, base ≤ i → i < h → ks[i]? = some a → strLt a key = true) ∧
          (∀ i a, h ≤ i → ks[i]? = some a → strLt key a = true) := by
  induction fuel generalizing low high with
  | zero => omega
  | succ fuel ih =>
    rw [placeLoop, if_pos h2]
    have hm : (low + high) / 2 < ks.length := by omega
    dsimp only
    generalize hmid : (low + high) / 2 = mid at hm
    have hk := List.getElem?_eq_getElem hm
    rw [hk]
    dsimp only
    generalize ks[mid] = k at hk
    by_cases he : key = k
    · rw [if_pos he]
      exact ⟨_, rfl, by dsimp only; rw [hk, he]⟩
    rw [if_neg he]
    by_cases hlt : strLt key k = true
    · rw [if_pos hlt]
      have hup : ∀ i a, mid ≤ i → ks[i]? = some a → strLt key a = true := by
        intro i a hi ha
        rcases Nat.eq_or_lt_of_le hi with rfl | hi
        · rw [hk] at ha; cases ha; exact hlt
        · exact strLt_trans hlt (hs mid i k a (by omega) hi hk ha)
      by_cases hl : low = mid
      · rw [if_pos hl]
        refine ⟨_, rfl, h1, by omega, fun i a hi1 hi2 ha => hlo i a hi1 hi2 ha, fun i a hi ha => ?_⟩
        exact hup i a (by omega) ha
      · rw [if_neg hl]
        exact ih low (mid - 1) h1 (by omega) (by omega) hlo (fun i a hi ha => hup i a (by omega) ha) (by omega)
    · rw [if_neg hlt]
      have hgt : strLt k key = true := by
        rcases strLt_tri key k with h | h | h
        · exact absurd h hlt
        · exact absurd h he
        · exact h
      have hdown : ∀ i a, base ≤ i → i ≤ mid → ks[i]? = some a → strLt a key = true := by
        intro i a hi1 hi2 ha
        rcases Nat.eq_or_lt_of_le hi2 with rfl | hi2
        · rw [hk] at ha; cases ha; exact hgt
        · exact strLt_trans (hs i mid a k hi1 hi2 ha hk) hgt
      by_cases hl : low = high
      · rw [if_pos hl]
        refine ⟨_, rfl, by omega, by omega, fun i a hi1 hi2 ha => hdown i a hi1 (by omega) ha, fun i a hi ha => ?_⟩
        exact hhi i a (by omega) ha
      · rw [if_neg hl]
        exact ih (mid + 1) high (by omega) (by omega) h3
          (fun i a hi1 hi2 ha => hdown i a hi1 (by omega) ha) hhi (by omega)

theorem keyLt_of_strLt {a b : Str} (hb : b ≠ nameKey) (h : strLt a b = true) :
    keyLt a b = true := by
  have hne : a ≠ b := by
    rintro rfl
    rw [strLt_irrefl] at h
    cases h
  rcases keyLt_tri a b with h1 | h1 | h1
  · exact h1
  · exact absurd h1 hne
  · have := keyLt_strLt hb h1
    rw [strLt_asymm h] at this
    cases this

theorem keyLt_name_left {b : Str} (hb : b ≠ nameKey) : keyLt nameKey b = true := by
  rcases keyLt_tri nameKey b with h | h | h
  · exact h
  · exact absurd h.symm hb
  · rw [keyLt_name_right] at h; cases h

/-- Sorted keys with a new one at its place. -/
theorem sorted_insert {ks : List Str} {key : Str} (h : KeysSorted ks) (n : Nat)
    (hlo : ∀ i a, i < n → ks[i]? = some a → keyLt a key = true)
    (hhi : ∀ i a, n ≤ i → ks[i]? = some a → keyLt key a = true) :
    KeysSorted (ks.take n ++ key :: ks.drop n) := by
  have h' := h
  unfold KeysSorted at h ⊢
  rw [← List.take_append_drop n ks, List.pairwise_append] at h
  rw [List.pairwise_append, List.pairwise_cons]
  have hl : ∀ a ∈ ks.take n, keyLt a key = true := by
    intro a ha
    obtain ⟨i, hi, rfl⟩ := List.getElem_of_mem ha
    simp only [List.length_take] at hi
    refine hlo i _ (by omega) ?_
    rw [List.getElem_take, List.getElem?_eq_getElem (by omega)]
  have hu : ∀ a ∈ ks.drop n, keyLt key a = true := by
    intro a ha
    obtain ⟨i, hi, rfl⟩ := List.getElem_of_mem ha
    simp only [List.length_drop] at hi
    refine hhi (n + i) _ (by omega) ?_
    rw [List.getElem_drop, List.getElem?_eq_getElem (by omega)]
  refine ⟨h.1, ⟨hu, h.2.1⟩, fun a ha b hb => ?_⟩
  rcases List.mem_cons.1 hb with rfl | hb
  · exact hl a ha
  · exact h.2.2 a ha b hb

/-- `findOrAppend` on sorted groups, except for a new key on `__name__` alone. -/
theorem findOrAppend_sorted {gs : List TGroup} (h : KeysSorted (groupKeys gs)) {key : Str} (hk : key ≠ [])
    (hx : groupKeys gs = [nameKey] → key = nameKey) :
    ∃ gs' n, findOrAppend gs key = .ok (gs', n) ∧ KeysSorted (groupKeys gs') ∧
      (groupKeys gs')[n]? = some key ∧ (∀ k, k ∈ groupKeys gs' ↔ k = key ∨ k ∈ groupKeys gs) := by
  obtain ⟨a, b, nm, m, hf, hgs⟩ := findOrAppend_spec gs key hk
  refine ⟨_, _, hf, ?_, by simp [groupKeys], ?_⟩
  rotate_left
  · intro k
    rcases hgs with rfl | ⟨_, _, rfl⟩
    · simp only [groupKeys, List.map_append, List.map_cons, List.mem_append, List.mem_cons]
      constructor
      · exact fun h => .inr h
      · rintro (h | h)
        · exact .inr (.inl h)
        · exact h
    · simp only [groupKeys, List.map_append, List.map_cons, List.mem_append, List.mem_cons]
      constructor
      · rintro (h | h | h)
        · exact .inr (.inl h)
        · exact .inl h
        · exact .inr (.inr h)
      · rintro (h | h | h)
        · exact .inr (.inl h)
        · exact .inl h
        · exact .inr (.inr h)
  rcases hgs with hgs | ⟨rfl, rfl, hgs⟩
  · rw [← hgs]; exact h
  unfold findOrAppend at hf
  rw [if_neg hk] at hf
  cases gs with
  | nil =>
    obtain ⟨rfl, rfl⟩ := List.append_eq_nil_iff.1 hgs.symm
    simp [groupKeys, KeysSorted]
  | cons g rest =>
    dsimp only at hf
    have hkeys : groupKeys (g :: rest) = g.1 :: groupKeys rest := rfl
    by_cases hn : key = nameKey
    · rw [if_pos hn] at hf
      split at hf
      · simp only [R.ok.injEq, Prod.mk.injEq] at hf
        rw [← hf.1]
        exact h
      · rename_i hg
        simp only [R.ok.injEq, Prod.mk.injEq] at hf
        rw [← hf.1, show groupKeys ((key, [], []) :: g :: rest) = key :: groupKeys (g :: rest) from rfl]
        refine List.pairwise_cons.2 ⟨fun k hk' => ?_, h⟩
        rw [hn]
        apply keyLt_name_left
        rintro rfl
        obtain ⟨i, hi, e⟩ := List.getElem_of_mem hk'
        cases i with
        | zero => exact hg e
        | succ i =>
          have := h.get (Nat.succ_pos i) (List.getElem?_eq_getElem (by omega))
            (List.getElem?_eq_getElem hi)
          rw [e, keyLt_name_right] at this
          cases this
    · rw [if_neg hn] at hf
      generalize hgr : g :: rest = gr at hf h hgs hkeys hx
      have hlen : 0 < gr.length := by rw [← hgr]; simp
      have h0 : (groupKeys gr)[0]? = some g.1 := by rw [← hgr]; rfl
      have hkl : (groupKeys gr).length = gr.length := by simp [groupKeys]
      have hname : ∀ i b, (groupKeys gr)[i]? = some b → 0 < i → b ≠ nameKey := by
        rintro i b hb hi rfl
        have := h.get hi h0 hb
        rw [keyLt_name_right] at this
        cases this
      have hname0 : g.1 ≠ nameKey → ∀ (i : Nat) (b : Str), (groupKeys gr)[i]? = some b → b ≠ nameKey := by
        intro hg i b hb
        cases i with
        | zero => rw [h0] at hb; cases hb; exact hg
        | succ i => exact hname _ b hb (by omega)
      generalize hb' : (if g.1 = nameKey then 1 else 0) = base at hf
      have hbase : (base = 1 ∧ g.1 = nameKey) ∨ (base = 0 ∧ g.1 ≠ nameKey) := by
        by_cases hkn : g.1 = nameKey
        · exact .inl ⟨by rw [← hb', if_pos hkn], hkn⟩
        · exact .inr ⟨by rw [← hb', if_neg hkn], hkn⟩
      have hnb : ∀ i b, base ≤ i → (groupKeys gr)[i]? = some b → b ≠ nameKey := by
        intro i b hi hb
        rcases hbase with ⟨h1, h2⟩ | ⟨_, h2⟩
        · exact hname i b hb (by omega)
        · exact hname0 h2 i b hb
      have hs : ∀ i j a b, base ≤ i → i < j → (groupKeys gr)[i]? = some a → (groupKeys gr)[j]? = some b →
          strLt a b = true :=
        fun i j a b hi hij ha hb => keyLt_strLt (hnb i a hi ha) (h.get hij ha hb)
      have hbl : base ≤ gr.length - 1 := by
        rcases hbase with ⟨h1, h2⟩ | ⟨h1, _⟩
        · rcases Nat.lt_or_ge 1 gr.length with h3 | h3
          · omega
          · exfalso
            apply hn
            apply hx
            rw [hkeys, h2]
            have : rest = [] := by
              rw [← hgr] at h3
              simp only [List.length_cons] at h3
              exact List.eq_nil_of_length_eq_zero (by omega)
            rw [this]
            rfl
        · omega
      obtain ⟨r, hr, hr2⟩ := placeLoop_place (groupKeys gr) key base hs (gr.length + 1) base (gr.length - 1)
        (Nat.le_refl _) hbl (by omega) (fun i a h1 h2 _ => by omega)
        (fun i a h1 ha => by have := (List.getElem?_eq_some_iff.1 ha).1; omega) (by omega)
      rw [show gr.map Prod.fst = groupKeys gr from rfl, hr, R.bind_ok] at hf
      cases r with
      | ok mid =>
        dsimp only at hf
        simp only [R.ok.injEq, Prod.mk.injEq] at hf
        rw [← hf.1]
        exact h
      | error hi =>
        dsimp only at hf hr2
        obtain ⟨q1, q2, q3, q4⟩ := hr2
        have hres : a ++ (key, [], []) :: b = gr.take hi ++ (key, [], []) :: gr.drop hi := by
          split at hf
          · rename_i e
            simp only [R.ok.injEq, Prod.mk.injEq] at hf
            rw [← hf.1, e]
            simp
          · split at hf
            · rename_i e
              simp only [R.ok.injEq, Prod.mk.injEq] at hf
              have e0 : hi = 0 := by omega
              rw [← hf.1, e0]
              simp
            · simp only [R.ok.injEq, Prod.mk.injEq] at hf
              rw [← hf.1]
        rw [hres]
        have : groupKeys (gr.take hi ++ (key, [], []) :: gr.drop hi) =
            (groupKeys gr).take hi ++ key :: (groupKeys gr).drop hi := by
          simp [groupKeys, List.map_take, List.map_drop]
        rw [this]
        refine sorted_insert h hi ?_ ?_
        · intro i c hi' hc
          by_cases hib : base ≤ i
          · exact keyLt_of_strLt hn (q3 i c hib hi' hc)
          · have : i = 0 := by omega
            subst this
            rw [h0] at hc
            cases hc
            rcases hbase with ⟨_, h2⟩ | ⟨h2, _⟩
            · rw [h2]; exact keyLt_name_left hn
            · omega
        · intro i c hi' hc
          exact keyLt_of_strLt (hnb i c (by omega) hc) (q4 i c hi' hc)

/-! ## Whole trees -/

mutual
/-- The lists of keys of all items below these groups are of a kind, which may depend on the depth. -/
def EachG (Q : Nat → List Str → Prop) (d : Nat) : List (Str × List TItem × List TItem) → Prop
  | [] => True
  | (_, nm, m) :: gs => EachC Q d m ∧ EachC Q d nm ∧ EachG Q d gs
def EachC (Q : Nat → List Str → Prop) (d : Nat) : List TItem → Prop
  | [] => True
  | c :: cs => EachI Q d c ∧ EachC Q d cs
def EachI (Q : Nat → List Str → Prop) (d : Nat) : TItem → Prop
  | .node _ _ gs => Q (d + 1) (groupKeys gs) ∧ EachG Q (d + 1) gs
end

theorem eachC_iff {Q : Nat → List Str → Prop} {d : Nat} (cs : List TItem) :
    EachC Q d cs ↔ ∀ c ∈ cs, EachI Q d c := by
  induction cs with
  | nil => simp [EachC]
  | cons c cs ih => simp [EachC, ih]

theorem eachG_iff {Q : Nat → List Str → Prop} {d : Nat} (gs : List TGroup) :
    EachG Q d gs ↔ ∀ g ∈ gs, EachC Q d g.2.2 ∧ EachC Q d g.2.1 := by
  induction gs with
  | nil => simp [EachG]
  | cons g gs ih =>
    obtain ⟨k, nm, m⟩ := g
    simp [EachG, ih, and_assoc]

theorem insertTerm_each {Q : Nat → List Str → Prop} {d : Nat} {f : TItem → R TItem} {t : TTerm}
    {cs cs' : List TItem} (h0 : Q (d + 1) []) (h : EachC Q d cs)
    (hf : ∀ c c', EachI Q d c → f c = .ok c' → EachI Q d c') (hi : insertTerm f t cs = .ok cs') :
    EachC Q d cs' := by
  induction cs generalizing cs' with
  | nil =>
    rw [insertTerm] at hi
    obtain ⟨c, h1, h2⟩ := R.bind_eq_ok.1 hi
    cases h2
    exact ⟨hf (.node t none []) c ⟨h0, trivial⟩ h1, trivial⟩
  | cons x cs ih =>
    rw [insertTerm] at hi
    split at hi
    · obtain ⟨c, h1, h2⟩ := R.bind_eq_ok.1 hi
      cases h2
      exact ⟨hf x c h.1 h1, h.2⟩
    · obtain ⟨c, h1, h2⟩ := R.bind_eq_ok.1 hi
      cases h2
      exact ⟨h.1, ih h.2 h1⟩

theorem findOrAppend_each {Q : Nat → List Str → Prop} {d : Nat} {gs gs' : List TGroup} {key : Str} {n : Nat}
    (h : EachG Q d gs) (hf : findOrAppend gs key = .ok (gs', n)) : EachG Q d gs' := by
  by_cases hk : key = []
  · unfold findOrAppend at hf
    rw [if_pos hk] at hf
    cases hf
    exact h
  · obtain ⟨a, b, nm, m, h1, h2⟩ := findOrAppend_spec gs key hk
    rw [hf] at h1
    cases h1
    rcases h2 with rfl | ⟨rfl, rfl, rfl⟩
    · exact h
    · rw [eachG_iff] at h ⊢
      intro g hg
      simp only [List.mem_append, List.mem_cons] at hg
      rcases hg with hg | rfl | hg
      · exact h g (by simp [hg])
      · exact ⟨trivial, trivial⟩
      · exact h g (by simp [hg])

/-- Keys allowed at each depth, and a kind of key lists that `findOrAppend` keeps. -/
structure Kept (Q : Nat → List Str → Prop) (A : Nat → Str → Prop) : Prop where
  empty : ∀ d, Q d []
  step : ∀ d gs gs' key n, A d key → Q d (groupKeys gs) → findOrAppend gs key = .ok (gs', n) →
    Q d (groupKeys gs')

/-- The terms of a query are allowed, from a depth on. -/
def KeysFrom (A : Nat → Str → Prop) : Nat → List TTerm → Prop
  | _, [] => True
  | d, t :: ts => A d t.key ∧ KeysFrom A (d + 1) ts

theorem parseItems_each {Q : Nat → List Str → Prop} {A : Nat → Str → Prop} (hk : Kept Q A)
    (e : Option (Str × Int)) (ts : List TTerm) (d : Nat) (hts : KeysFrom A d ts) (gs gs' : List TGroup)
    (h : EachG Q d gs) (hq : Q d (groupKeys gs)) (hp : parseItems e ts gs = .ok gs') :
    EachG Q d gs' ∧ Q d (groupKeys gs') := by
  induction ts generalizing gs gs' d with
  | nil => cases hp
  | cons t ts ih =>
    rw [parseItems] at hp
    obtain ⟨⟨gs1, n⟩, hr, hp⟩ := R.bind_eq_ok.1 hp
    have h1 := (eachG_iff _).1 (findOrAppend_each h hr)
    have hq1 := hk.step d gs gs1 t.key n hts.1 hq hr
    dsimp only at hp
    cases hg : gs1[n]? with
    | none => rw [hg] at hp; cases hp
    | some g =>
      obtain ⟨k, nm, m⟩ := g
      rw [hg] at hp
      dsimp only at hp
      obtain ⟨k1, k2⟩ := h1 _ (List.mem_of_getElem? hg)
      have hf : ∀ c c', EachI Q d c → TItem.descend ts.isEmpty e (parseItems e ts) c = .ok c' →
          EachI Q d c' := by
        intro c c' hc hd
        obtain ⟨u, fin, items⟩ := c
        unfold TItem.descend at hd
        split at hd
        · cases hd
          exact hc
        · obtain ⟨it, h2, h3⟩ := R.bind_eq_ok.1 hd
          cases h3
          exact (ih (d + 1) hts.2 _ _ hc.2 hc.1 h2).symm
      have hset : ∀ nm' m', EachC Q d m' → EachC Q d nm' →
          EachG Q d (gs1.set n (k, nm', m')) ∧ Q d (groupKeys (gs1.set n (k, nm', m'))) := by
        intro nm' m' h2 h3
        constructor
        · rw [eachG_iff]
          intro g hg
          rcases List.mem_or_eq_of_mem_set hg with hg | rfl
          · exact h1 g hg
          · exact ⟨h2, h3⟩
        · have : groupKeys (gs1.set n (k, nm', m')) = groupKeys gs1 := by
            unfold groupKeys
            rw [List.map_set]
            apply List.ext_getElem?
            intro i
            rw [List.getElem?_set]
            split
            · rename_i e
              subst e
              rw [List.getElem?_map, hg]
              obtain ⟨hlt, _⟩ := List.getElem?_eq_some_iff.1 hg
              simp [hlt]
            · rfl
          rw [this]
          exact hq1
      split at hp
      · obtain ⟨m', h2, h3⟩ := R.bind_eq_ok.1 hp
        cases h3
        exact hset _ _ (insertTerm_each (hk.empty _) k1 hf h2) k2
      · obtain ⟨m', h2, h3⟩ := R.bind_eq_ok.1 hp
        cases h3
        exact hset _ _ k1 (insertTerm_each (hk.empty _) k2 hf h2)

end GoMatcher
