import Verif.Model.TagTree
import Verif.Proofs.TagOrder

/-! # The resumed binary search for a key -/

namespace GoMatcher

/-- The answer of a search is right. -/
def FoundOk (ks : List Str) (key : Str) (r : Option Nat) : Prop :=
  match r with
  | some n => ks[n]? = some key
  | none => key ∉ ks

theorem not_mem_of_range {ks : List Str} {key : Str} {low high : Nat}
    (hr : ∀ i, ks[i]? = some key → low ≤ i ∧ i ≤ high) (h : high < low) : key ∉ ks := by
  intro hm
  obtain ⟨i, hi, e⟩ := List.mem_iff_getElem.1 hm
  have := hr i (by rw [List.getElem?_eq_getElem hi, e])
  omega

theorem findLoop_spec (ks : List Str) (key : Str) (base : Nat)
    (hs : ∀ i j a b, base ≤ i → i < j → ks[i]? = some a → ks[j]? = some b → strLt a b = true)
    (fuel low high search : Nat) (h1 : base ≤ low) (h2 : low ≤ search) (h3 : search ≤ high)
    (h4 : high < ks.length) (hr : ∀ i, ks[i]? = some key → low ≤ i ∧ i ≤ high)
    (hf : high - low < fuel) : ∃ r, findLoop ks key fuel low high search = .ok r ∧ FoundOk ks key r := by
  induction fuel generalizing low high search with
  | zero => omega
  | succ fuel ih =>
    have hsl : search < ks.length := by omega
    rw [findLoop, List.getElem?_eq_getElem hsl]
    dsimp only
    by_cases hk : key = ks[search]
    · rw [if_pos hk]
      exact ⟨_, rfl, by simp [FoundOk, hk, List.getElem?_eq_getElem hsl]⟩
    · rw [if_neg hk]
      -- the rest of the loop body
      have hnext : ∀ lo hi : Nat, base ≤ lo → hi < ks.length → hi - lo < high - low →
          (∀ i, ks[i]? = some key → lo ≤ i ∧ i ≤ hi) →
          ∃ r, (if lo > hi then R.ok none
            else if lo = hi then
              match ks[lo]? with
              | none => .panic
              | some k => if key = k then .ok (some lo) else .ok none
            else findLoop ks key fuel lo hi ((lo + hi) / 2)) = .ok r ∧ FoundOk ks key r := by
        intro lo hi hlo hhi hlt hr'
        by_cases c1 : lo > hi
        · rw [if_pos c1]
          exact ⟨_, rfl, not_mem_of_range hr' c1⟩
        · rw [if_neg c1]
          by_cases c2 : lo = hi
          · rw [if_pos c2]
            subst c2
            rw [List.getElem?_eq_getElem hhi]
            dsimp only
            by_cases c3 : key = ks[lo]
            · rw [if_pos c3]
              exact ⟨_, rfl, by simp [FoundOk, c3, List.getElem?_eq_getElem hhi]⟩
            · rw [if_neg c3]
              refine ⟨_, rfl, ?_⟩
              intro hm
              obtain ⟨i, hi, e⟩ := List.mem_iff_getElem.1 hm
              have := hr' i (by rw [List.getElem?_eq_getElem hi, e])
              have hil : i = lo := by omega
              subst hil
              exact c3 e.symm
          · rw [if_neg c2]
            exact ih lo hi _ hlo (by omega) (by omega) hhi hr' (by omega)
      have hsk := List.getElem?_eq_getElem hsl
      by_cases hlt : strLt key ks[search] = true
      · rw [if_pos hlt]
        have hr' : ∀ i, ks[i]? = some key → low ≤ i ∧ i < search := by
          intro i hi
          refine ⟨(hr i hi).1, ?_⟩
          rcases Nat.lt_trichotomy i search with h | h | h
          · exact h
          · subst h
            rw [hsk] at hi
            simp only [Option.some.injEq] at hi
            exact absurd hi.symm hk
          · have := hs search i _ _ (by omega) h hsk hi
            rw [strLt_asymm hlt] at this
            simp at this
        by_cases h0 : search = 0
        · rw [if_pos h0]
          refine ⟨_, rfl, ?_⟩
          intro hm
          obtain ⟨i, hi, e⟩ := List.mem_iff_getElem.1 hm
          have := hr' i (by rw [List.getElem?_eq_getElem hi, e])
          omega
        · rw [if_neg h0]
          by_cases hlh : low < high
          · exact hnext low (search - 1) h1 (by omega) (by omega) (fun i hi => by
              have := hr' i hi; omega)
          · -- a single candidate
            rw [if_pos (by omega)]
            refine ⟨_, rfl, ?_⟩
            apply not_mem_of_range (low := low) (high := search - 1)
            · intro i hi
              have := hr' i hi
              omega
            · omega
      · rw [if_neg hlt]
        have hr' : ∀ i, ks[i]? = some key → search + 1 ≤ i ∧ i ≤ high := by
          intro i hi
          refine ⟨?_, (hr i hi).2⟩
          rcases Nat.lt_trichotomy i search with h | h | h
          · have := hs i search _ _ (by have := hr i hi; omega) h hi hsk
            exact absurd this hlt
          · subst h
            rw [hsk] at hi
            simp only [Option.some.injEq] at hi
            exact absurd hi.symm hk
          · exact h
        by_cases hlh : low < high
        · exact hnext (search + 1) high (by omega) h4 (by omega) hr'
        · rw [if_pos (by omega)]
          exact ⟨_, rfl, not_mem_of_range hr' (by omega)⟩

/-- Keys in order, `__name__` first, every key once. -/
def KeysSorted (ks : List Str) : Prop := ks.Pairwise fun a b => keyLt a b = true

theorem KeysSorted.get {ks : List Str} (h : KeysSorted ks) {i j : Nat} {a b : Str} (hij : i < j)
    (ha : ks[i]? = some a) (hb : ks[j]? = some b) : keyLt a b = true := by
  obtain ⟨hi, ea⟩ := List.getElem?_eq_some_iff.1 ha
  obtain ⟨hj, eb⟩ := List.getElem?_eq_some_iff.1 hb
  have := List.pairwise_iff_getElem.1 h i j hi hj hij
  rwa [ea, eb] at this

theorem keyLt_name_right {a : Str} : keyLt a nameKey = false := by
  unfold keyLt
  by_cases h : a = nameKey <;> simp [h]

theorem keyLt_strLt {a b : Str} (ha : a ≠ nameKey) (h : keyLt a b = true) : strLt a b = true := by
  unfold keyLt at h
  simp only [ha, if_false] at h
  by_cases hb : b = nameKey
  · rw [hb] at h
    simp at h
  · simp [hb] at h
    exact h.2

/-- The search is right on sorted keys, from any resume position. -/
theorem findKey_spec (ks : List Str) (h : KeysSorted ks) (key : Str) (hk : key ≠ []) (start : Nat)
    (hst : start < ks.length ∨ start = 0) :
    ∃ r, findKey ks key start = .ok r ∧ FoundOk ks key r := by
  unfold findKey
  rw [if_neg hk]
  cases ks with
  | nil => exact ⟨_, rfl, by simp [FoundOk]⟩
  | cons k rest =>
    dsimp only
    -- `__name__` can only be in front
    have hname : ∀ i b, (k :: rest)[i]? = some b → 0 < i → b ≠ nameKey := by
      intro i b hb hi e
      subst e
      have := h.get hi (List.getElem?_cons_zero) hb
      rw [keyLt_name_right] at this
      simp at this
    by_cases hn : key = nameKey
    · rw [if_pos hn]
      by_cases hkn : k = nameKey
      · rw [if_pos hkn]
        exact ⟨_, rfl, by simp [FoundOk, hn, hkn]⟩
      · rw [if_neg hkn]
        refine ⟨_, rfl, ?_⟩
        intro hm
        obtain ⟨i, hi, e⟩ := List.mem_iff_getElem.1 hm
        cases i with
        | zero => exact hkn (by rw [← hn, ← e]; rfl)
        | succ i => exact hname (i + 1) key (by rw [List.getElem?_eq_getElem hi, e]) (by omega) hn
    · rw [if_neg hn]
      generalize hks : k :: rest = ks at h hname hst
      have hlen : 0 < ks.length := by rw [← hks]; simp
      have h0 : ks[0]? = some k := by rw [← hks]; rfl
      generalize hb : (if k = nameKey then 1 else 0) = base
      have hbase : (base = 1 ∧ k = nameKey) ∨ (base = 0 ∧ k ≠ nameKey) := by
        by_cases hkn : k = nameKey
        · exact .inl ⟨by rw [← hb, if_pos hkn], hkn⟩
        · exact .inr ⟨by rw [← hb, if_neg hkn], hkn⟩
      have hs : ∀ i j a b, base ≤ i → i < j → ks[i]? = some a → ks[j]? = some b → strLt a b = true := by
        intro i j a b hi hij ha hb
        refine keyLt_strLt ?_ (h.get hij ha hb)
        by_cases hi0 : 0 < i
        · exact hname i a ha hi0
        · have : i = 0 := by omega
          subst this
          rw [h0] at ha
          simp only [Option.some.injEq] at ha
          rcases hbase with h | h
          · omega
          · rw [← ha]; exact h.2
      have hin : ∀ i, ks[i]? = some key → base ≤ i ∧ i ≤ ks.length - 1 := by
        intro i hi
        have := (List.getElem?_eq_some_iff.1 hi).1
        refine ⟨?_, by omega⟩
        rcases hbase with h | h
        · rcases Nat.eq_zero_or_pos i with h' | h'
          · subst h'
            rw [h0] at hi
            simp only [Option.some.injEq] at hi
            exact absurd (hi ▸ h.2) hn
          · omega
        · omega
      -- the loop, from bounds that enclose the key
      have hloop : ∀ low high, base ≤ low → low ≤ high → high < ks.length →
          (∀ i, ks[i]? = some key → low ≤ i ∧ i ≤ high) →
          ∃ r, findLoop ks key (ks.length + 2) low high
            (if (low + high) / 2 > low + 4 then low + 4 else (low + high) / 2) = .ok r ∧
            FoundOk ks key r := by
        intro low high hlo hlh hhi hr
        exact findLoop_spec ks key base hs _ low high _ hlo (by split <;> omega) (by split <;> omega)
          hhi hr (by omega)
      have hmain : ∃ r, findStart ks key start base (ks.length - 1) = .ok r ∧
          match r with
          | .inl n => ks[n]? = some key
          | .inr (low, high) => (base ≤ low ∧ low ≤ high ∧ high < ks.length ∧
              ∀ i, ks[i]? = some key → low ≤ i ∧ i ≤ high) ∨ (low = 1 ∧ high = 0 ∧ base = 1) := by
        unfold findStart
        by_cases hsb : start > base
        · rw [if_pos hsb]
          have hsl : start < ks.length := by omega
          have hsk := List.getElem?_eq_getElem hsl
          rw [hsk]
          dsimp only
          by_cases he : ks[start] = key
          · rw [if_pos he]
            exact ⟨_, rfl, by dsimp only; rw [hsk, he]⟩
          · rw [if_neg he]
            by_cases hlt : strLt key ks[start] = true
            · rw [if_pos hlt]
              refine ⟨_, rfl, .inl ⟨Nat.le_refl _, by omega, by omega, ?_⟩⟩
              intro i hi
              refine ⟨(hin i hi).1, ?_⟩
              rcases Nat.lt_trichotomy i start with h | h | h
              · omega
              · subst h
                rw [hsk] at hi
                simp only [Option.some.injEq] at hi
                exact absurd hi he
              · have := hs start i _ _ (by omega) h hsk hi
                rw [strLt_asymm hlt] at this
                simp at this
            · rw [if_neg hlt]
              refine ⟨_, rfl, .inl ⟨by omega, by omega, by omega, ?_⟩⟩
              intro i hi
              refine ⟨?_, (hin i hi).2⟩
              rcases Nat.lt_trichotomy i start with h | h | h
              · have := hs i start _ _ (hin i hi).1 h hi hsk
                exact absurd this hlt
              · omega
              · omega
        · rw [if_neg hsb]
          refine ⟨_, rfl, ?_⟩
          by_cases hc : base ≤ ks.length - 1
          · exact .inl ⟨Nat.le_refl _, hc, by omega, hin⟩
          · exact .inr ⟨by omega, by omega, by omega⟩
      obtain ⟨r, hr, hcase⟩ := hmain
      rw [hr, R.bind_ok]
      cases r with
      | inl n => exact ⟨_, rfl, hcase⟩
      | inr p =>
        obtain ⟨low, high⟩ := p
        dsimp only at hcase ⊢
        rcases hcase with ⟨a, b, c, d⟩ | ⟨rfl, rfl, c⟩
        · exact hloop low high a b c d
        · -- only `__name__`
          have hkn : k = nameKey := by
            rcases hbase with h | h
            · exact h.2
            · omega
          have hl : ks.length = 1 := by
            by_cases h2 : 1 < ks.length
            · exfalso
              unfold findStart at hr
              by_cases hsb : start > base
              · rw [if_pos hsb, List.getElem?_eq_getElem (by omega)] at hr
                dsimp only at hr
                split at hr
                · simp at hr
                · split at hr
                  · simp only [R.ok.injEq, Sum.inr.injEq, Prod.mk.injEq] at hr
                    omega
                  · simp only [R.ok.injEq, Sum.inr.injEq, Prod.mk.injEq] at hr
                    omega
              · rw [if_neg hsb] at hr
                simp only [R.ok.injEq, Sum.inr.injEq, Prod.mk.injEq] at hr
                omega
            · omega
          have hkey : key ∉ ks := not_mem_of_range hin (by omega)
          have hne : key ≠ k := by rw [hkn]; exact hn
          have : findLoop ks key (ks.length + 2) 1 0
              (if (1 + 0) / 2 > 1 + 4 then 1 + 4 else (1 + 0) / 2) = .ok none := by
            rw [findLoop]
            simp only [Nat.add_zero, Nat.reduceDiv, Nat.not_lt_zero, gt_iff_lt, if_false, Nat.reduceAdd]
            rw [h0]
            simp [hne]
          exact ⟨_, this, hkey⟩

end GoMatcher
