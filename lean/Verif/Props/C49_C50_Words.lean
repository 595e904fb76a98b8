import Verif.Model.WordList
import Verif.Proofs.ParseTotal
import Verif.Proofs.ParseAlt
import Verif.Proofs.RunesRanges
import Verif.Props.C35_AsciiSet

/-! # C49, C50: helpers of word lists, common prefix -/

namespace GoMatcher

namespace C49

/-- `NewItemList(vals)` is the word list `l`. -/
def ListOf (vals : List Str) (l : StringList) : Prop := listItem vals = .inl (.ok (some (.list l)))

theorem scan_first (vs : List Str) (st : ListScan) (h : (listScan st vs).hasStar = false) :
    ((listScan st vs).asciiStarted = true ↔
      st.asciiStarted = true ∧ ∀ b t, b :: t ∈ vs → b.toNat < 128) ∧
    ∀ b, (listScan st vs).firstASCII.contains b = true ↔
      st.firstASCII.contains b = true ∨ b.toNat < 128 ∧ ∃ t, b :: t ∈ vs := by
  induction vs generalizing st with
  | nil => simp [listScan]
  | cons v vs ih =>
    unfold listScan at h ⊢
    simp only at h ⊢
    generalize e1 : (if st.maxLen < ↑v.length then { st with maxLen := ↑v.length } else st) = st1 at h ⊢
    have f1 : st1.asciiStarted = st.asciiStarted ∧ st1.firstASCII = st.firstASCII := by
      rw [← e1]; split <;> simp
    generalize e2 : (if st1.minLen > ↑v.length then { st1 with minLen := ↑v.length } else st1) = st2 at h ⊢
    have f2 : st2.asciiStarted = st.asciiStarted ∧ st2.firstASCII = st.firstASCII := by
      rw [← e2]; split <;> simp [f1]
    rw [← f2.1, ← f2.2]
    cases v with
    | nil =>
      obtain ⟨h1, h2⟩ := ih st2 h
      simp only
      exact ⟨h1.trans (by simp), fun b => (h2 b).trans (by simp)⟩
    | cons c t =>
      simp only at h ⊢
      by_cases hw : hasWildcard (c :: t) = true
      · rw [if_pos hw] at h
        cases h
      · rw [if_neg hw] at h ⊢
        obtain ⟨h1, h2⟩ := ih _ h
        have hf := C35.add_flag st2.firstASCII c
        refine ⟨h1.trans ?_, fun b => (h2 b).trans ?_⟩
        · simp only [hf.1, decide_eq_true_eq]
          constructor
          · rintro ⟨ha, hb⟩
            by_cases hc : c.toNat < 128
            · rw [if_pos hc] at ha
              refine ⟨ha, fun b u hm => ?_⟩
              rcases List.mem_cons.1 hm with hm | hm
              · cases hm; exact hc
              · exact hb b u hm
            · rw [if_neg hc] at ha; cases ha
          · rintro ⟨ha, hb⟩
            rw [if_pos (hb c t (by simp))]
            exact ⟨ha, fun b u hm => hb b u (by simp [hm])⟩
        · rw [C35.contains_add]
          constructor
          · rintro ((hx | ⟨rfl, hx⟩) | ⟨hx, u, hm⟩)
            · exact .inl hx
            · exact .inr ⟨hx, t, by simp⟩
            · exact .inr ⟨hx, u, by simp [hm]⟩
          · rintro (hx | ⟨hx, u, hm⟩)
            · exact .inl (.inl hx)
            · rcases List.mem_cons.1 hm with hm | hm
              · cases hm; exact .inl (.inr ⟨rfl, hx⟩)
              · exact .inr ⟨hx, u, hm⟩

theorem listOf_cases {vals : List Str} {l : StringList} (h : ListOf vals l) :
    2 ≤ vals.length ∧ (∀ x, x ∈ l.keys ↔ x ∈ vals) ∧
    (l.asciiStarted = true ↔ ∀ b t, b :: t ∈ vals → b.toNat < 128) ∧
    (l.asciiStarted = true → ∀ b, l.firstASCII.contains b = true ↔ ∃ t, b :: t ∈ vals) := by
  unfold ListOf listItem at h
  split at h
  · simp at h
  · split at h
    · simp at h
    · simp only [Sum.inl.injEq, R.ok.injEq, Option.some.injEq] at h
      unfold literalItem at h
      simp only at h
      split at h
      · split at h <;> cases h
      · cases h
  · rename_i v0 vs hne
    simp only at h
    split at h
    · cases h
    · rename_i hs
      have hs : (listScan {} (v0 :: vs)).hasStar = false := by simpa using hs
      obtain ⟨s1, s2⟩ := scan_first (v0 :: vs) {} hs
      have hlen : 2 ≤ (v0 :: vs).length := by
        cases vs with
        | nil => exact absurd rfl hne
        | cons _ _ => simp
      split at h
      · cases h
      · rename_i hm
        simp only [Sum.inl.injEq, R.ok.injEq, Option.some.injEq, Item.list.injEq] at h
        have hkeys : ∀ x, x ∈ ((if (listScan {} (v0 :: vs)).minLen = 0 then [[]] else []) ++
            (if (listScan {} (v0 :: vs)).minLen = 0 then vs else v0 :: vs) : List Str) ↔ x ∈ v0 :: vs := by
          intro x
          by_cases h0 : (listScan {} (v0 :: vs)).minLen = 0
          · have : v0 = [] := Classical.byContradiction fun hv => hm ⟨h0, hv⟩
            rw [if_pos h0, if_pos h0, this]
            simp
          · rw [if_neg h0, if_neg h0]
            simp
        refine ⟨hlen, ?_⟩
        by_cases ha : (listScan {} (v0 :: vs)).asciiStarted = true
        · rw [if_pos ha] at h
          subst h
          refine ⟨hkeys, ?_, fun _ b => ?_⟩
          · simpa using (s1.1 ha).2
          · rw [s2 b]
            constructor
            · rintro (hx | hx)
              · simp at hx
              · exact hx.2
            · rintro ⟨t, hx⟩
              exact .inr ⟨(s1.1 ha).2 b t hx, t, hx⟩
        · rw [if_neg ha] at h
          subst h
          refine ⟨hkeys, ?_, fun hx => by simp at hx⟩
          constructor
          · intro hx; simp at hx
          · intro hx; exact absurd (s1.2 ⟨rfl, hx⟩) ha

/-- `Map` has exactly the given words as keys. -/
theorem map_keys {vals : List Str} {l : StringList} (h : ListOf vals l) (x : Str) :
    x ∈ l.keys ↔ x ∈ vals := (listOf_cases h).2.1 x

/-- `MatchFirst`: supported when the text is empty or every word starts with an ASCII byte, and
then it tells whether a word starts with the first byte of the text. -/
theorem matchFirst_exact {vals : List Str} {l : StringList} (h : ListOf vals l) (c : UInt8) (s : Str) :
    l.matchFirst [] = (false, true) ∧
    ((l.matchFirst (c :: s)).2 = true ↔ ∀ b t, b :: t ∈ vals → b.toNat < 128) ∧
    ((l.matchFirst (c :: s)).2 = true → ((l.matchFirst (c :: s)).1 = true ↔ ∃ t, c :: t ∈ vals)) ∧
    ((l.matchFirst (c :: s)).2 = false → (l.matchFirst (c :: s)).1 = true) := by
  obtain ⟨_, _, h1, h2⟩ := listOf_cases h
  unfold StringList.matchFirst
  by_cases ha : l.asciiStarted = true
  · simp only [ha, if_true]
    simpa using ⟨h1.1 ha, h2 ha c⟩
  · simp only [ha]
    simpa using fun hx => ha (h1.2 hx)

/-- `MatchFirst` never refuses a text that starts with a word. -/
theorem matchFirst_sound {vals : List Str} {l : StringList} (h : ListOf vals l) (s : Str)
    (hf : (l.matchFirst s).1 = false) : ∀ w ∈ vals, w ≠ [] → ¬ w <+: s := by
  rintro w hw hne ⟨q, rfl⟩
  cases w with
  | nil => exact hne rfl
  | cons b t =>
    obtain ⟨_, _, h3, h4⟩ := matchFirst_exact h b (t ++ q)
    rw [List.cons_append] at hf
    cases hs : (l.matchFirst (b :: (t ++ q))).2 with
    | true => rw [(h3 hs).2 ⟨t, hw⟩] at hf; cases hf
    | false => rw [h4 hs] at hf; cases hf

/-- `FindFirst`: supported when every word starts with an ASCII byte; the result is the first
position of a byte that starts a word. -/
theorem findFirst_exact {vals : List Str} {l : StringList} (h : ListOf vals l) (s : Str) :
    ((l.findFirst s).2 = true ↔ ∀ b t, b :: t ∈ vals → b.toNat < 128) ∧
    ((l.findFirst s).2 = true →
      ((l.findFirst s).1 = none ↔ ∀ b ∈ s, ¬ ∃ t, b :: t ∈ vals) ∧
      ∀ i, (l.findFirst s).1 = some i ↔ ∃ hi : i < s.length, (∃ t, s[i] :: t ∈ vals) ∧
        ∀ j (hj : j < i), ¬ ∃ t, s[j] :: t ∈ vals) := by
  obtain ⟨_, _, h1, h2⟩ := listOf_cases h
  unfold StringList.findFirst
  by_cases ha : l.asciiStarted = true
  · have hc : ∀ b, l.firstASCII.contains b = false ↔ ¬ ∃ t, b :: t ∈ vals := by
      intro b
      rw [← h2 ha b]
      simp
    simp only [ha, if_true, true_iff]
    refine ⟨h1.1 ha, fun _ => ⟨?_, fun i => ?_⟩⟩
    · rw [C35.index_none]
      simp only [hc]
    · rw [C35.index_some]
      simp only [hc, h2 ha]
  · simp only [ha]
    simpa using fun hx => ha (h1.2 hx)

/-- A supported `FindFirst` is never behind an occurrence of a word. -/
theorem findFirst_sound {vals : List Str} {l : StringList} (h : ListOf vals l) (s p w q : Str)
    (hw : w ∈ vals) (hne : w ≠ []) (hs : s = p ++ w ++ q) (hsup : (l.findFirst s).2 = true) :
    ∃ i, (l.findFirst s).1 = some i ∧ i ≤ p.length := by
  obtain ⟨h1, h2⟩ := (findFirst_exact h s).2 hsup
  cases w with
  | nil => exact absurd rfl hne
  | cons b t =>
    have hlen : p.length < s.length := by subst hs; simp
    have hget : s[p.length] = b := by subst hs; simp
    cases hf : (l.findFirst s).1 with
    | none => exact absurd ⟨t, hw⟩ (h1.1 hf b (by subst hs; simp))
    | some i =>
      refine ⟨i, rfl, Nat.le_of_not_lt fun hlt => ?_⟩
      obtain ⟨_, _, h3⟩ := (h2 i).1 hf
      exact h3 p.length hlt ⟨t, by rw [hget]; exact hw⟩

/-- `MatchN` of word `w`. -/
theorem matchN_exact (l : StringList) (s w : Str) (n : Nat) (hn : l.vals[n]? = some w) :
    (w <+: s ∧ l.matchN s n = .ok (some w.length)) ∨ (¬ w <+: s ∧ l.matchN s n = .ok none) := by
  unfold StringList.matchN
  rw [hn]
  by_cases h : w <+: s
  · exact .inl ⟨h, by simp [hasPrefix, h]⟩
  · exact .inr ⟨h, by simp [hasPrefix, h]⟩

/-- `FindN` of word `w`: the first occurrence. -/
theorem findN_exact (l : StringList) (s w : Str) (n : Nat) (hn : l.vals[n]? = some w) :
    ((∀ p q, s ≠ p ++ w ++ q) ∧ l.findN s n = .ok none) ∨
    ∃ p q, s = p ++ w ++ q ∧ (∀ p' q', s = p' ++ w ++ q' → p.length ≤ p'.length) ∧
      l.findN s n = .ok (some (p.length, w.length)) := by
  unfold StringList.findN
  rw [hn]
  cases h : strIndex s w with
  | none => exact .inl ⟨strIndex_none.1 h, by simp only [h]; rfl⟩
  | some i =>
    obtain ⟨⟨q, hq⟩, hi, hj⟩ := strIndex_some.1 h
    have hl : (s.take i).length = i := by rw [List.length_take]; omega
    refine .inr ⟨s.take i, q, hq, fun p' q' hp => Nat.le_of_not_lt fun hlt => ?_, by simp only [h, hl]; rfl⟩
    rw [hl] at hlt
    refine hj p'.length hlt ⟨q', ?_⟩
    rw [hp, List.append_assoc, List.drop_left]

example : ∃ l, ListOf [[], b!"ab", b!"ac", b!"d"] l ∧ l.keys = [[], b!"ab", b!"ac", b!"d"] ∧
    l.findFirst (b!"xxdab") = (some 2, true) ∧ l.matchFirst (b!"ax") = (true, true) ∧
    l.matchFirst (b!"x") = (false, true) ∧ l.findN (b!"xxdab") 0 = .ok (some (3, 2)) ∧
    l.matchN (b!"acx") 1 = .ok (some 2) := ⟨_, rfl, by decide +kernel⟩
example : ∃ l, ListOf [b!"ab", b!"я"] l ∧ l.findFirst (b!"xя") = (some 0, false) ∧
    l.matchFirst (b!"x") = (true, false) := ⟨_, rfl, by decide +kernel⟩

end C49

namespace C50

theorem shares_spec (p : List Char) (c : Char) (Ws : List (List Char)) (h : ∀ W ∈ Ws, p <+: W) :
    ∃ b, sharesRune (utf8 p).length c.toNat (Ws.map utf8) = .ok b ∧
      (b = true ↔ ∀ W ∈ Ws, p ++ [c] <+: W) := by
  induction Ws with
  | nil => exact ⟨true, rfl, by simp⟩
  | cons W Ws ih =>
    obtain ⟨b, hb, hb'⟩ := ih fun W hW => h W (by simp [hW])
    obtain ⟨q, rfl⟩ := h W (by simp)
    rw [List.map_cons, sharesRune]
    cases q with
    | nil =>
      rw [if_pos (by simp)]
      refine ⟨false, rfl, ?_⟩
      simp only [Bool.false_eq_true, false_iff]
      intro hall
      have := (hall _ List.mem_cons_self).length_le
      simp at this
      omega
    | cons d q =>
      have hlen : (utf8 p).length ≠ (utf8 (p ++ d :: q)).length := by
        have := encodeRune_pos d.toNat
        rw [utf8_append, utf8_cons, List.length_append, List.length_append]; omega
      have hsl : sliceFrom (utf8 (p ++ d :: q)) (utf8 p).length = .ok (utf8 (d :: q)) := by
        unfold sliceFrom
        rw [if_pos (by rw [utf8_append]; simp), utf8_append, List.drop_left]
      rw [if_neg hlen, hsl, R.bind_ok, decodeRune_utf8_cons]
      by_cases hcd : c = d
      · subst hcd
        rw [if_neg (by simp)]
        refine ⟨b, hb, hb'.trans ?_⟩
        simp only [List.mem_cons, forall_eq_or_imp]
        exact ⟨fun x => ⟨⟨q, by simp⟩, x⟩, fun x => x.2⟩
      · rw [if_pos (by simpa using fun e => hcd (Char.toNat_val_inj e))]
        refine ⟨false, rfl, ?_⟩
        simp only [Bool.false_eq_true, false_iff]
        intro hall
        obtain ⟨r, hr⟩ := hall _ (List.mem_cons_self)
        simp at hr
        exact hcd hr.1

theorem loop_spec (rest p : List Char) (Ws : List (List Char)) (h : ∀ W ∈ Ws, p <+: W) (f : Nat)
    (hf : (utf8 rest).length ≤ f) :
    ∃ r, interceptLoop (utf8 (p ++ rest)) (Ws.map utf8) (rangeStr.go f (utf8 p).length (utf8 rest)) =
        .ok (utf8 (p ++ r)) ∧ r <+: rest ∧ (∀ W ∈ Ws, p ++ r <+: W) ∧
      ∀ r', r' <+: rest → (∀ W ∈ Ws, p ++ r' <+: W) → r' <+: r := by
  induction rest generalizing p f with
  | nil => exact ⟨[], by cases f <;> simp [rangeStr.go, interceptLoop], by simp, by simpa using h, fun r' hr _ => hr⟩
  | cons c cs ih =>
    have hpos := encodeRune_pos c.toNat
    have hl : (utf8 (c :: cs)).length = (encodeRune c.toNat).length + (utf8 cs).length := by
      rw [utf8_cons]; simp
    obtain ⟨b, hb, hb'⟩ := shares_spec p c Ws h
    cases f with
    | zero => omega
    | succ f =>
      have hgo : rangeStr.go (f + 1) (utf8 p).length (utf8 (c :: cs)) =
          ((utf8 p).length, c.toNat) :: rangeStr.go f (utf8 (p ++ [c])).length (utf8 cs) := by
        have hd := decodeRune_utf8_cons c cs
        cases hu : utf8 (c :: cs) with
        | nil => rw [hu] at hl; simp at hl; omega
        | cons x y =>
          rw [rangeStr.go, ← hu, hd]
          simp only
          rw [show (utf8 (p ++ [c])).length = (utf8 p).length + (encodeRune c.toNat).length by
            rw [utf8_append, utf8_cons]; simp]
          rw [utf8_cons, List.drop_left]
      rw [hgo, interceptLoop, hb, R.bind_ok]
      cases b with
      | true =>
        obtain ⟨r, h1, h2, h3, h4⟩ := ih (p ++ [c]) (hb'.1 rfl) f (by omega)
        refine ⟨c :: r, ?_, ?_, ?_, ?_⟩
        · simpa using h1
        · simpa using h2
        · simpa using h3
        · intro r' hr hall
          cases r' with
          | nil => simp
          | cons d r' =>
            obtain ⟨rfl, hr'⟩ := List.cons_prefix_cons.1 hr
            exact List.cons_prefix_cons.2 ⟨rfl, h4 r' hr' (by simpa using hall)⟩
      | false =>
        refine ⟨[], ?_, by simp, by simpa using h, ?_⟩
        · simp
        · intro r' hr hall
          cases r' with
          | nil => simp
          | cons d r' =>
            obtain ⟨rfl, hr'⟩ := List.cons_prefix_cons.1 hr
            have : (false : Bool) = true := hb'.2 fun W hW => by
              obtain ⟨q, hq⟩ := hall W hW
              exact ⟨r' ++ q, by rw [← hq]; simp⟩
            cases this

/-- For valid texts the result is the longest common prefix.  Full statement: for every list of
byte strings.  Missing: undecodable bytes, where it is false (`undecodable_panics`,
`undecodable_wrong`). -/
theorem longest_common_prefix_partial (A : List (List Char)) (hA : A ≠ []) :
    ∃ p, interceptionLeft (A.map utf8) = .ok (utf8 p) ∧ (∀ a ∈ A, p <+: a) ∧
      ∀ q, (∀ a ∈ A, q <+: a) → q <+: p := by
  match A, hA with
  | [a], _ => exact ⟨a, rfl, by simp, fun q h => h a (by simp)⟩
  | a :: w :: ws, _ =>
    obtain ⟨r, h1, h2, h3, h4⟩ := loop_spec a [] (w :: ws) (by simp) _ (Nat.le_refl _)
    refine ⟨r, by simpa [interceptionLeft, rangeStr] using h1, ?_, fun q h => ?_⟩
    · intro x hx
      rcases List.mem_cons.1 hx with rfl | hx
      · exact h2
      · exact h3 x hx
    · exact h4 q (h a (by simp)) fun W hW => h W (List.mem_cons_of_mem _ hW)

/-- The empty list. -/
theorem no_strings : interceptionLeft [] = .ok [] := rfl

/-- The code violates the full claim: an undecodable byte is taken for U+FFFD, and the next
position lies behind the end of the second string. -/
theorem undecodable_panics : interceptionLeft [utf8 ['�', 'x'], [0xff]] = .panic := by decide +kernel

/-- The same confusion gives a result that is no common prefix. -/
theorem undecodable_wrong : interceptionLeft [[0xff], [0xfe]] = .ok [0xff] ∧
    ¬ ([0xff] : Str) <+: [0xfe] := by decide +kernel

example : interceptionLeft [b!"яблоко", b!"ябеда", b!"яб"] = .ok (b!"яб") := by decide +kernel

end C50
end GoMatcher
