import Verif.Proofs.ParseGlob

/-! # `Glob.Match` on parsed globs -/

namespace GoMatcher

theorem matchAll_safe {items : List Item} (h : NoPan false items) (s : Str) :
    ∃ b, matchAll s items = .ok b := by
  have hf : 2 * (s.length + Item.size.sizeL items) + 1 ≤ 2 * (s.length + Item.size.sizeL items) + 1 :=
    Nat.le_refl _
  rw [matchAll_eq s items hf]
  have hd := (match_done (2 * (s.length + Item.size.sizeL items) + 1)).1 s items []
    (by simp only [meas, sizeN]; omega)
  have hs := (safe_all (2 * (s.length + Item.size.sizeL items) + 1)).1 s items []
    (by simpa using h)
  cases hr : matchItems (2 * (s.length + Item.size.sizeL items) + 1) s items [] with
  | ok p => exact ⟨p.1, rfl⟩
  | panic => rw [hr] at hs; exact absurd rfl hs
  | timeout => rw [hr] at hd; exact absurd rfl hd

theorem matchAll_spec {ex : Bool} {items : List Item} (h : Fine ex false items) {cs : List Char}
    : ∃ b, matchAll (utf8 cs) items = .ok b ∧ (b = true → SeqSem items cs) ∧
      (ex = true → CleanSeq items cs → SeqSem items cs → b = true) := by
  obtain ⟨b, hb⟩ := matchAll_safe h.2 (utf8 cs)
  refine ⟨b, hb, ?_⟩
  rw [matchAll_eq (utf8 cs) items (Nat.le_refl _)] at hb
  cases hr : matchItems (2 * ((utf8 cs).length + Item.size.sizeL items) + 1) (utf8 cs) items [] with
  | panic => rw [hr] at hb; cases hb
  | timeout => rw [hr] at hb; cases hb
  | ok p =>
    obtain ⟨m, ab⟩ := p
    rw [hr] at hb
    have hb' : m = b := by injection hb
    subst hb'
    have hs := (sound_all ex (2 * ((utf8 cs).length + Item.size.sizeL items) + 1)).1 cs items [] ab
      (by simpa using h.1)
    refine ⟨fun hm => ?_, fun he hno hsem => ?_⟩
    · subst hm
      have := hs hr
      simpa using this
    · cases m with
      | true => rfl
      | false =>
        subst he
        have := ((comp_all (2 * ((utf8 cs).length + Item.size.sizeL items) + 1)).1 cs items [] ab
          (by simpa using hno) (by simpa using h.1) hr).1
        exact absurd (by simpa using hsem) this

theorem hasPrefix_utf8_iff (cs ws : List Char) :
    hasPrefix (utf8 cs) (utf8 ws) = true ↔ ∃ q, cs = ws ++ q := by
  constructor
  · exact hasPrefix_utf8
  · rintro ⟨q, rfl⟩
    exact (utf8_isPrefixOf ws _).2 ⟨q, rfl⟩

theorem hasSuffix_utf8_iff (cs ws : List Char) :
    hasSuffix (utf8 cs) (utf8 ws) = true ↔ ∃ q, cs = q ++ ws := by
  unfold hasSuffix
  rw [List.isSuffixOf_iff_suffix]
  constructor
  · rintro ⟨t, h⟩
    by_cases hw : ws = []
    · exact ⟨cs, by simp [hw]⟩
    · obtain ⟨ps, qs, h1, h2, h3⟩ := utf8_occurrence (cs := cs) (p := t) (q := []) hw (by simp [h])
      have : qs = [] := by rw [← utf8_eq_nil]; exact h3.symm
      exact ⟨ps, by rw [h1, this]; simp⟩
  · rintro ⟨q, rfl⟩
    exact ⟨utf8 q, by rw [utf8_append]⟩

/-- Without wildcards in the middle, `Match` for all byte strings. -/
theorem matches_safe {ts : List Tok} {g : Glob} (h : GlobOk ts g) {ex : Bool}
    (hs : Shape ex .plain ts) (s : Str) : ∃ b, g.matches s = .ok b := by
  unfold Glob.matches
  by_cases h1 : g.node = [42]
  · rw [if_pos h1]; exact ⟨_, rfl⟩
  rw [if_neg h1]
  by_cases h2 : (s.length : Int) < g.minLen
  · rw [if_pos h2]; exact ⟨_, rfl⟩
  rw [if_neg h2]
  by_cases h3 : g.maxLen > 0 ∧ (s.length : Int) > g.maxLen
  · rw [if_pos h3]; exact ⟨_, rfl⟩
  rw [if_neg h3]
  by_cases h4 : g.items.length = 0
  · rw [if_pos h4]; exact ⟨_, rfl⟩
  rw [if_neg h4]
  by_cases h5 : g.pref ≠ [] ∧ (!hasPrefix s g.pref) = true
  · rw [if_pos h5]; exact ⟨_, rfl⟩
  rw [if_neg h5]
  dsimp only
  by_cases h6 : g.suff ≠ [] ∧ (!hasSuffix (s.drop g.pref.length) g.suff) = true
  · rw [if_pos h6]; exact ⟨_, rfl⟩
  rw [if_neg h6]
  by_cases h7 : g.vals.length > 0
  · rw [if_pos h7]; exact ⟨_, rfl⟩
  rw [if_neg h7]
  exact matchAll_safe (h.fine ex hs).2 _

/-- `Match` on valid text: sound, and exact for the shapes of C01 when no class meets U+FFFD. -/
theorem matches_spec' {ts : List Tok} {g : Glob} (h : GlobOk ts g) {ex : Bool}
    (hs : Shape ex .plain ts)
    (hstar : g.items = [] → g.node = [42] → ¬ ∀ cs, Fits ts cs ↔ cs = ['*'])
    (cs : List Char) :
    ∃ b, g.matches (utf8 cs) = .ok b ∧ (b = true → Fits ts cs) ∧
      (ex = true → CleanSeq g.items cs → MaxOk ts → Fits ts cs → b = true) := by
  unfold Glob.matches
  by_cases h1 : g.node = [42]
  · rw [if_pos h1]
    refine ⟨true, rfl, fun _ => ?_, fun _ _ _ _ => rfl⟩
    by_cases hi : g.items = []
    · obtain ⟨w, e1, e2⟩ := h.plain hi
      rw [h1] at e1
      have : w = ['*'] := utf8_inj (by rw [← e1]; decide)
      subst this
      exact absurd e2 (hstar hi h1)
    · obtain ⟨P, S, p1, p2, p3, p4, p5⟩ := h.wild hi
      rw [h1] at p3
      obtain ⟨q1, q2, q3⟩ := write_star h.write p4 p3.symm
      rw [p5]
      rw [p1, utf8_eq_nil] at q1
      rw [p2, utf8_eq_nil] at q2
      refine ⟨cs, by rw [q1, q2]; simp, ?_⟩
      rw [q3, seqSem_singleton]
      exact Nat.zero_le _
  rw [if_neg h1]
  by_cases h2 : ((utf8 cs).length : Int) < g.minLen
  · rw [if_pos h2]
    refine ⟨false, rfl, (by simp), fun _ _ _ hf => ?_⟩
    have := h.min cs hf
    omega
  rw [if_neg h2]
  by_cases h3 : g.maxLen > 0 ∧ ((utf8 cs).length : Int) > g.maxLen
  · rw [if_pos h3]
    refine ⟨false, rfl, (by simp), fun _ _ hm hf => ?_⟩
    rcases h.max hm with h | h
    · omega
    · have := h cs hf
      omega
  rw [if_neg h3]
  by_cases h4 : g.items.length = 0
  · rw [if_pos h4]
    obtain ⟨w, e1, e2⟩ := h.plain (by simpa using h4)
    refine ⟨_, rfl, fun hb => ?_, fun _ _ _ hf => ?_⟩
    · rw [decide_eq_true_eq, e1] at hb
      rw [e2]
      exact (utf8_inj hb).symm
    · rw [decide_eq_true_eq, e1, (e2 cs).1 hf]
  rw [if_neg h4]
  obtain ⟨P, S, p1, p2, p3, p4, p5⟩ := h.wild (by intro e; rw [e] at h4; exact h4 rfl)
  by_cases h5 : ∃ q, cs = P ++ q
  · obtain ⟨q, rfl⟩ := h5
    have hp : hasPrefix (utf8 (P ++ q)) g.pref = true := by
      rw [p1]; exact (hasPrefix_utf8_iff _ _).2 ⟨q, rfl⟩
    rw [if_neg (by rw [hp]; simp)]
    dsimp only
    have hd : (utf8 (P ++ q)).drop g.pref.length = utf8 q := by
      rw [p1, utf8_append, List.drop_left]
    rw [hd]
    by_cases h6 : ∃ m, q = m ++ S
    · obtain ⟨m, rfl⟩ := h6
      have hsf : hasSuffix (utf8 (m ++ S)) g.suff = true := by
        rw [p2]; exact (hasSuffix_utf8_iff _ _).2 ⟨m, rfl⟩
      rw [if_neg (by rw [hsf]; simp)]
      have ht : (utf8 (m ++ S)).take ((utf8 (m ++ S)).length - g.suff.length) = utf8 m := by
        rw [p2, utf8_append, List.length_append, Nat.add_sub_cancel, List.take_left]
      rw [ht]
      have hfit : Fits ts (P ++ (m ++ S)) ↔ SeqSem g.items m := by
        rw [p5]
        constructor
        · rintro ⟨m', e, hm⟩
          have : m = m' := by simpa using e
          rw [this]; exact hm
        · intro hm; exact ⟨m, by simp, hm⟩
      by_cases h7 : g.vals.length > 0
      · rw [if_pos h7]
        rcases h.vals with hv | ⟨l, hl, hv⟩
        · rw [hv] at h7; simp at h7
        · have hsem : g.vals.contains (utf8 m) = true ↔ Fits ts (P ++ (m ++ S)) := by
            rw [hfit, hl, seqSem_singleton, List.contains_iff_mem, hv]
            show _ ↔ (utf8 m ∈ l.vals ∨ (l.minSize = 0 ∧ m = []))
            rw [utf8_eq_nil]
          exact ⟨_, rfl, hsem.1, fun _ _ _ => hsem.2⟩
      · rw [if_neg h7]
        obtain ⟨b, hb, hb1, hb2⟩ := matchAll_spec (cs := m) (h.fine ex hs)
        refine ⟨b, hb, fun e => hfit.2 (hb1 e), fun he hno _ hf =>
          hb2 he (hno.imp (fun hno c hc => hno c (by simp [hc])) id) (hfit.1 hf)⟩
    · have hsf : hasSuffix (utf8 q) g.suff = false := by
        rw [p2, Bool.eq_false_iff]
        intro e
        exact h6 ((hasSuffix_utf8_iff _ _).1 e)
      have hne : g.suff ≠ [] := by
        rw [p2]
        intro e
        rw [utf8_eq_nil] at e
        exact h6 ⟨q, by simp [e]⟩
      rw [if_pos ⟨hne, by rw [hsf]; rfl⟩]
      refine ⟨false, rfl, by simp, fun _ _ _ hf => ?_⟩
      obtain ⟨m, e, _⟩ := (p5 _).1 hf
      exact absurd ⟨m, by simpa using e⟩ h6
  · have hp : hasPrefix (utf8 cs) g.pref = false := by
      rw [p1, Bool.eq_false_iff]
      intro e
      exact h5 ((hasPrefix_utf8_iff _ _).1 e)
    have hne : g.pref ≠ [] := by
      rw [p1]
      intro e
      rw [utf8_eq_nil] at e
      exact h5 ⟨cs, by simp [e]⟩
    rw [if_pos ⟨hne, by rw [hp]; rfl⟩]
    refine ⟨false, rfl, by simp, fun _ _ _ hf => ?_⟩
    obtain ⟨m, e, _⟩ := (p5 _).1 hf
    exact absurd ⟨m ++ S, by simpa using e⟩ h5

theorem matches_spec {ts : List Tok} {g : Glob} (h : GlobOk ts g) {ex : Bool}
    (hs : Shape ex .plain ts) (hstar : ¬ ∀ cs, Fits ts cs ↔ cs = ['*']) (cs : List Char) :
    ∃ b, g.matches (utf8 cs) = .ok b ∧ (b = true → Fits ts cs) ∧
      (ex = true → CleanSeq g.items cs → MaxOk ts → Fits ts cs → b = true) :=
  matches_spec' h hs (fun _ _ => hstar) cs

end GoMatcher
