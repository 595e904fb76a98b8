import Verif.Proofs.ItemSem

/-! # What the matcher computes on well-behaved item sequences -/

namespace GoMatcher

/-! ## Helpers for the result type -/

theorem fstR_ok {x : R (Bool × Bool)} {m : Bool} (h : fstR x = .ok m) :
    ∃ ab, x = .ok (m, ab) := by
  cases x with
  | ok p => simp only [fstR, R.ok.injEq] at h; exact ⟨p.2, by rw [← h]⟩
  | panic => simp [fstR] at h
  | timeout => simp [fstR] at h

theorem retR_ok {x : R Bool} {m ab : Bool} (h : retR x = .ok (m, ab)) :
    x = .ok m ∧ ab = false := by
  cases x <;> simp_all [retR]

theorem orR_true {x y : R Bool} (h : orR x y = .ok true) : x = .ok true ∨ y = .ok true := by
  cases x with
  | ok m => cases m <;> simp_all [orR]
  | panic => simp [orR] at h
  | timeout => simp [orR] at h

theorem orR_false {x y : R Bool} (h : orR x y = .ok false) : x = .ok false ∧ y = .ok false := by
  cases x with
  | ok m => cases m <;> simp_all [orR]
  | panic => simp [orR] at h
  | timeout => simp [orR] at h

/-! ## Pending items -/

theorem NextItems.flatten_of_isEmpty {next : NextItems} (h : next.isEmpty = true) :
    next.flatten = [] := by
  simp only [NextItems.isEmpty, List.all_eq_true, List.isEmpty_iff] at h
  simpa using h

theorem NextItems.next_flatten (next : NextItems) :
    next.next.1 ++ next.next.2.flatten = next.flatten := by
  cases next with
  | nil => rfl
  | cons l t =>
    cases l with
    | nil => cases t <;> simp [NextItems.next]
    | cons x l => simp [NextItems.next]

theorem contWith_ok {F G : Matcher} {rest : List Item} {next : NextItems} {t : Str} {m : Bool}
    (h : contWith F G rest next t = .ok m) :
    (rest = [] ∧ next.flatten = [] ∧ m = decide (t = [])) ∨
    (rest = [] ∧ next.isEmpty = false ∧ ∃ ab, F t next.next.1 next.next.2 = .ok (m, ab)) ∨
    (rest ≠ [] ∧ ∃ ab, G t rest next = .ok (m, ab)) := by
  unfold contWith at h
  cases rest with
  | nil =>
    simp only [List.isEmpty_nil, if_true] at h
    cases he : next.isEmpty with
    | true =>
      rw [he] at h
      simp only [if_true, R.ok.injEq] at h
      exact Or.inl ⟨rfl, NextItems.flatten_of_isEmpty he, h.symm⟩
    | false =>
      rw [he] at h
      simp only [Bool.false_eq_true, if_false] at h
      exact Or.inr (Or.inl ⟨rfl, rfl, fstR_ok h⟩)
  | cons x l =>
    simp only [List.isEmpty_cons, Bool.false_eq_true, if_false] at h
    exact Or.inr (Or.inr ⟨by simp, fstR_ok h⟩)

/-! ## Loops -/

theorem listLoop_true {s : Str} {k : Str → R Bool} {vals : List Str}
    (h : listLoop s k vals = .ok true) :
    ∃ v ∈ vals, hasPrefix s v = true ∧ k (s.drop v.length) = .ok true := by
  induction vals with
  | nil => simp [listLoop] at h
  | cons v vs ih =>
    unfold listLoop at h
    split at h
    · rename_i hp
      rcases orR_true h with h | h
      · exact ⟨v, by simp, hp, h⟩
      · obtain ⟨w, h1, h2⟩ := ih h
        exact ⟨w, by simp [h1], h2⟩
    · obtain ⟨w, h1, h2⟩ := ih h
      exact ⟨w, by simp [h1], h2⟩

theorem listLoop_false {s : Str} {k : Str → R Bool} {vals : List Str}
    (h : listLoop s k vals = .ok false) :
    ∀ v ∈ vals, hasPrefix s v = true → k (s.drop v.length) = .ok false := by
  induction vals with
  | nil => simp
  | cons v vs ih =>
    unfold listLoop at h
    intro w hw hp
    rcases List.mem_cons.1 hw with rfl | hw
    · rw [if_pos hp] at h
      exact (orR_false h).1
    · split at h
      · exact ih (orR_false h).2 w hw hp
      · exact ih h w hw hp

theorem groupLoop_true {k : Item → R Bool} {vals : List Item} (h : groupLoop k vals = .ok true) :
    ∃ v ∈ vals, k v = .ok true := by
  induction vals with
  | nil => simp [groupLoop] at h
  | cons v vs ih =>
    unfold groupLoop at h
    rcases orR_true h with h | h
    · exact ⟨v, by simp, h⟩
    · obtain ⟨w, h1, h2⟩ := ih h
      exact ⟨w, by simp [h1], h2⟩

theorem groupLoop_false {k : Item → R Bool} {vals : List Item} (h : groupLoop k vals = .ok false) :
    ∀ v ∈ vals, k v = .ok false := by
  induction vals with
  | nil => simp
  | cons v vs ih =>
    unfold groupLoop at h
    intro w hw
    rcases List.mem_cons.1 hw with rfl | hw
    · exact (orR_false h).1
    · exact ih (orR_false h).2 w hw

theorem starListInner_true {s : Str} {k : Str → R Bool} {vals : List Str} {off o : Option Nat}
    (h : starListInner s k vals off = .ok (true, o)) :
    ∃ v ∈ vals, ∃ i, strIndex s v = some i ∧ k (s.drop (i + v.length)) = .ok true := by
  induction vals generalizing off with
  | nil => simp [starListInner] at h
  | cons v vs ih =>
    unfold starListInner at h
    cases hi : strIndex s v with
    | none =>
      simp only [hi] at h
      obtain ⟨w, h1, h2⟩ := ih h
      exact ⟨w, by simp [h1], h2⟩
    | some i =>
      simp only [hi] at h
      cases hk : k (s.drop (i + v.length)) with
      | panic => simp [hk] at h
      | timeout => simp [hk] at h
      | ok m =>
        cases m with
        | true => exact ⟨v, by simp, i, hi, hk⟩
        | false =>
          simp only [hk, Bool.false_eq_true, if_false] at h
          obtain ⟨w, h1, h2⟩ := ih h
          exact ⟨w, by simp [h1], h2⟩

theorem maxOff_some (off : Option Nat) (i : Nat) :
    ∃ m, maxOff off i = some m ∧ i ≤ m ∧ (∀ o, off = some o → o ≤ m) ∧
      (m = i ∨ off = some m) := by
  cases off with
  | none => exact ⟨i, rfl, Nat.le_refl _, by simp, Or.inl rfl⟩
  | some o =>
    unfold maxOff
    by_cases h : o < i
    · exact ⟨i, by simp [h], Nat.le_refl _, by simp; omega, Or.inl rfl⟩
    · exact ⟨o, by simp [h], by omega, by simp, Or.inr rfl⟩

theorem starListInner_false {s : Str} {k : Str → R Bool} {vals : List Str} {off o : Option Nat}
    (h : starListInner s k vals off = .ok (false, o)) :
    (∀ v ∈ vals, ∀ i, strIndex s v = some i →
      k (s.drop (i + v.length)) = .ok false ∧ ∃ m, o = some m ∧ i ≤ m) ∧
    (∀ x, off = some x → ∃ m, o = some m ∧ x ≤ m) ∧
    (∀ m, o = some m → off = some m ∨ ∃ v ∈ vals, strIndex s v = some m) := by
  induction vals generalizing off with
  | nil =>
    simp only [starListInner, R.ok.injEq, Prod.mk.injEq, true_and] at h
    subst h
    refine ⟨by simp, ?_, ?_⟩
    · intro x hx; exact ⟨x, hx, Nat.le_refl _⟩
    · intro m hm; exact Or.inl hm
  | cons v vs ih =>
    unfold starListInner at h
    cases hi : strIndex s v with
    | none =>
      simp only [hi] at h
      obtain ⟨h1, h2, h3⟩ := ih h
      refine ⟨?_, h2, ?_⟩
      · intro w hw i hwi
        rcases List.mem_cons.1 hw with rfl | hw
        · rw [hi] at hwi; cases hwi
        · exact h1 w hw i hwi
      · intro m hm
        rcases h3 m hm with h | ⟨w, h4, h5⟩
        · exact Or.inl h
        · exact Or.inr ⟨w, by simp [h4], h5⟩
    | some i =>
      simp only [hi] at h
      cases hk : k (s.drop (i + v.length)) with
      | panic => simp [hk] at h
      | timeout => simp [hk] at h
      | ok m =>
        cases m with
        | true => simp [hk] at h
        | false =>
          simp only [hk, Bool.false_eq_true, if_false] at h
          obtain ⟨h1, h2, h3⟩ := ih h
          obtain ⟨mo, e1, e2, e3, e4⟩ := maxOff_some off i
          obtain ⟨m, e5, e6⟩ := h2 mo e1
          refine ⟨?_, ?_, ?_⟩
          · intro w hw j hwj
            rcases List.mem_cons.1 hw with rfl | hw
            · rw [hi] at hwj; cases hwj
              exact ⟨hk, m, e5, by omega⟩
            · exact h1 w hw j hwj
          · intro x hx
            exact ⟨m, e5, Nat.le_trans (e3 x hx) e6⟩
          · intro m' hm'
            rcases h3 m' hm' with h | ⟨w, h4, h5⟩
            · rw [e1] at h; cases h
              rcases e4 with rfl | e4
              · exact Or.inr ⟨v, by simp, hi⟩
              · exact Or.inl e4
            · exact Or.inr ⟨w, by simp [h4], h5⟩

/-- Values of a list item: non-empty valid texts. -/
def ValsOk (vals : List Str) : Prop := ∀ v ∈ vals, ∃ ws, v = utf8 ws ∧ ws ≠ []

/-- An index found in a text splits it at a character boundary. -/
theorem strIndex_split {cs ws : List Char} {i : Nat} (h : strIndex (utf8 cs) (utf8 ws) = some i) :
    ∃ p q, cs = p ++ ws ++ q ∧ i = (utf8 p).length ∧
      ∀ p' q', cs = p' ++ ws ++ q' → p.length ≤ p'.length := by
  rcases strIndex_utf8 cs ws with ⟨p, q, h1, h2, h3⟩ | ⟨_, h2⟩
  · rw [h] at h2; cases h2; exact ⟨p, q, h1, rfl, h3⟩
  · rw [h] at h2; cases h2

theorem drop_after {p ws q : List Char} :
    (utf8 (p ++ ws ++ q)).drop ((utf8 p).length + (utf8 ws).length) = utf8 q := by
  rw [← utf8_length_append, drop_utf8_append]

theorem starListLoop_true {vals : List Str} (hv : ValsOk vals) {k : Str → R Bool} {fuel : Nat}
    {cs : List Char} (h : starListLoop vals k fuel (utf8 cs) = .ok true) :
    ∃ ws p q, utf8 ws ∈ vals ∧ cs = p ++ ws ++ q ∧ k (utf8 q) = .ok true := by
  induction fuel generalizing cs with
  | zero => simp [starListLoop] at h
  | succ fuel ih =>
    unfold starListLoop at h
    cases hin : starListInner (utf8 cs) k vals none with
    | panic => simp [hin] at h
    | timeout => simp [hin] at h
    | ok r =>
      obtain ⟨m, o⟩ := r
      cases m with
      | true =>
        obtain ⟨v, hvm, i, hi, hk⟩ := starListInner_true hin
        obtain ⟨ws, rfl, _⟩ := hv v hvm
        obtain ⟨p, q, rfl, rfl, _⟩ := strIndex_split hi
        rw [drop_after] at hk
        exact ⟨ws, p, q, hvm, rfl, hk⟩
      | false =>
        cases o with
        | none => simp [hin] at h
        | some o =>
          obtain ⟨_, _, h3⟩ := starListInner_false hin
          rcases h3 o rfl with h4 | ⟨v, hvm, hi⟩
          · cases h4
          · obtain ⟨ws, rfl, hne⟩ := hv v hvm
            obtain ⟨p, q, rfl, rfl, _⟩ := strIndex_split hi
            simp only [hin] at h
            rw [List.append_assoc, drop_utf8_append] at h
            obtain ⟨c, ws', rfl⟩ := List.exists_cons_of_ne_nil hne
            rw [List.cons_append, decodeRune_utf8_cons] at h
            dsimp only at h
            split at h
            · cases h
            · rw [drop_utf8_cons] at h
              obtain ⟨ws2, p2, q2, h5, h6, h7⟩ := ih h
              refine ⟨ws2, p ++ c :: p2, q2, h5, ?_, h7⟩
              rw [List.append_assoc, List.cons_append, h6]
              simp

theorem starOptLoop_true {k : Str → R Bool} {fuel : Nat} {cs : List Char}
    (h : starOptLoop k fuel (utf8 cs) = .ok true) : ∃ t, t <:+ cs ∧ k (utf8 t) = .ok true := by
  induction fuel generalizing cs with
  | zero => simp [starOptLoop] at h
  | succ fuel ih =>
    unfold starOptLoop at h
    rcases orR_true h with h | h
    · exact ⟨cs, List.suffix_refl _, h⟩
    · dsimp only at h
      cases cs with
      | nil => simp [utf8, decodeRune] at h
      | cons c cs =>
        rw [decodeRune_utf8_cons] at h
        dsimp only at h
        split at h
        · cases h
        · rw [drop_utf8_cons] at h
          obtain ⟨t, h1, h2⟩ := ih h
          exact ⟨t, h1.trans (List.suffix_cons c cs), h2⟩

theorem encode_width_pos (c : Char) : ¬ (encodeRune c.toNat).length < 1 := by
  have := encodeRune_pos c.toNat
  omega

theorem starOptLoop_false {k : Str → R Bool} {fuel : Nat} {cs : List Char}
    (h : starOptLoop k fuel (utf8 cs) = .ok false) : ∀ t, t <:+ cs → k (utf8 t) = .ok false := by
  induction fuel generalizing cs with
  | zero => simp [starOptLoop] at h
  | succ fuel ih =>
    unfold starOptLoop at h
    obtain ⟨h1, h2⟩ := orR_false h
    intro t ht
    cases cs with
    | nil => rw [List.suffix_nil.1 ht]; exact h1
    | cons c cs =>
      rcases List.suffix_cons_iff.1 ht with rfl | ht
      · exact h1
      · dsimp only at h2
        rw [decodeRune_utf8_cons] at h2
        dsimp only at h2
        rw [if_neg (encode_width_pos c), drop_utf8_cons] at h2
        exact ih h2 t ht

/-- Two splits of a text where the first part of one is not longer. -/
theorem append_split_le {α : Type} {a b c d : List α} (h : a ++ b = c ++ d) (hl : a.length ≤ c.length) :
    ∃ r, c = a ++ r ∧ b = r ++ d := by
  obtain ⟨r, rfl⟩ := List.prefix_of_prefix_length_le ⟨b, rfl⟩ ⟨d, h.symm⟩ hl
  refine ⟨r, rfl, ?_⟩
  rw [List.append_assoc] at h
  exact List.append_cancel_left h

theorem append_split_eq {α : Type} {a b c d : List α} (h : a ++ b = c ++ d) (hl : a.length = c.length) :
    a = c ∧ b = d := List.append_inj h hl

/-- Every value was tried after its first occurrence. -/
theorem starListLoop_first {vals : List Str} {k : Str → R Bool} {fuel : Nat}
    {cs : List Char} (h : starListLoop vals k fuel (utf8 cs) = .ok false)
    {ws p q : List Char} (hm : utf8 ws ∈ vals) (hcs : cs = p ++ ws ++ q) :
    ∃ p0 q0, cs = p0 ++ ws ++ q0 ∧ p0.length ≤ p.length ∧ k (utf8 q0) = .ok false := by
  cases fuel with
  | zero => simp [starListLoop] at h
  | succ fuel =>
    unfold starListLoop at h
    cases hin : starListInner (utf8 cs) k vals none with
    | panic => simp [hin] at h
    | timeout => simp [hin] at h
    | ok r =>
      obtain ⟨m, o⟩ := r
      cases m with
      | true => simp [hin] at h
      | false =>
        obtain ⟨h1, _, _⟩ := starListInner_false hin
        rcases strIndex_utf8 cs ws with ⟨p0, q0, e1, e2, e3⟩ | ⟨e1, _⟩
        · refine ⟨p0, q0, e1, e3 p q hcs, ?_⟩
          have := (h1 _ hm _ e2).1
          rw [e1, drop_after] at this
          exact this
        · exact absurd hcs (e1 p q)

theorem starListLoop_single {v : Str} (hv : ValsOk [v]) {k : Str → R Bool} {fuel : Nat}
    {cs : List Char} (h : starListLoop [v] k fuel (utf8 cs) = .ok false)
    {ws p q : List Char} (hm : utf8 ws = v) (hcs : cs = p ++ ws ++ q) :
    k (utf8 q) = .ok false := by
  induction fuel generalizing cs p with
  | zero => simp [starListLoop] at h
  | succ fuel ih =>
    obtain ⟨p0, q0, e1, e2, e3⟩ := starListLoop_first h (ws := ws) (by simp [hm]) hcs
    unfold starListLoop at h
    cases hin : starListInner (utf8 cs) k [v] none with
    | panic => simp [hin] at h
    | timeout => simp [hin] at h
    | ok r =>
      obtain ⟨m, o⟩ := r
      cases m with
      | true => simp [hin] at h
      | false =>
        obtain ⟨h1, _, h3⟩ := starListInner_false hin
        rcases strIndex_utf8 cs ws with ⟨p1, q1, f1, f2, f3⟩ | ⟨f1, _⟩
        · obtain ⟨hk, mx, rfl, hle⟩ := h1 v (by simp) _ (by rw [← hm]; exact f2)
          have hmx : mx = (utf8 p1).length := by
            rcases h3 mx rfl with h4 | ⟨w, hw, hi⟩
            · cases h4
            · rw [List.mem_singleton.1 hw, ← hm, f2] at hi
              exact (Option.some.inj hi).symm
          subst hmx
          simp only [hin] at h
          rw [f1, List.append_assoc, drop_utf8_append] at h
          obtain ⟨ws', e, hne⟩ := hv v (by simp)
          have : ws = ws' := utf8_inj (hm.trans e)
          subst this
          obtain ⟨c, ws', rfl⟩ := List.exists_cons_of_ne_nil hne
          rw [List.cons_append, decodeRune_utf8_cons] at h
          dsimp only at h
          rw [if_neg (encode_width_pos c), drop_utf8_cons] at h
          rcases Nat.eq_or_lt_of_le (f3 p q hcs) with hl | hl
          · have e' : p1 ++ (c :: ws' ++ q1) = p ++ (c :: ws' ++ q) := by
              rw [← List.append_assoc, ← List.append_assoc, ← f1, ← hcs]
            obtain ⟨rfl, e''⟩ := append_split_eq e' hl
            have : q1 = q := List.append_cancel_left e''
            subst this
            rw [f1, ← hm, drop_after] at hk
            exact hk
          · have e' : p1 ++ (c :: ws' ++ q1) = p ++ (c :: ws' ++ q) := by
              rw [← List.append_assoc, ← List.append_assoc, ← f1, ← hcs]
            obtain ⟨r, rfl, e''⟩ := append_split_le e' (Nat.le_of_lt hl)
            cases r with
            | nil => simp at hl
            | cons d r =>
              simp only [List.cons_append, List.cons.injEq] at e''
              exact ih h (p := r) (by rw [e''.2]; simp)
        · exact absurd hcs (f1 p q)

theorem starListLoop_end {vals : List Str} (hv : ValsOk vals) {k : Str → R Bool} {fuel : Nat}
    (hk : k [] ≠ .ok false)
    {cs : List Char} (h : starListLoop vals k fuel (utf8 cs) = .ok false)
    {ws p : List Char} (hm : utf8 ws ∈ vals) (hcs : cs = p ++ ws) : False := by
  induction fuel generalizing cs p with
  | zero => simp [starListLoop] at h
  | succ fuel ih =>
    obtain ⟨p0, q0, e1, e2, e3⟩ := starListLoop_first h hm (q := []) (by simpa using hcs)
    have hq0 : q0 ≠ [] := by
      rintro rfl
      exact hk e3
    have hlt : p0.length < p.length := by
      have := congrArg List.length (e1.symm.trans hcs)
      have := List.length_pos_iff.2 hq0
      simp at *
      omega
    unfold starListLoop at h
    cases hin : starListInner (utf8 cs) k vals none with
    | panic => simp [hin] at h
    | timeout => simp [hin] at h
    | ok r =>
      obtain ⟨m, o⟩ := r
      cases m with
      | true => simp [hin] at h
      | false =>
        obtain ⟨h1, _, h3⟩ := starListInner_false hin
        rcases strIndex_utf8 cs ws with ⟨p1, q1, f1, f2, f3⟩ | ⟨f1, _⟩
        · obtain ⟨_, mx, rfl, _⟩ := h1 _ hm _ f2
          rcases h3 mx rfl with h4 | ⟨w2, hw2, hi2⟩
          · cases h4
          · obtain ⟨ws2, rfl, hne2⟩ := hv _ hw2
            obtain ⟨p2, q2, g1, rfl, g3⟩ := strIndex_split hi2
            have hp2 : p2.length < p.length := by
              apply Classical.byContradiction
              intro hge
              have e : p ++ ws = p2 ++ (ws2 ++ q2) := by
                rw [← List.append_assoc, ← g1, ← hcs]
              obtain ⟨x, rfl, hx⟩ := append_split_le e (by omega)
              have := g3 (p0 ++ x) (q2 ++ q0) (by rw [e1, hx]; simp)
              simp at this
              omega
            simp only [hin] at h
            rw [g1, List.append_assoc, drop_utf8_append] at h
            obtain ⟨c, ws', rfl⟩ := List.exists_cons_of_ne_nil hne2
            rw [List.cons_append, decodeRune_utf8_cons] at h
            dsimp only at h
            rw [if_neg (encode_width_pos c), drop_utf8_cons] at h
            have e' : p2 ++ (c :: ws' ++ q2) = p ++ ws := by
              rw [← List.append_assoc, ← g1, ← hcs]
            obtain ⟨r, rfl, e''⟩ := append_split_le e' (Nat.le_of_lt hp2)
            cases r with
            | nil => simp at hp2
            | cons d r =>
              simp only [List.cons_append, List.cons.injEq] at e''
              exact ih h e''.2
        · exact absurd hcs (by simpa using f1 p [])

/-! ## Well-behaved sequences -/

/-- The list search of `matchStarItems` is complete in front of these. -/
def ListOk (l : StringList) (rest : List Item) : Prop :=
  l.vals.length ≤ 1 ∨ rest = [] ∨ ∃ n r, rest = .star n :: r

/-- List items as built by the parser. -/
structure ListWF (l : StringList) : Prop where
  vals : ValsOk l.vals
  min : ∀ v ∈ l.vals, l.minSize ≤ v.length
  nonneg : l.minSize ≤ 0 → l.minSize = 0

/-- Groups as built by the parser. -/
structure GroupWF (vals : List Item) (mn : Int) : Prop where
  min : ∀ cs, AnySem vals cs → mn ≤ (utf8 cs).length
  opt : mn = 0 → AnySem vals []

/-- Sequences on which the matcher is correct.  With `ex` the matcher is exact, without it
only sound.  The second flag says that a star precedes. -/
inductive Good (ex : Bool) : Bool → List Item → Prop
  | nil (a : Bool) : Good ex a []
  | lit {a : Bool} {it : Item} {w : Nat} {rest : List Item} (h : FindItem it w)
      (hr : Good ex false rest) : Good ex a (it :: rest)
  | any {a : Bool} {n : Nat} {rest : List Item} (hr : Good ex false rest) :
      Good ex a (.any n :: rest)
  | star {a : Bool} {n : Nat} {rest : List Item} (h : a = true → ex = false ∧ n = 0)
      (hr : Good ex true rest) : Good ex a (.star n :: rest)
  | list {a : Bool} {l : StringList} {rest : List Item} (hw : ListWF l)
      (hl : a = true → ex = true → ListOk l rest) (hr : Good ex false rest)
      (ho : a = true → l.minSize = 0 → Good ex true rest) : Good ex a (.list l :: rest)
  | group {a : Bool} {vals : List Item} {mn mx : Int} {rest : List Item} (hw : GroupWF vals mn)
      (hne : a = true → ex = true → ∀ v ∈ vals, groupItems v ≠ [])
      (hr : ∀ v ∈ vals, Good ex a (groupItems v ++ rest))
      (ho : mn = 0 → Good ex a rest) : Good ex a (.group vals mn mx :: rest)

theorem sliceFrom_utf8 (a b : List Char) :
    sliceFrom (utf8 (a ++ b)) (utf8 a).length = .ok (utf8 b) := by
  unfold sliceFrom
  rw [if_pos (by simp), drop_utf8_append]

theorem sliceFromInt_utf8 (a b : List Char) :
    sliceFromInt (utf8 (a ++ b)) ((utf8 a).length : Int) = .ok (utf8 b) := by
  unfold sliceFromInt
  rw [if_pos (by simp; omega)]
  simp

theorem sliceFrom_zero (s : Str) : sliceFrom s 0 = .ok s := by simp [sliceFrom]

theorem hasPrefix_utf8 {cs ws : List Char} (h : hasPrefix (utf8 cs) (utf8 ws) = true) :
    ∃ q, cs = ws ++ q := by
  obtain ⟨q, e⟩ := (utf8_isPrefixOf ws cs).1 h
  exact ⟨q, e.symm⟩

theorem againStep_ok {L : Matcher} {cs : List Char} {items : List Item} {next : NextItems}
    {m ab : Bool} (h : againStep L (utf8 cs) items next = .ok (m, ab)) :
    (cs = [] ∧ m = false ∧ ab = false) ∨
    ∃ c t, cs = c :: t ∧ L (utf8 t) items next = .ok (m, ab) := by
  unfold againStep at h
  dsimp only at h
  cases cs with
  | nil =>
    left
    simp [utf8, decodeRune] at h
    exact ⟨rfl, h.1, h.2⟩
  | cons c t =>
    right
    rw [decodeRune_utf8_cons] at h
    dsimp only at h
    rw [if_neg (encode_width_pos c), drop_utf8_cons] at h
    exact ⟨c, t, rfl, h⟩

/-! ## Soundness -/

section Sound
variable {ex : Bool} {M S L : Matcher}

/-- Soundness of `matchItems` and of the star search. -/
def SoundM (ex : Bool) (M : Matcher) : Prop := ∀ cs items next ab,
  Good ex false (items ++ next.flatten) → M (utf8 cs) items next = .ok (true, ab) →
  SeqSem (items ++ next.flatten) cs

def SoundS (ex : Bool) (S : Matcher) : Prop := ∀ cs items next ab,
  Good ex true (items ++ next.flatten) → S (utf8 cs) items next = .ok (true, ab) →
  ∃ t, t <:+ cs ∧ SeqSem (items ++ next.flatten) t

theorem Good.of_false {P : List Item} (h : Good ex true P) : Good ex false P := by
  generalize ha : true = a at h
  induction h with
  | nil => exact .nil _
  | lit h hr => exact .lit h hr
  | any hr => exact .any hr
  | star h hr => exact .star (by simp) hr
  | list hw hl hr ho => exact .list hw (by simp) hr (by simp)
  | group hw hne hr ho ih1 ih2 =>
    subst ha
    exact .group hw (by simp) (fun v hv => ih1 v hv rfl) (fun h => ih2 h rfl)

theorem sound_contM (hM : SoundM ex M) {rest : List Item} {next : NextItems} {cs : List Char}
    (hg : Good ex false (rest ++ next.flatten))
    (h : contWith M M rest next (utf8 cs) = .ok true) : SeqSem (rest ++ next.flatten) cs := by
  rcases contWith_ok h with ⟨rfl, e, h⟩ | ⟨rfl, _, ab, h⟩ | ⟨_, ab, h⟩
  · have h' := h.symm
    rw [decide_eq_true_iff] at h'
    rw [e]
    simpa [SeqSem] using (utf8_eq_nil _).1 h'
  · rw [List.nil_append] at hg ⊢
    rw [← NextItems.next_flatten] at hg ⊢
    exact hM _ _ _ _ hg h
  · exact hM _ _ _ _ hg h

theorem sound_contS {F : Matcher} (hF : SoundM ex F ∨ SoundS ex F) (hS : SoundS ex S)
    {rest : List Item} {next : NextItems}
    {cs : List Char} (hg : Good ex true (rest ++ next.flatten))
    (h : contWith F S rest next (utf8 cs) = .ok true) :
    ∃ t, t <:+ cs ∧ SeqSem (rest ++ next.flatten) t := by
  rcases contWith_ok h with ⟨rfl, e, h⟩ | ⟨rfl, _, ab, h⟩ | ⟨_, ab, h⟩
  · have h' := h.symm
    rw [decide_eq_true_iff] at h'
    rw [e]
    exact ⟨cs, List.suffix_refl _, by simpa [SeqSem] using (utf8_eq_nil _).1 h'⟩
  · rw [List.nil_append] at hg ⊢
    rw [← NextItems.next_flatten] at hg ⊢
    rcases hF with hF | hF
    · exact ⟨cs, List.suffix_refl _, hF _ _ _ _ hg.of_false h⟩
    · exact hF _ _ _ _ hg h
  · exact hS _ _ _ _ hg h

theorem sound_done {it : Item} {w : Nat} (hd : DoneItem it w) (hM : SoundM ex M)
    {rest : List Item} {next : NextItems} {cs : List Char} {ab : Bool}
    (hr : Good ex false (rest ++ next.flatten))
    (h : matchStep M S (utf8 cs) (it :: rest) next = .ok (true, ab)) :
    SeqSem (it :: (rest ++ next.flatten)) cs := by
  unfold matchStep at h
  dsimp only at h
  split at h
  · cases h
  · rcases hd.matchAt cs with ⟨a, b, rfl, h1, h2⟩ | ⟨_, h2⟩
    · rw [h2] at h
      dsimp only at h
      rw [sliceFrom_utf8] at h
      exact ⟨a, b, rfl, h1, hM _ _ _ _ hr h⟩
    · rw [h2] at h
      cases h

theorem sound_matchStep (hM : SoundM ex M) (hS : SoundS ex S) : SoundM ex (matchStep M S) := by
  intro cs items next ab hg h
  cases items with
  | nil =>
    unfold matchStep at h
    dsimp only at h
    rw [List.nil_append] at hg ⊢
    split at h
    · rename_i he
      rw [NextItems.flatten_of_isEmpty he]
      simp only [R.ok.injEq, Prod.mk.injEq, decide_eq_true_iff] at h
      exact (utf8_eq_nil _).1 h.1
    · obtain ⟨ab', h'⟩ := fstR_ok (retR_ok h).1
      rw [← NextItems.next_flatten] at hg ⊢
      exact hM _ _ _ _ hg h'
  | cons it rest =>
    rw [List.cons_append] at hg ⊢
    cases hg with
    | lit hd hr => exact sound_done hd.toDoneItem hM hr h
    | any hr => exact sound_done (doneItem_any _) hM hr h
    | @star _ n _ _ hr =>
      unfold matchStep at h
      dsimp only at h
      split at h
      · cases h
      · simp only [Item.matchAt, skipRunes_utf8] at h
        by_cases hn : n ≤ cs.length
        · simp only [hn, if_true] at h
          have e : sliceFrom (utf8 cs) (utf8 (cs.take n)).length = .ok (utf8 (cs.drop n)) := by
            have := sliceFrom_utf8 (cs.take n) (cs.drop n)
            rwa [List.take_append_drop] at this
          rw [e] at h
          dsimp only at h
          unfold matchFlag at h
          have fin : ∀ t, t <:+ cs.drop n → SeqSem (rest ++ next.flatten) t →
              SeqSem (.star n :: (rest ++ next.flatten)) cs := by
            rintro t ⟨p, hp⟩ ht
            refine ⟨cs.take n ++ p, t, ?_, ?_, ht⟩
            · rw [List.append_assoc, hp, List.take_append_drop]
            · simp only [Item.Sem]; simp; omega
          simp only [List.isEmpty_iff] at h
          split at h
          · rename_i hre
            subst hre
            rw [List.nil_append] at *
            split at h
            · rename_i hne
              rw [NextItems.flatten_of_isEmpty hne] at fin ⊢
              exact fin [] List.nil_suffix (by simp [SeqSem])
            · rw [← NextItems.next_flatten] at hr fin ⊢
              obtain ⟨t, h1, h2⟩ := hS _ _ _ _ hr h
              exact fin t h1 h2
          · obtain ⟨t, h1, h2⟩ := hS _ _ _ _ hr h
            exact fin t h1 h2
        · simp only [hn, if_false] at h
          cases h
    | @list _ l _ hw hl hr ho =>
      unfold matchStep at h
      dsimp only at h
      split at h
      · cases h
      · simp only [Item.matchAt, sliceFrom_zero] at h
        unfold matchFlag at h
        dsimp only at h
        rcases orR_true (retR_ok h).1 with h | h
        · split at h
          · rename_i h0
            exact ⟨[], cs, rfl, Or.inr ⟨h0, rfl⟩, sound_contM hM hr h⟩
          · cases h
        · obtain ⟨v, hv, hp, hk⟩ := listLoop_true h
          obtain ⟨ws, rfl, _⟩ := hw.vals v hv
          obtain ⟨q, rfl⟩ := hasPrefix_utf8 hp
          rw [drop_utf8_append] at hk
          exact ⟨ws, q, rfl, Or.inl hv, sound_contM hM hr hk⟩
    | @group _ vals mn mx _ hw hne hr ho =>
      unfold matchStep at h
      dsimp only at h
      split at h
      · cases h
      · simp only [Item.matchAt, sliceFrom_zero] at h
        unfold matchFlag at h
        dsimp only at h
        rcases orR_true (retR_ok h).1 with h | h
        · split at h
          · rename_i h0
            exact ⟨[], cs, rfl, hw.opt h0, sound_contM hM (ho h0) h⟩
          · cases h
        · obtain ⟨v, hv, hk⟩ := groupLoop_true h
          obtain ⟨ab', hk⟩ := fstR_ok hk
          have := hM cs (groupItems v) (rest :: next) ab'
            (by simpa using hr v hv) hk
          rw [List.flatten_cons, seqSem_append] at this
          obtain ⟨a, b, rfl, h1, h2⟩ := this
          exact ⟨a, b, rfl, (anySem_iff _ _).2 ⟨v, hv, (seqSem_groupItems _ _).1 h1⟩, h2⟩

theorem sound_starStep (hS : SoundS ex S) (hL : SoundS ex L) : SoundS ex (starStep S L) := by
  intro cs items next ab hg h
  cases items with
  | nil =>
    unfold starStep at h
    dsimp only at h
    rw [List.nil_append] at hg ⊢
    split at h
    · rename_i he
      rw [NextItems.flatten_of_isEmpty he]
      exact ⟨[], List.nil_suffix, by simp [SeqSem]⟩
    · rw [← NextItems.next_flatten] at hg ⊢
      exact hS _ _ _ _ hg h
  | cons it rest => exact hL _ _ _ _ hg h

theorem sound_loopStep (hM : SoundM ex M) (hS : SoundS ex S) (hL : SoundS ex L) :
    SoundS ex (loopStep M S L) := by
  intro cs items next ab hg h
  cases items with
  | nil =>
    unfold loopStep at h
    dsimp only at h
    rw [List.nil_append] at hg ⊢
    split at h
    · rename_i he
      rw [NextItems.flatten_of_isEmpty he]
      exact ⟨[], List.nil_suffix, by simp [SeqSem]⟩
    · obtain ⟨ab', h'⟩ := fstR_ok (retR_ok h).1
      rw [← NextItems.next_flatten] at hg ⊢
      exact ⟨cs, List.suffix_refl _, hM _ _ _ _ hg.of_false h'⟩
  | cons it rest =>
    have hg0 := hg
    rw [List.cons_append] at hg ⊢
    unfold loopStep at h
    dsimp only at h
    split at h
    · cases h
    cases hg with
    | lit hd hr =>
      rcases hd.find cs with ⟨p, a, q, rfl, h1, h2, _⟩ | ⟨_, fl, h2⟩
      · rw [h2] at h
        dsimp only at h
        rw [List.append_assoc, sliceFrom_utf8] at h
        dsimp only at h
        unfold loopFlag at h
        rw [sliceFromInt_utf8] at h
        dsimp only at h
        split at h
        · rename_i m ab' hm
          split at h
          · rename_i hor
            have hmt : m = true := by cases h; rfl
            subst hmt
            refine ⟨a ++ q, ⟨p, by simp⟩, a, q, rfl, h1, hM _ _ _ _ hr hm⟩
          · rcases againStep_ok h with ⟨_, h3, _⟩ | ⟨c, t, h3, h4⟩
            · cases h3
            · obtain ⟨t', h5, h6⟩ := hL _ _ _ _ hg0 h4
              refine ⟨t', h5.trans ⟨p ++ [c], ?_⟩, h6⟩
              rw [List.append_assoc, List.append_assoc, h3]; rfl
        · cases h
        · cases h
      · rw [h2] at h
        cases h
    | any hr =>
      simp only [Item.find, skipRunes_utf8] at h
      split at h
      · cases h
      · rename_i o l fl heq
        simp only [R.ok.injEq, Prod.mk.injEq] at heq
        obtain ⟨-, rfl⟩ := heq
        split at h
        · unfold loopFlag at h
          cases h
        · cases h
        · cases h
      · cases h
      · cases h
    | @star _ n _ hs hr =>
      obtain ⟨-, rfl⟩ := hs rfl
      simp only [Item.find, sliceFrom_zero] at h
      unfold loopFlag at h
      dsimp only at h
      have fin : ∀ t, t <:+ cs → SeqSem (rest ++ next.flatten) t →
          ∃ t, t <:+ cs ∧ SeqSem (.star 0 :: (rest ++ next.flatten)) t :=
        fun t h1 h2 => ⟨t, h1, [], t, rfl, by simp [Item.Sem], h2⟩
      have again : againStep L (utf8 cs) rest next = .ok (true, ab) →
          ∃ t, t <:+ cs ∧ SeqSem (.star 0 :: (rest ++ next.flatten)) t := by
        intro h
        rcases againStep_ok h with ⟨_, h3, _⟩ | ⟨c, t, rfl, h4⟩
        · cases h3
        · obtain ⟨t', h5, h6⟩ := hL _ _ _ _ hr h4
          exact fin t' (h5.trans (List.suffix_cons c t)) h6
      split at h
      · rename_i hre
        have hre := List.isEmpty_iff.1 hre
        subst hre
        rw [List.nil_append] at *
        split at h
        · rename_i hne
          rw [NextItems.flatten_of_isEmpty hne] at fin ⊢
          exact fin [] List.nil_suffix (by simp [SeqSem])
        · split at h
          · rename_i m hm
            cases m with
            | true =>
              obtain ⟨ab', hm⟩ := fstR_ok hm
              rw [← NextItems.next_flatten] at hr fin ⊢
              obtain ⟨t, h1, h2⟩ := hS _ _ _ _ hr hm
              exact fin t h1 h2
            | false => exact again h
          · cases h
          · cases h
      · exact again h
    | @list _ l _ hw hl hr ho =>
      simp only [Item.find, sliceFrom_zero] at h
      unfold loopFlag at h
      dsimp only at h
      rcases orR_true (retR_ok h).1 with h | h
      · split at h
        · rename_i h0
          obtain ⟨t, h1, h2⟩ := starOptLoop_true h
          obtain ⟨t', h3, h4⟩ := sound_contS (Or.inl hM) hS (ho rfl h0) h2
          exact ⟨t', h3.trans h1, [], t', rfl, Or.inr ⟨h0, rfl⟩, h4⟩
        · cases h
      · obtain ⟨ws, p, q, h1, rfl, h2⟩ := starListLoop_true hw.vals h
        exact ⟨ws ++ q, ⟨p, by simp⟩, ws, q, rfl, Or.inl h1,
          sound_contM hM hr h2⟩
    | @group _ vals mn mx _ hw hne hr ho =>
      simp only [Item.find, sliceFrom_zero] at h
      unfold loopFlag at h
      dsimp only at h
      rcases orR_true (retR_ok h).1 with h | h
      · split at h
        · rename_i h0
          obtain ⟨t, h1, h2⟩ := sound_contS (Or.inr hS) hS (ho h0) h
          exact ⟨t, h1, [], t, rfl, hw.opt h0, h2⟩
        · cases h
      · obtain ⟨v, hv, hk⟩ := groupLoop_true h
        obtain ⟨ab', hk⟩ := fstR_ok hk
        obtain ⟨t, h1, h2⟩ := hS cs (groupItems v) (rest :: next) ab'
          (by simpa using hr v hv) hk
        rw [List.flatten_cons, seqSem_append] at h2
        obtain ⟨a, b, rfl, h2, h3⟩ := h2
        exact ⟨_, h1, a, b, rfl, (anySem_iff _ _).2 ⟨v, hv, (seqSem_groupItems _ _).1 h2⟩, h3⟩

theorem sound_all (ex : Bool) (fuel : Nat) :
    SoundM ex (matchItems fuel) ∧ SoundS ex (matchStarItems fuel) ∧ SoundS ex (starLoop fuel) := by
  induction fuel with
  | zero =>
    refine ⟨?_, ?_, ?_⟩ <;> intro cs items next ab hg h <;>
      simp [matchItems, matchStarItems, starLoop] at h
  | succ fuel ih =>
    obtain ⟨hM, hS, hL⟩ := ih
    refine ⟨?_, ?_, ?_⟩
    · intro cs items next ab hg h
      rw [matchItems] at h
      exact sound_matchStep hM hS _ _ _ _ hg h
    · intro cs items next ab hg h
      rw [matchStarItems] at h
      exact sound_starStep hS hL _ _ _ _ hg h
    · intro cs items next ab hg h
      rw [starLoop] at h
      exact sound_loopStep hM hS hL _ _ _ _ hg h

end Sound

end GoMatcher
