import Verif.Proofs.MatchMono
import Verif.Proofs.ClassSearch

/-! # Meaning of items over characters, and what `Match`/`Find` of simple items compute -/

namespace GoMatcher

mutual
/-- The texts an item stands for. -/
def Item.Sem : Item → List Char → Prop
  | .str w, cs => utf8 cs = w
  | .byte b, cs => utf8 cs = [b]
  | .rune r, cs => ∃ c : Char, cs = [c] ∧ c.toNat = r
  | .any n, cs => cs.length = n
  | .star n, cs => n ≤ cs.length
  | .ranges rs, cs => ∃ c : Char, cs = [c] ∧ rs.contains c.toNat = true
  | .list l, cs => utf8 cs ∈ l.vals ∨ (l.minSize = 0 ∧ cs = [])
  | .group vals _ _, cs => AnySem vals cs
  | .chain items _ _, cs => SeqSem items cs
/-- The texts a sequence of items stands for. -/
def SeqSem : List Item → List Char → Prop
  | [], cs => cs = []
  | x :: xs, cs => ∃ a b, cs = a ++ b ∧ Item.Sem x a ∧ SeqSem xs b
/-- The texts one of the items stands for. -/
def AnySem : List Item → List Char → Prop
  | [], _ => False
  | x :: xs, cs => Item.Sem x cs ∨ AnySem xs cs
end

theorem anySem_iff (l : List Item) (cs : List Char) :
    AnySem l cs ↔ ∃ v ∈ l, v.Sem cs := by
  induction l with
  | nil => simp [AnySem]
  | cons x xs ih => simp [AnySem, ih]

theorem seqSem_append (l₁ l₂ : List Item) (cs : List Char) :
    SeqSem (l₁ ++ l₂) cs ↔ ∃ a b, cs = a ++ b ∧ SeqSem l₁ a ∧ SeqSem l₂ b := by
  induction l₁ generalizing cs with
  | nil =>
    simp only [List.nil_append, SeqSem]
    constructor
    · intro h; exact ⟨[], cs, by simp, rfl, h⟩
    · rintro ⟨a, b, rfl, rfl, h⟩; simpa using h
  | cons x xs ih =>
    simp only [List.cons_append, SeqSem]
    constructor
    · rintro ⟨a, b, rfl, h1, h2⟩
      obtain ⟨c, d, rfl, h3, h4⟩ := (ih b).1 h2
      exact ⟨a ++ c, d, by simp, ⟨a, c, rfl, h1, h3⟩, h4⟩
    · rintro ⟨a, b, rfl, ⟨c, d, rfl, h1, h2⟩, h3⟩
      exact ⟨c, d ++ b, by simp, h1, (ih _).2 ⟨d, b, rfl, h2, h3⟩⟩

theorem seqSem_singleton (x : Item) (cs : List Char) : SeqSem [x] cs ↔ x.Sem cs := by
  simp only [SeqSem]
  constructor
  · rintro ⟨a, b, rfl, h, rfl⟩; simpa using h
  · intro h; exact ⟨cs, [], by simp, h, rfl⟩

theorem seqSem_groupItems (v : Item) (cs : List Char) :
    SeqSem (groupItems v) cs ↔ v.Sem cs := by
  cases v <;> simp only [groupItems, seqSem_singleton]
  simp [Item.Sem]

/-- No U+FFFD in the text. -/
def NoFF (cs : List Char) : Prop := ∀ c ∈ cs, c.toNat ≠ runeError

theorem NoFF.append_right {a b : List Char} (h : NoFF (a ++ b)) : NoFF b :=
  fun c hc => h c (by simp [hc])

theorem NoFF.suffix {a b : List Char} (h : NoFF b) (hs : a <:+ b) : NoFF a :=
  fun c hc => h c (hs.subset hc)

theorem utf8_length_append (a b : List Char) :
    (utf8 (a ++ b)).length = (utf8 a).length + (utf8 b).length := by simp

theorem length_le_utf8 (cs : List Char) : cs.length ≤ (utf8 cs).length := by
  induction cs with
  | nil => simp
  | cons c cs ih =>
    rw [utf8_cons]
    have := encodeRune_pos c.toNat
    simp
    omega

theorem drop_utf8_append (a b : List Char) :
    (utf8 (a ++ b)).drop (utf8 a).length = utf8 b := by simp

/-- A text of one ASCII byte is the one character. -/
theorem utf8_single_ascii {b : UInt8} (hb : b.toNat < 128) :
    utf8 [Char.ofNat b.toNat] = [b] := by
  have hv : (Char.ofNat b.toNat).toNat = b.toNat := by
    have : b.toNat.isValidChar := Or.inl (by omega)
    simp [Char.ofNat, this, Char.toNat, Char.ofNatAux]
  rw [utf8_cons, hv, encodeRune_ascii hb]
  simp [utf8]

/-- The item is exact on the text: class items stop at U+FFFD. -/
def Clean (it : Item) (cs : List Char) : Prop := ∀ rs, it = .ranges rs → NoFF cs

theorem Clean.of_noFF {it : Item} {cs : List Char} (h : NoFF cs) : Clean it cs := fun _ _ => h

/-- Items that match a fixed number of characters at one place only. -/
structure DoneItem (it : Item) (w : Nat) : Prop where
  width : ∀ a, it.Sem a → a.length = w
  minLen : ∀ a, it.Sem a → it.minLen ≤ (utf8 a).length
  matchAt : ∀ cs,
    (∃ a b, cs = a ++ b ∧ it.Sem a ∧ it.matchAt (utf8 cs) = (some (utf8 a).length, .done)) ∨
    ((Clean it cs → ∀ a b, cs = a ++ b → ¬ it.Sem a) ∧ it.matchAt (utf8 cs) = (none, .done))

/-- Items that the star search can look for. -/
structure FindItem (it : Item) (w : Nat) : Prop extends DoneItem it w where
  find : ∀ cs,
    (∃ p a q, cs = p ++ a ++ q ∧ it.Sem a ∧
      it.find (utf8 cs) = .ok (some ((utf8 p).length, ((utf8 a).length : Int)), .done) ∧
      (∀ p' a' q', cs = p' ++ a' ++ q' → it.Sem a' → p.length ≤ p'.length)) ∨
    ((Clean it cs → ∀ p a q, cs = p ++ a ++ q → ¬ it.Sem a) ∧ ∃ fl, it.find (utf8 cs) = .ok (none, fl))

theorem doneItem_any (n : Nat) : DoneItem (.any n) n where
  width a h := h
  minLen a h := by
    simp only [Item.Sem] at h
    have := length_le_utf8 a
    simp only [Item.minLen]
    omega
  matchAt cs := by
    simp only [Item.matchAt, skipRunes_utf8, Item.Sem]
    by_cases h : n ≤ cs.length
    · left
      exact ⟨cs.take n, cs.drop n, by simp, by simp; omega, by simp [h]⟩
    · right
      refine ⟨?_, by simp [h]⟩
      rintro - a b rfl h1
      simp at h
      omega

/-- The position of the first occurrence of a word, in characters. -/
theorem strIndex_utf8 (cs ws : List Char) :
    (∃ p q, cs = p ++ ws ++ q ∧ strIndex (utf8 cs) (utf8 ws) = some (utf8 p).length ∧
      ∀ p' q', cs = p' ++ ws ++ q' → p.length ≤ p'.length) ∨
    ((∀ p q, cs ≠ p ++ ws ++ q) ∧ strIndex (utf8 cs) (utf8 ws) = none) := by
  cases hi : strIndex (utf8 cs) (utf8 ws) with
  | none =>
    right
    refine ⟨?_, rfl⟩
    rintro p q rfl
    exact strIndex_none.1 hi (utf8 p) (utf8 q) (by simp)
  | some i =>
    left
    obtain ⟨⟨q, hq⟩, hle, hmin⟩ := strIndex_some.1 hi
    by_cases hw : ws = []
    · subst hw
      have : i = 0 := by
        rcases Nat.eq_zero_or_pos i with h | h
        · exact h
        · exact absurd (List.nil_prefix) (hmin 0 h)
      subst this
      exact ⟨[], cs, by simp, by simp, by simp⟩
    · obtain ⟨ps, qs, h1, h2, h3⟩ := utf8_occurrence hw hq
      refine ⟨ps, qs, h1, ?_, ?_⟩
      · rw [← h2]; simp [hle]
      · intro p' q' h4
        have hlen : i = (utf8 ps).length := by rw [← h2]; simp [hle]
        apply Classical.byContradiction
        intro hlt
        have hlt' : p'.length < ps.length := by omega
        -- p' is a proper prefix of ps
        have hpre : p' <+: ps := by
          have e : ps ++ (ws ++ qs) = p' ++ (ws ++ q') := by
            rw [← List.append_assoc, ← List.append_assoc, ← h1, ← h4]
          exact List.prefix_of_prefix_length_le ⟨ws ++ q', e.symm⟩ ⟨ws ++ qs, rfl⟩ (by omega)
        obtain ⟨r, rfl⟩ := hpre
        have hr : r ≠ [] := by rintro rfl; simp at hlt'
        have hj : (utf8 p').length < i := by
          rw [hlen]
          have : 0 < (utf8 r).length := by
            rcases r with _ | ⟨c, r⟩
            · exact absurd rfl hr
            · have := length_le_utf8 (c :: r); simp at this ⊢; omega
          simp; omega
        apply hmin _ hj
        rw [h4]
        refine ⟨utf8 q', ?_⟩
        simp

theorem findItem_str (ws : List Char) : FindItem (.str (utf8 ws)) ws.length where
  width a h := by rw [utf8_inj h]
  minLen a h := by
    simp only [Item.Sem] at h
    simp [Item.minLen, h]
  matchAt cs := by
    simp only [Item.matchAt, Item.Sem, hasPrefix]
    by_cases h : (utf8 ws).isPrefixOf (utf8 cs) = true
    · left
      obtain ⟨b, rfl⟩ := (utf8_isPrefixOf ws cs).1 h
      exact ⟨ws, b, rfl, rfl, by rw [if_pos h]⟩
    · right
      refine ⟨?_, by rw [if_neg h]⟩
      rintro - a b rfl h1
      exact h ((utf8_isPrefixOf _ _).2 ⟨b, by rw [utf8_inj h1]⟩)
  find cs := by
    simp only [Item.find, Item.Sem]
    rcases strIndex_utf8 cs ws with ⟨p, q, h1, h2, h3⟩ | ⟨h1, h2⟩
    · left
      refine ⟨p, ws, q, h1, rfl, by simp [h2], ?_⟩
      intro p' a' q' h4 h5
      rw [utf8_inj h5] at h4
      exact h3 p' q' h4
    · right
      refine ⟨?_, _, by rw [h2]; rfl⟩
      intro _ p a q h4 h5
      rw [utf8_inj h5] at h4
      exact h1 p q h4

theorem indexByte_eq_strIndex (s : Str) (b : UInt8) : indexByte s b = strIndex s [b] := by
  induction s with
  | nil => rfl
  | cons c t ih =>
    rw [indexByte, strIndex]
    by_cases h : c = b
    · subst h; simp
    · have : ¬ (b = c) := fun h' => h h'.symm
      simp [h, this, ih]

theorem utf8_char_ofByte {b : UInt8} (hb : b.toNat < 128) : ∃ c : Char, utf8 [c] = [b] :=
  ⟨_, utf8_single_ascii hb⟩

theorem findItem_byte {b : UInt8} (hb : b.toNat < 128) : FindItem (.byte b) 1 := by
  obtain ⟨c, hc⟩ := utf8_char_ofByte hb
  have hs := findItem_str [c]
  rw [hc] at hs
  have hsem : ∀ a, (Item.byte b).Sem a ↔ (Item.str [b]).Sem a := fun a => Iff.rfl
  have hm : ∀ s, (Item.byte b).matchAt s = (Item.str [b]).matchAt s := by
    intro s
    cases s with
    | nil => simp [Item.matchAt, hasPrefix]
    | cons x t =>
      by_cases h : b = x
      · simp [Item.matchAt, hasPrefix, h]
      · simp [Item.matchAt, hasPrefix, h]
  have hf : ∀ s, (Item.byte b).find s = (Item.str [b]).find s := by
    intro s
    simp [Item.find, indexByte_eq_strIndex]
  have hc : ∀ cs, Clean (.byte b) cs ↔ Clean (.str [b]) cs := fun cs =>
    ⟨(fun _ _ e => by cases e), (fun _ _ e => by cases e)⟩
  exact
    { width := hs.width
      minLen := fun a h => by simpa [Item.minLen] using hs.minLen a h
      matchAt := fun cs => by simpa only [hsem, hm, hc] using hs.matchAt cs
      find := fun cs => by simpa only [hsem, hf, hc] using hs.find cs }

theorem runeOk_char {r : Nat} (h : RuneOk r) : ∃ c : Char, c.toNat = r := by
  have hv : r.isValidChar := by
    rcases h with h | ⟨h1, h2⟩
    · exact Or.inl h
    · exact Or.inr ⟨by omega, by omega⟩
  refine ⟨Char.ofNat r, ?_⟩
  simp [Char.ofNat, hv, Char.toNat, Char.ofNatAux]

theorem validRune_iff (r : Nat) : validRune r = true ↔ RuneOk r := by
  simp [validRune, RuneOk]

theorem rangeStr_noFF {cs : List Char} (h : NoFF cs) :
    (rangeStr (utf8 cs)).find? (fun p => p.2 = runeError) = none := by
  rw [List.find?_eq_none]
  intro p hp
  have : p.2 ∈ (rangeStr (utf8 cs)).map Prod.snd := List.mem_map_of_mem hp
  rw [rangeStr_utf8] at this
  obtain ⟨c, hc, e⟩ := List.mem_map.1 this
  simp [← e, h c hc]

theorem findItem_rune {r : Nat} (hr : r ≠ runeError) : FindItem (.rune r) 1 := by
  have hsem : ∀ a, (Item.rune r).Sem a ↔ ∃ c : Char, a = [c] ∧ c.toNat = r := fun a => Iff.rfl
  refine { width := ?_, minLen := ?_, matchAt := ?_, find := ?_ }
  · rintro a ⟨c, rfl, _⟩; rfl
  · rintro a ⟨c, rfl, rfl⟩
    rw [utf8_cons]
    simp [Item.minLen, ← encodeRune_length (Char.runeOk c)]
  · intro cs
    simp only [Item.matchAt, hsem]
    cases cs with
    | nil =>
      right
      refine ⟨?_, by simp [utf8, decodeRune]⟩
      rintro - a b h ⟨c, rfl, _⟩
      simp at h
    | cons c cs =>
      rw [decodeRune_utf8_cons]
      dsimp only
      by_cases h : c.toNat = r
      · left
        rw [if_pos (by rw [h]; exact hr)]
        exact ⟨[c], cs, rfl, ⟨c, rfl, h⟩, by simp [h, utf8_cons]⟩
      · right
        refine ⟨?_, by simp [h]⟩
        rintro - a b e ⟨d, rfl, h2⟩
        simp at e
        exact h (by rw [e.1]; exact h2)
  · intro cs
    simp only [Item.find, hsem]
    by_cases ho : RuneOk r
    · have key : indexRune (utf8 cs) r = strIndex (utf8 cs) (encodeRune r) := by
        unfold indexRune
        by_cases hlt : r < 0x80
        · rw [if_pos hlt, encodeRune_ascii hlt, indexByte_eq_strIndex]
        · rw [if_neg hlt, if_neg hr, (validRune_iff r).2 ho]
          simp
      obtain ⟨c, rfl⟩ := runeOk_char ho
      have e : encodeRune c.toNat = utf8 [c] := by simp [utf8]
      rw [key, e]
      have hlen : runeLen c.toNat = ((utf8 [c]).length : Int) := by
        rw [← e, encodeRune_length ho]
      rw [hlen]
      rcases strIndex_utf8 cs [c] with ⟨p, q, h1, h2, h3⟩ | ⟨h1, h2⟩
      · left
        refine ⟨p, [c], q, h1, ⟨c, rfl, rfl⟩, by simp [h2], ?_⟩
        rintro p' a' q' h4 ⟨d, rfl, h5⟩
        rw [Char.toNat_val_inj h5] at h4
        exact h3 p' q' h4
      · right
        refine ⟨?_, _, by rw [h2]; rfl⟩
        rintro - p a q h4 ⟨d, rfl, h5⟩
        rw [Char.toNat_val_inj h5] at h4
        exact h1 p q h4
    · right
      constructor
      · rintro - p a q - ⟨c, rfl, h⟩
        exact ho (h ▸ Char.runeOk c)
      · refine ⟨.done, ?_⟩
        unfold indexRune
        have h1 : ¬ r < 0x80 := fun h => ho (Or.inl (by omega))
        have h3 : validRune r = false := by
          rw [Bool.eq_false_iff]; exact fun h => ho ((validRune_iff r).1 h)
        rw [if_neg h1, if_neg hr, h3]
        rfl

theorem findItem_ranges {rs : RunesRanges}
    (hmin : ∀ c : Char, rs.contains c.toNat = true → rs.minSize ≤ runeLen c.toNat) :
    FindItem (.ranges rs) 1 := by
  refine { width := ?_, minLen := ?_, matchAt := ?_, find := ?_ }
  · rintro a ⟨c, rfl, _⟩; rfl
  · rintro a ⟨c, rfl, h⟩
    rw [utf8_cons]
    have := hmin c h
    simp only [Item.minLen]
    have := encodeRune_length (Char.runeOk c)
    simp
    omega
  · intro cs
    simp only [Item.matchAt, Item.Sem]
    rw [RunesRanges.startsWith_eq]
    cases cs with
    | nil =>
      right
      refine ⟨?_, by simp [utf8]⟩
      rintro - a b h ⟨c, rfl, _⟩
      simp at h
    | cons c cs =>
      rw [decodeRune_utf8_cons]
      by_cases h : c.toNat ≠ runeError ∧ rs.contains c.toNat = true
      · left
        refine ⟨[c], cs, rfl, ⟨c, rfl, h.2⟩, ?_⟩
        rw [if_pos ⟨utf8_cons_ne_nil c cs, h.1, h.2⟩]
        simp [utf8_cons]
      · right
        refine ⟨?_, by rw [if_neg (fun hh => h hh.2)]; rfl⟩
        rintro hno a b e ⟨d, rfl, h2⟩
        simp at e
        exact h ⟨hno rs rfl c (by simp), by rw [e.1]; exact h2⟩
  · intro cs
    simp only [Item.find, Item.Sem]
    rcases rs.index_first cs with h3 | ⟨h0, h3⟩
    · rw [h3]
      rcases rs.idxSpec_cases cs 0 with ⟨h1, h2⟩ | ⟨pre, c, post, h1, h2, h3, h4⟩
      · right
        rw [h1]
        refine ⟨?_, _, rfl⟩
        rintro - p a q rfl ⟨c, rfl, h⟩
        rw [h2 c (by simp)] at h
        simp at h
      · left
        rw [h4]
        refine ⟨pre, [c], post, by simp [h1], ⟨c, rfl, h3⟩, ?_, ?_⟩
        · simp [utf8]
        · rintro p' a' q' h5 ⟨d, rfl, h6⟩
          rw [h1] at h5
          exact Classical.byContradiction fun hlt => by
            have : d ∈ pre := by
              have := congrArg (fun l => l[p'.length]?) h5
              simp only [List.append_assoc, List.getElem?_append_left (show p'.length < pre.length by omega),
                List.getElem?_append_right (Nat.le_refl p'.length)] at this
              simp at this
              exact List.mem_of_getElem? this
            rw [h2 d this] at h6
            simp at h6
    · right
      refine ⟨?_, _, by rw [h3]; rfl⟩
      intro hno
      exact absurd (hno rs rfl) h0

end GoMatcher
