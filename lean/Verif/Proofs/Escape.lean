import Verif.Model.Escape
import Verif.Proofs.AsciiSet

namespace GoMatcher
namespace Escape

/-- Check of a statement about all bytes through the 256 values. -/
theorem byte_forall {p : UInt8 → Prop} (h : ∀ n : Fin 256, p (UInt8.ofNat n.val)) : ∀ c, p c := by
  intro c
  have := h ⟨c.toNat, c.toNat_lt⟩
  simpa using this

theorem hexEscape_spec : ∀ c : UInt8,
    ishex (upperHex (c >>> 4)) = true ∧ ishex (upperHex (c &&& 15)) = true ∧
    ((unhex (upperHex (c >>> 4)) <<< 4) ||| unhex (upperHex (c &&& 15))) = c := by
  apply byte_forall
  decide +kernel

theorem shouldEscape_special : ∀ mode, (mode = Mode.path ∨ mode = Mode.queryComponent) →
    shouldEscape 37 mode = true ∧ shouldEscape 32 mode = true := by
  intro m h
  rcases h with rfl | rfl <;> decide

theorem shouldEscape_plus : shouldEscape 43 .queryComponent = true ∧
    shouldEscape 43 .path = false := by decide

theorem unescLoop_percent (a b : UInt8) (t : Str) (ha : ishex a = true) (hb : ishex b = true) :
    unescLoop (37 :: a :: b :: t) = ((unhex a <<< 4) ||| unhex b) :: unescLoop t := by
  rw [unescLoop]; simp [ha, hb]

theorem unescLoop_plus (t : Str) : unescLoop (43 :: t) = 32 :: unescLoop t := by
  rw [unescLoop]

theorem unescLoop_other (c : UInt8) (t : Str) (h1 : c ≠ 37) (h2 : c ≠ 43) :
    unescLoop (c :: t) = c :: unescLoop t := by
  rw [unescLoop]
  all_goals simp_all

theorem unescLoop_hexEscape (c : UInt8) (t : Str) :
    unescLoop (hexEscape c ++ t) = c :: unescLoop t := by
  obtain ⟨h1, h2, h3⟩ := hexEscape_spec c
  simp only [hexEscape, List.cons_append, List.nil_append]
  rw [unescLoop_percent _ _ _ h1 h2, h3]

theorem unescapeSet_contains (c : UInt8) : unescapeSet.contains c = decide (c = 37 ∨ c = 43) := by
  revert c
  apply byte_forall
  decide +kernel

theorem unescLoop_take (p : Str) (t : Str) (hp : ∀ c ∈ p, c ≠ 37 ∧ c ≠ 43) :
    unescLoop (p ++ t) = p ++ unescLoop t := by
  induction p with
  | nil => rfl
  | cons c p ih =>
    obtain ⟨h1, h2⟩ := hp c (by simp)
    rw [List.cons_append, unescLoop_other _ _ h1 h2, ih (fun x hx => hp x (by simp [hx]))]
    rfl

/-- The fast path (no `%`, no `+`) and the skipped prefix change nothing. -/
theorem Unescape_eq (s : Str) : Unescape s = unescLoop s := by
  unfold Unescape
  cases h : unescapeSet.index s with
  | none =>
    have hn := indexP_none.mp h
    have := unescLoop_take s [] (fun c hc => by
      have := hn c hc
      rw [unescapeSet_contains] at this
      simpa using this)
    simp only [List.append_nil] at this
    rw [this]; simp [unescLoop]
  | some i =>
    obtain ⟨hlt, _, hbefore⟩ := indexP_some.mp h
    simp only [unescape]
    conv => rhs; rw [← List.take_append_drop i s]
    rw [unescLoop_take]
    intro c hc
    obtain ⟨j, hj, rfl⟩ := List.mem_iff_getElem.mp hc
    have hj' : j < i := by simp at hj; omega
    have := hbefore j hj'
    rw [unescapeSet_contains] at this
    simp only [List.getElem_take]
    simpa using this

/-- Bytes written as `+` by `Query`. -/
def isSp (mode : Mode) (c : UInt8) : Bool := shouldEscape c mode && decide (c = 32 ∧ mode = .queryComponent)
/-- Bytes written as `%XX`. -/
def isHx (mode : Mode) (c : UInt8) : Bool := shouldEscape c mode && !decide (c = 32 ∧ mode = .queryComponent)

theorem escCount_spec (mode : Mode) (s : Str) (sp hx : Nat) :
    escCount mode s (sp, hx) = (sp + s.countP (isSp mode), hx + s.countP (isHx mode)) := by
  induction s generalizing sp hx with
  | nil => simp [escCount]
  | cons c s ih =>
    rw [escCount, List.countP_cons, List.countP_cons]
    by_cases h1 : shouldEscape c mode = true
    · by_cases h2 : c = 32 ∧ mode = .queryComponent
      · have a : isSp mode c = true := by simp only [isSp, h1, decide_eq_true h2]; rfl
        have b : isHx mode c = false := by simp only [isHx, h1, decide_eq_true h2]; rfl
        rw [if_pos h1, if_pos h2, ih, a, b]; simp; omega
      · have a : isSp mode c = false := by simp only [isSp, h1, decide_eq_false h2]; rfl
        have b : isHx mode c = true := by simp only [isHx, h1, decide_eq_false h2]; rfl
        rw [if_pos h1, if_neg h2, ih, a, b]; simp; omega
    · have a : isSp mode c = false := by simp [isSp, h1]
      have b : isHx mode c = false := by simp [isHx, h1]
      rw [if_neg h1, ih, a, b]; simp

theorem escWrite_length (mode : Mode) (s : Str) :
    (escWrite mode s).length = s.length + 2 * s.countP (isHx mode) := by
  induction s with
  | nil => rfl
  | cons c s ih =>
    rw [escWrite, List.countP_cons]
    by_cases h2 : c = 32 ∧ mode = .queryComponent
    · have b : isHx mode c = false := by simp only [isHx, decide_eq_true h2]; simp
      rw [if_pos h2, b]; simp [ih]; omega
    · rw [if_neg h2]
      by_cases h1 : shouldEscape c mode = true
      · have b : isHx mode c = true := by simp only [isHx, h1, decide_eq_false h2]; rfl
        rw [if_pos h1, b]; simp [ih, hexEscape]; omega
      · have b : isHx mode c = false := by simp [isHx, h1]
        rw [if_neg h1, b]; simp [ih]; omega

theorem escWrite_none (mode : Mode) (s : Str) (h : ∀ c ∈ s, shouldEscape c mode = false) :
    escWrite mode s = s := by
  induction s with
  | nil => rfl
  | cons c s ih =>
    have hc := h c (by simp)
    rw [escWrite, ih (fun x hx => h x (by simp [hx]))]
    rw [if_neg, if_neg]
    · simp [hc]
    · rintro ⟨rfl, rfl⟩
      exact absurd hc (by decide)

/-- The three exits of `escape` compute the same text, and the buffer has exactly
the needed size. -/
theorem escape_eq (s : Str) (mode : Mode) : escape s mode = .ok (escWrite mode s) := by
  unfold escape
  rw [escCount_spec]
  simp only [Nat.zero_add]
  split
  · rename_i h
    rw [escWrite_none]
    intro c hc
    cases hs : shouldEscape c mode with
    | false => rfl
    | true =>
      exfalso
      obtain ⟨h1, h2⟩ := h
      rw [List.countP_eq_zero] at h1 h2
      have a1 := h1 c hc
      have a2 := h2 c hc
      by_cases hq : c = 32 ∧ mode = .queryComponent
      · simp only [isSp, hs, decide_eq_true hq] at a1; simp at a1
      · simp only [isHx, hs, decide_eq_false hq] at a2; simp at a2
  · rename_i h0
    split
    · rename_i h
      congr 1
      have hsp : mode = .queryComponent := by
        apply Classical.byContradiction
        intro hne
        apply h0
        refine ⟨?_, h⟩
        rw [List.countP_eq_zero]
        intro c _
        simp [isSp, hne]
      rw [List.countP_eq_zero] at h
      clear h0
      induction s with
      | nil => rfl
      | cons c s ih =>
        have hc := h c (by simp)
        rw [escWrite, List.map_cons, ih (fun x hx => h x (by simp [hx]))]
        by_cases hcs : c = 32
        · simp [hcs, hsp]
        · simp [isHx, hcs] at hc
          simp [hcs, hc]
    · unfold fillBuffer
      rw [escWrite_length, if_pos (Nat.le_refl _)]
      simp

theorem unescLoop_escWrite_query (s : Str) : unescLoop (escWrite .queryComponent s) = s := by
  induction s with
  | nil => simp [escWrite, unescLoop]
  | cons c s ih =>
    rw [escWrite]
    split
    · rename_i h; rw [unescLoop_plus, ih, h.1]
    · split
      · rw [unescLoop_hexEscape, ih]
      · rename_i h1 h2
        rw [unescLoop_other, ih]
        · rintro rfl; exact h2 (by decide)
        · rintro rfl; exact h2 (by decide)

theorem unescLoop_escWrite_path (s : Str) :
    unescLoop (escWrite .path s) = s.map (fun c => if c = 43 then 32 else c) := by
  induction s with
  | nil => simp [escWrite, unescLoop]
  | cons c s ih =>
    rw [escWrite, if_neg (by simp)]
    split
    · rename_i h
      rw [unescLoop_hexEscape, ih]
      have : c ≠ 43 := by rintro rfl; exact absurd h (by decide)
      simp [this]
    · rename_i h2
      by_cases hp : c = 43
      · subst hp; rw [unescLoop_plus, ih]; simp
      · rw [unescLoop_other _ _ _ hp, ih]
        · simp [hp]
        · rintro rfl; exact h2 (by decide)

theorem escWrite_append (mode : Mode) (a b : Str) :
    escWrite mode (a ++ b) = escWrite mode a ++ escWrite mode b := by
  induction a with
  | nil => rfl
  | cons c a ih =>
    rw [List.cons_append, escWrite, escWrite]
    split
    · simp [ih]
    · split <;> simp [ih]

/-- What the streaming loop writes, and where it stops. -/
theorem escapeToLoop_spec (s : Str) (mode : Mode) (i pos : Nat) (hi : i ≤ s.length) (hp : pos ≤ i)
    (hclean : ∀ k (h : k < s.length), pos ≤ k → k < i → shouldEscape s[k] mode = false) :
    let r := escapeToLoop s mode i pos
    r.1 ++ s.drop r.2 = (s.drop pos).take (i - pos) ++ escWrite mode (s.drop i) ∧
    r.2 ≤ s.length ∧
    (∀ k (h : k < s.length), r.2 ≤ k → shouldEscape s[k] mode = false) ∧
    (r.2 = pos ∨ ∃ h : r.2 - 1 < s.length, 0 < r.2 ∧ shouldEscape s[r.2 - 1] mode = true) := by
  fun_induction escapeToLoop s mode i pos with
  | case1 i pos hn =>
    rw [List.getElem?_eq_none_iff] at hn
    have : i = s.length := by omega
    subst this
    refine ⟨?_, by simpa using hp, fun k h hk => hclean k h hk h, Or.inl rfl⟩
    simp [escWrite, ← List.length_drop]
  | case2 i pos c h hs esc r ih =>
    obtain ⟨hlt, hget⟩ := List.getElem?_eq_some_iff.mp h
    have ih := ih (by omega) (Nat.le_refl _) (fun k _ h1 h2 => by omega)
    simp only [Nat.sub_self, List.take_zero, List.nil_append] at ih
    obtain ⟨e1, e2, e3, e4⟩ := ih
    refine ⟨?_, e2, e3, ?_⟩
    · simp only [List.append_assoc]
      rw [e1]
      rw [List.drop_eq_getElem_cons hlt, hget, escWrite]
      congr 1
      by_cases hq : c = 32 ∧ mode = .queryComponent
      · simp [esc, hq]
      · simp [esc, hq, hs]
    · right
      rcases e4 with e4 | e4
      · have hr : r.2 = i + 1 := e4
        rw [hr]
        exact ⟨by simpa using hlt, by omega, by simpa [hget] using hs⟩
      · exact e4
  | case3 i pos c h hs ih =>
    obtain ⟨hlt, hget⟩ := List.getElem?_eq_some_iff.mp h
    have hs' : shouldEscape c mode = false := by simpa using hs
    have ih := ih (by omega) (by omega) (fun k hk h1 h2 => by
      by_cases hki : k = i
      · subst hki; rw [hget]; exact hs'
      · exact hclean k hk h1 (by omega))
    obtain ⟨e1, e2, e3, e4⟩ := ih
    refine ⟨?_, e2, e3, e4⟩
    rw [e1]
    have hw : escWrite mode (s.drop i) = c :: escWrite mode (s.drop (i + 1)) := by
      rw [List.drop_eq_getElem_cons hlt, hget, escWrite, if_neg, if_neg (by simp [hs'])]
      rintro ⟨rfl, rfl⟩
      exact absurd hs' (by decide)
    rw [hw]
    have : i + 1 - pos = (i - pos) + 1 := by omega
    rw [this, List.take_add_one]
    have hidx : (s.drop pos)[i - pos]? = some c := by
      rw [List.getElem?_drop]
      have : pos + (i - pos) = i := by omega
      rw [this]; exact h
    rw [hidx]; simp

end Escape
end GoMatcher
