import Verif.Spec.GlobBytes
import Verif.Proofs.TextParse
import Verif.Proofs.Utf8Inv

/-! # Which byte strings the parser accepts -/

namespace GoMatcher

/-! ## Rows of pieces -/

theorem Row.nil {P : Str → Prop} : Row P [] := ⟨[], rfl, by simp⟩

theorem Row.cons {P : Str → Prop} {p s : Str} (hp : P p) (hs : Row P s) : Row P (p ++ s) := by
  obtain ⟨ps, rfl, h⟩ := hs
  exact ⟨p :: ps, rfl, by simpa using ⟨hp, h⟩⟩

theorem Row.append {P : Str → Prop} {p s : Str} (hp : Row P p) (hs : Row P s) : Row P (p ++ s) := by
  obtain ⟨ps, rfl, h⟩ := hs
  obtain ⟨qs, rfl, h'⟩ := hp
  refine ⟨qs ++ ps, by simp, ?_⟩
  intro x hx
  rcases List.mem_append.1 hx with hx | hx
  · exact h' x hx
  · exact h x hx

theorem Row.mono {P Q : Str → Prop} {s : Str} (h : ∀ p, P p → Q p) (hs : Row P s) : Row Q s := by
  obtain ⟨ps, rfl, hp⟩ := hs
  exact ⟨ps, rfl, fun p hm => h p (hp p hm)⟩

theorem Row.inv {P : Str → Prop} {s : Str} (h : Row P s) :
    s = [] ∨ ∃ p r, s = p ++ r ∧ P p ∧ Row P r := by
  obtain ⟨ps, rfl, hp⟩ := h
  cases ps with
  | nil => exact .inl rfl
  | cons p ps =>
    exact .inr ⟨p, ps.flatten, rfl, hp p (by simp), ps, rfl, fun q hq => hp q (by simp [hq])⟩

theorem Row.last {P : Str → Prop} {s : Str} (h : Row P s) :
    s = [] ∨ ∃ p r, s = r ++ p ∧ P p ∧ Row P r := by
  obtain ⟨ps, rfl, hp⟩ := h
  rcases List.eq_nil_or_concat ps with rfl | ⟨qs, q, rfl⟩
  · exact .inl rfl
  · refine .inr ⟨q, qs.flatten, by simp, hp q (by simp), qs, rfl, fun x hx => hp x (by simp [hx])⟩

/-- No bracket or brace. -/
def Free (b : UInt8) : Prop := b ≠ 91 ∧ b ≠ 93 ∧ b ≠ 123 ∧ b ≠ 125

theorem free_of_plain {b : UInt8} (h : isWild b = false) : Free b := by
  refine ⟨?_, ?_, ?_, ?_⟩ <;> (rintro rfl; exact absurd h (by decide))

theorem GlobPiece.cases {p : Str} (h : GlobPiece p) :
    (∃ b, p = [b] ∧ Free b) ∨ (∃ body, p = 91 :: body ++ [93] ∧ 93 ∉ body ∧ ClassBytes body) ∨
    (∃ body, p = 123 :: body ++ [125] ∧ 125 ∉ body ∧ BracePiece p) := by
  rcases h with (h | h) | h
  · exact .inl h
  · exact .inr (.inl h)
  · obtain ⟨parts, h1, h2, h3, _⟩ := id h
    refine .inr (.inr ⟨_, h2, ?_, h⟩)
    intro hm
    rw [List.intercalate, List.mem_flatten] at hm
    obtain ⟨l, hl, hm⟩ := hm
    have : l ∈ parts ∨ l = [44] := by
      clear h h1 h2 h3 hm
      rename_i h4
      clear h4
      induction parts with
      | nil => simp at hl
      | cons a t ih =>
        cases t with
        | nil => simp at hl; exact .inl (by simp [hl])
        | cons b t =>
          rw [List.intersperse_cons_cons] at hl
          rcases List.mem_cons.1 hl with rfl | hl
          · simp
          · rcases List.mem_cons.1 hl with rfl | hl
            · exact .inr rfl
            · rcases ih hl with h | h
              · exact .inl (List.mem_cons_of_mem _ h)
              · exact .inr h
    rcases this with h | rfl
    · exact (h3 l h).2 hm
    · simp at hm

theorem glob_free {b : UInt8} {t : Str} (hb : Free b) :
    Row GlobPiece (b :: t) ↔ Row GlobPiece t := by
  constructor
  · intro h
    rcases h.inv with h | ⟨p, r, e, hp, hr⟩
    · cases h
    · rcases hp.cases with ⟨b', rfl, _⟩ | ⟨body, rfl, _⟩ | ⟨body, rfl, _⟩
      · simp only [List.cons_append, List.nil_append, List.cons.injEq] at e
        rw [e.2]; exact hr
      · simp only [List.cons_append, List.cons.injEq] at e
        exact absurd e.1 hb.1
      · simp only [List.cons_append, List.cons.injEq] at e
        exact absurd e.1 hb.2.2.1
  · intro h
    exact Row.cons (p := [b]) (.inl (.inl ⟨b, rfl, hb⟩)) h

theorem glob_frees {l t : Str} (hb : ∀ b ∈ l, Free b) :
    Row GlobPiece (l ++ t) ↔ Row GlobPiece t := by
  induction l with
  | nil => rfl
  | cons b l ih =>
    rw [List.cons_append, glob_free (hb b (by simp)), ih fun c hc => hb c (by simp [hc])]

theorem glob_free_end {b : UInt8} {t : Str} (hb : Free b) :
    Row GlobPiece (t ++ [b]) ↔ Row GlobPiece t := by
  constructor
  · intro h
    rcases h.last with h | ⟨p, r, e, hp, hr⟩
    · simp at h
    · rcases hp.cases with ⟨b', rfl, _⟩ | ⟨body, rfl, _⟩ | ⟨body, rfl, _⟩
      · rw [(List.append_inj' e rfl).1]; exact hr
      · rw [← List.append_assoc] at e
        have := (List.append_inj' e rfl).2
        simp only [List.cons.injEq, and_true] at this
        exact absurd this hb.2.1
      · rw [← List.append_assoc] at e
        have := (List.append_inj' e rfl).2
        simp only [List.cons.injEq, and_true] at this
        exact absurd this hb.2.2.2
  · intro h
    exact h.append (Row.cons (p := [b]) (.inl (.inl ⟨b, rfl, hb⟩)) .nil)

theorem glob_frees_end {l t : Str} (hb : ∀ b ∈ l, Free b) :
    Row GlobPiece (t ++ l) ↔ Row GlobPiece t := by
  induction l generalizing t with
  | nil => rw [List.append_nil]
  | cons b l ih =>
    rw [show t ++ b :: l = (t ++ [b]) ++ l by simp, ih fun c hc => hb c (by simp [hc]),
      glob_free_end (hb b (by simp))]

theorem first_split {x : UInt8} {a b c d : Str} (ha : x ∉ a) (hc : x ∉ c)
    (e : a ++ x :: b = c ++ x :: d) : a = c ∧ b = d := by
  induction a generalizing c with
  | nil =>
    cases c with
    | nil => simpa using e
    | cons y c =>
      simp only [List.nil_append, List.cons_append, List.cons.injEq] at e
      exact absurd (by rw [← e.1]; simp) hc
  | cons y a ih =>
    cases c with
    | nil =>
      simp only [List.nil_append, List.cons_append, List.cons.injEq] at e
      exact absurd (by rw [e.1]; simp) ha
    | cons z c =>
      simp only [List.cons_append, List.cons.injEq] at e
      simp only [List.mem_cons, not_or] at ha hc
      obtain ⟨h1, h2⟩ := ih ha.2 hc.2 e.2
      exact ⟨by rw [e.1, h1], h2⟩

theorem glob_class {body r : Str} (hb : 93 ∉ body) :
    Row GlobPiece (91 :: body ++ 93 :: r) ↔ ClassBytes body ∧ Row GlobPiece r := by
  constructor
  · intro h
    rcases h.inv with h | ⟨p, r', e, hp, hr⟩
    · cases h
    · rcases hp.cases with ⟨b', rfl, hf⟩ | ⟨body', rfl, hb', hc⟩ | ⟨body', rfl, _⟩
      · simp only [List.cons_append, List.cons.injEq] at e
        exact absurd e.1.symm hf.1
      · simp only [List.cons_append, List.cons.injEq, List.append_assoc, List.nil_append,
          true_and] at e
        obtain ⟨rfl, rfl⟩ := first_split hb hb' e
        exact ⟨hc, hr⟩
      · simp only [List.cons_append, List.cons.injEq] at e
        exact absurd e.1 (by decide)
  · rintro ⟨h1, h2⟩
    have := Row.cons (p := 91 :: body ++ [93]) (P := GlobPiece) (.inl (.inr ⟨body, rfl, hb, h1⟩)) h2
    simpa using this

theorem glob_class_open {t : Str} (ht : 93 ∉ t) : ¬ Row GlobPiece (91 :: t) := by
  intro h
  rcases h.inv with h | ⟨p, r', e, hp, hr⟩
  · cases h
  · rcases hp.cases with ⟨b', rfl, hf⟩ | ⟨body', rfl, hb', hc⟩ | ⟨body', rfl, _⟩
    · simp only [List.cons_append, List.cons.injEq] at e
      exact absurd e.1.symm hf.1
    · simp only [List.cons_append, List.cons.injEq, List.append_assoc, true_and] at e
      exact ht (by rw [e]; simp)
    · simp only [List.cons_append, List.cons.injEq] at e
      exact absurd e.1 (by decide)

theorem glob_brace {body r : Str} (hb : 125 ∉ body) :
    Row GlobPiece (123 :: body ++ 125 :: r) ↔
      BracePiece (123 :: body ++ [125]) ∧ Row GlobPiece r := by
  constructor
  · intro h
    rcases h.inv with h | ⟨p, r', e, hp, hr⟩
    · cases h
    · rcases hp.cases with ⟨b', rfl, hf⟩ | ⟨body', rfl, hb', hc⟩ | ⟨body', rfl, hb', hc⟩
      · simp only [List.cons_append, List.cons.injEq] at e
        exact absurd e.1.symm hf.2.2.1
      · simp only [List.cons_append, List.cons.injEq] at e
        exact absurd e.1 (by decide)
      · simp only [List.cons_append, List.cons.injEq, List.append_assoc, List.nil_append,
          true_and] at e
        obtain ⟨rfl, rfl⟩ := first_split hb hb' e
        exact ⟨hc, hr⟩
  · rintro ⟨h1, h2⟩
    have := Row.cons (p := 123 :: body ++ [125]) (P := GlobPiece) (.inr h1) h2
    simpa using this

theorem glob_brace_open {t : Str} (ht : 125 ∉ t) : ¬ Row GlobPiece (123 :: t) := by
  intro h
  rcases h.inv with h | ⟨p, r', e, hp, hr⟩
  · cases h
  · rcases hp.cases with ⟨b', rfl, hf⟩ | ⟨body', rfl, hb', hc⟩ | ⟨body', rfl, _⟩
    · simp only [List.cons_append, List.cons.injEq] at e
      exact absurd e.1.symm hf.2.2.1
    · simp only [List.cons_append, List.cons.injEq] at e
      exact absurd e.1 (by decide)
    · simp only [List.cons_append, List.cons.injEq, List.append_assoc, true_and] at e
      exact ht (by rw [e]; simp)

theorem glob_close {b : UInt8} {t : Str} (hb : b = 93 ∨ b = 125) : ¬ Row GlobPiece (b :: t) := by
  intro h
  rcases h.inv with h | ⟨p, r', e, hp, hr⟩
  · cases h
  · rcases hp.cases with ⟨b', rfl, hf⟩ | ⟨body', rfl, hb', hc⟩ | ⟨body', rfl, _⟩
    · simp only [List.cons_append, List.cons.injEq] at e
      rcases hb with rfl | rfl
      · exact hf.2.1 e.1.symm
      · exact hf.2.2.2 e.1.symm
    · simp only [List.cons_append, List.cons.injEq] at e
      rw [e.1] at hb
      exact absurd hb (by decide)
    · simp only [List.cons_append, List.cons.injEq] at e
      rw [e.1] at hb
      exact absurd hb (by decide)

/-- Without `}` there are no braces. -/
theorem glob_noBrace {s : Str} (h : 125 ∉ s) : Row GlobPiece s ↔ Row SubPiece s := by
  constructor
  · rintro ⟨ps, rfl, hp⟩
    refine ⟨ps, rfl, fun p hm => ?_⟩
    rcases hp p hm with h' | ⟨parts, _, e, _⟩
    · exact h'
    · refine absurd (List.mem_flatten.2 ⟨p, hm, ?_⟩) h
      rw [e]; simp
  · exact Row.mono fun _ => .inl

theorem byte_span (x : UInt8) (s : Str) : x ∉ s ∨ ∃ a b, s = a ++ x :: b ∧ x ∉ a := by
  induction s with
  | nil => exact .inl (by simp)
  | cons y s ih =>
    by_cases h : y = x
    · exact .inr ⟨[], s, by simp [h], by simp⟩
    · rcases ih with ih | ⟨a, b, rfl, ha⟩
      · exact .inl (by simp [ih, Ne.symm h])
      · exact .inr ⟨y :: a, b, by simp, by simp [ha, Ne.symm h]⟩

/-! ## Classes and stars -/

theorem classBytes_iff (body : Str) :
    (RunesRanges.expand (91 :: body ++ [93])).isSome = true ↔ ClassBytes body := by
  have hwid : ∀ a b : Char, (utf8 [a]).length = (utf8 [b]).length ↔
      ClassElt.width a.toNat = ClassElt.width b.toNat := fun a b => by
    have hw : ∀ a : Char, ((utf8 [a]).length : Int) = runeLen a.toNat := fun a => by
      rw [utf8_cons]; simpa using encodeRune_length (Char.runeOk a)
    have h1 := hw a
    have h2 := hw b
    rw [RunesRanges.runeLen_width (Char.runeOk a)] at h1
    rw [RunesRanges.runeLen_width (Char.runeOk b)] at h2
    omega
  constructor
  · intro h
    obtain ⟨cs, hcs⟩ := RunesRanges.rangeStr_go_chars body.length 0 body
    obtain ⟨es, hes⟩ := RunesRanges.reads_total cs
    refine ⟨cs, es, hcs, hes, ?_⟩
    rcases RunesRanges.expand_reads hcs hes with ⟨h1, _⟩ | ⟨_, h2⟩
    · intro a b hab
      exact ⟨(h1 _ hab).1, (hwid a b).2 (h1 _ hab).2⟩
    · rw [h2] at h; cases h
  · rintro ⟨cs, es, hcs, hes, hg⟩
    rcases RunesRanges.expand_reads hcs hes with ⟨_, rs, h1, _⟩ | ⟨h1, _⟩
    · rw [h1]; rfl
    · exact absurd (fun e he => ⟨(hg e.1 e.2 he).1, (hwid _ _).1 (hg e.1 e.2 he).2⟩) h1

theorem rangeStr_stars (f i : Nat) (s : Str) (hf : s.length ≤ f) :
    (∃ k r c, s = List.replicate k 42 ++ r ∧
      (rangeStr.go f i s).find? (fun p => p.2 ≠ 42) = some (i + k, c)) ∨
    ((∃ k, s = List.replicate k 42) ∧
      (rangeStr.go f i s).find? (fun p => p.2 ≠ 42) = none) := by
  induction f generalizing i s with
  | zero =>
    cases s with
    | nil => exact .inr ⟨⟨0, rfl⟩, rfl⟩
    | cons b t => simp at hf
  | succ f ih =>
    cases s with
    | nil => exact .inr ⟨⟨0, rfl⟩, rfl⟩
    | cons b t =>
      rw [rangeStr.go, List.find?_cons]
      by_cases hc : (decodeRune (b :: t)).1 = 42
      · have hb : b = 42 ∧ (decodeRune (b :: t)).2 = 1 := by
          rcases decodeRune_inv (s := b :: t) (by simp) with h | ⟨r, t', _, h1, h2⟩
          · rw [h] at hc; exact absurd hc (by decide)
          · rw [h2] at hc
            subst hc
            have e : encodeRune 42 = [42] := by decide
            rw [h2, e]
            rw [e] at h1
            simp only [List.cons_append, List.cons.injEq] at h1
            exact ⟨h1.1, rfl⟩
        rw [hb.2]
        dsimp only
        rw [hc, hb.1]
        simp only [ne_eq, not_true_eq_false, decide_false]
        rw [List.drop_succ_cons, List.drop_zero]
        rcases ih (i + 1) t (by simp at hf; omega) with ⟨k, r, c, rfl, h⟩ | ⟨⟨k, rfl⟩, h⟩
        · exact .inl ⟨k + 1, r, c, rfl, by rw [show i + (k + 1) = i + 1 + k by omega]; exact h⟩
        · exact .inr ⟨⟨k + 1, rfl⟩, h⟩
      · left
        dsimp only
        refine ⟨0, b :: t, (decodeRune (b :: t)).1, rfl, ?_⟩
        simp [hc]

theorem skipStars_bytes (s : Str) : ∃ k r, s = List.replicate k 42 ++ r ∧ skipStars s = .ok r := by
  unfold skipStars
  rcases rangeStr_stars s.length 0 s (Nat.le_refl _) with ⟨k, r, c, e, h⟩ | ⟨⟨k, e⟩, h⟩
  · refine ⟨k, r, e, ?_⟩
    unfold rangeStr
    rw [h]
    dsimp only
    rw [sliceFrom, if_pos (by rw [e]; simp)]
    congr 1
    rw [e, Nat.zero_add, List.drop_append_of_le_length (by simp)]
    simp
  · refine ⟨k, [], by simpa using e, ?_⟩
    unfold rangeStr
    rw [h]

/-! ## Braces -/

/-- `NewGroup` accepts the values. -/
def GroupOk : List Str → Prop
  | [] => True
  | v :: vs => v = [42] ∨ (Row GlobPiece v ∧ GroupOk vs)

theorem groupOk_iff (vs : List Str) : GroupOk vs ↔
    (∃ pre post, vs = pre ++ [42] :: post ∧ ∀ p ∈ pre, Row GlobPiece p) ∨
    ∀ v ∈ vs, Row GlobPiece v := by
  induction vs with
  | nil => simp [GroupOk]
  | cons v vs ih =>
    rw [GroupOk, ih]
    constructor
    · rintro (rfl | ⟨h, ⟨pre, post, rfl, hp⟩ | hp⟩)
      · exact .inl ⟨[], vs, rfl, by simp⟩
      · exact .inl ⟨v :: pre, post, rfl, by simpa using ⟨h, hp⟩⟩
      · exact .inr (by simpa using ⟨h, hp⟩)
    · rintro (⟨pre, post, e, hp⟩ | hp)
      · cases pre with
        | nil =>
          simp only [List.nil_append, List.cons.injEq] at e
          exact .inl e.1
        | cons p pre =>
          simp only [List.cons_append, List.cons.injEq] at e
          refine .inr ⟨by rw [e.1]; exact hp p (by simp), .inl ⟨pre, post, e.2, ?_⟩⟩
          exact fun q hq => hp q (by simp [hq])
      · exact .inr ⟨hp v (by simp), .inr fun w hw => hp w (by simp [hw])⟩

theorem intercalate_joinByte (sep : UInt8) (ps : List Str) :
    List.intercalate [sep] ps = joinByte sep ps := by
  induction ps with
  | nil => rfl
  | cons a t ih =>
    cases t with
    | nil => simp [List.intercalate, joinByte]
    | cons b t =>
      rw [joinByte, ← ih]
      simp [List.intercalate, List.intersperse_cons_cons]

theorem mem_joinByte {sep x : UInt8} {ps : List Str} {a : Str} (ha : a ∈ ps) (hx : x ∈ a) :
    x ∈ joinByte sep ps := by
  induction ps with
  | nil => cases ha
  | cons p ps ih =>
    cases ps with
    | nil =>
      rcases List.mem_cons.1 ha with rfl | h
      · exact hx
      · cases h
    | cons q ps =>
      rw [joinByte]
      rcases List.mem_cons.1 ha with rfl | h
      · simp [hx]
      · simp [ih h]

theorem indexP_pre {p : UInt8 → Bool} {s : Str} {i : Nat} (h : indexP p s = some i) :
    i < s.length ∧ ∀ c ∈ s.take i, p c = false := by
  obtain ⟨h1, _, h3⟩ := indexP_some.1 h
  refine ⟨h1, fun c hc => ?_⟩
  obtain ⟨j, hj, rfl⟩ := List.mem_iff_getElem.1 hc
  rw [List.length_take] at hj
  rw [List.getElem_take]
  exact h3 j (by omega)

theorem before_star_byte {p : Str} : strLt p [42] = true ↔ ∀ b t, p = b :: t → b < 42 := by
  cases p with
  | nil => simp [strLt, strLe]
  | cons b t =>
    simp only [strLt, strLe, List.cons.injEq, and_imp]
    by_cases h1 : (42 : UInt8) < b
    · rw [if_pos h1]
      simp only [Bool.not_true, Bool.false_eq_true, false_iff]
      intro h; exact absurd (h b t rfl rfl) (by rw [UInt8.lt_iff_toNat_lt] at *; omega)
    · rw [if_neg h1]
      by_cases h2 : (42 : UInt8) = b
      · rw [if_pos h2]
        simp only [Bool.not_true, Bool.false_eq_true, false_iff]
        intro h
        have := h b t rfl rfl
        rw [← h2] at this
        exact absurd this (by decide)
      · rw [if_neg h2]
        simp only [Bool.not_false, true_iff]
        rintro b' _ rfl _
        rw [UInt8.lt_iff_toNat_lt] at *
        have : (42 : UInt8).toNat ≠ b.toNat := fun h => h2 (UInt8.toNat_inj.1 h)
        omega

/-- The rule of `BracePiece` in terms of the sorted values. -/
theorem brace_rule {parts vals : List Str} (hne : parts ≠ []) (hb : ∀ a ∈ parts, 125 ∉ a)
    (hm : ∀ v, v ∈ vals ↔ v ∈ parts)
    (hs : vals.Pairwise (fun a b => strLt a b = true)) :
    (vals.length ≤ 1 ∨ GroupOk vals) ↔
    ((∃ a, ∀ b ∈ parts, b = a) ∨
     ([42] ∈ parts ∧ ∀ b t, b :: t ∈ parts → b < 42 → Row SubPiece (b :: t)) ∨
     ∀ a ∈ parts, Row SubPiece a) := by
  constructor
  · rintro (h | h)
    · left
      match vals, h with
      | [], _ =>
        obtain ⟨a, ha⟩ := List.exists_mem_of_ne_nil _ hne
        cases (hm a).2 ha
      | [v], _ => exact ⟨v, fun b hb => by simpa using (hm b).2 hb⟩
    · rcases (groupOk_iff vals).1 h with ⟨pre, post, rfl, hp⟩ | hp
      · refine .inr (.inl ⟨(hm _).1 (by simp), ?_⟩)
        intro b t hbt hlt
        rw [← glob_noBrace (hb _ hbt)]
        rcases List.mem_append.1 ((hm _).2 hbt) with h | h
        · exact hp _ h
        · exfalso
          have hl : strLt (b :: t) [42] = true :=
            before_star_byte.2 fun b' t' e => by
              simp only [List.cons.injEq] at e
              rw [← e.1]; exact hlt
          rcases List.mem_cons.1 h with h | h
          · rw [h, strLt_irrefl] at hl; cases hl
          · have := (List.pairwise_cons.1 (List.pairwise_append.1 hs).2.1).1 _ h
            rw [strLt_asymm this] at hl
            cases hl
      · refine .inr (.inr fun a ha => ?_)
        rw [← glob_noBrace (hb a ha)]
        exact hp a ((hm a).2 ha)
  · rintro (⟨a, ha⟩ | ⟨h1, h2⟩ | h)
    · left
      have h1 : ∀ x ∈ vals, x = a := fun x hx => ha x ((hm x).1 hx)
      match vals, hs, h1 with
      | [], _, _ => simp
      | [x], _, _ => simp
      | x :: y :: l, hs, h1 =>
        have := (List.pairwise_cons.1 hs).1 y (by simp)
        rw [h1 x (by simp), h1 y (by simp), strLt_irrefl] at this
        cases this
    · right
      rw [groupOk_iff]
      obtain ⟨pre, post, rfl⟩ := List.append_of_mem ((hm _).2 h1)
      refine .inl ⟨pre, post, rfl, ?_⟩
      intro p hp
      have hl := (List.pairwise_append.1 hs).2.2 p hp [42] (by simp)
      rw [before_star_byte] at hl
      cases p with
      | nil => exact .nil
      | cons b t =>
        have hpm := (hm _).1 (by simp [hp] : b :: t ∈ pre ++ [42] :: post)
        rw [glob_noBrace (hb _ hpm)]
        exact h2 b t hpm (hl b t rfl)
    · right
      rw [groupOk_iff]
      refine .inr fun v hv => ?_
      have := (hm v).1 hv
      rw [glob_noBrace (hb v this)]
      exact h v this

theorem brace_parts {body : Str} (hb : 125 ∉ body) : BracePiece (123 :: body ++ [125]) ↔
    ((∃ a, ∀ b ∈ splitByte body 44, b = a) ∨
     ([42] ∈ splitByte body 44 ∧
        ∀ b t, b :: t ∈ splitByte body 44 → b < 42 → Row SubPiece (b :: t)) ∨
     ∀ a ∈ splitByte body 44, Row SubPiece a) := by
  constructor
  · rintro ⟨parts, h1, h2, h3, h4⟩
    have e : body = joinByte 44 parts := by
      rw [← intercalate_joinByte]
      simpa using h2
    rw [e, splitByte_joinByte h1 (fun p hp => (h3 p hp).1)]
    exact h4
  · intro h
    refine ⟨splitByte body 44, splitByte_ne_nil _ _, ?_, ?_, h⟩
    · rw [intercalate_joinByte, joinByte_splitByte]
    · intro a ha
      refine ⟨splitByte_no_sep _ _ a ha, fun hm => hb ?_⟩
      rw [← joinByte_splitByte body 44]
      exact mem_joinByte ha hm

theorem values_of {body : Str} (hne : body ≠ []) {vals : List Str}
    (h : listExpand (123 :: body ++ [125]) = some vals) :
    vals.Pairwise (fun a b => strLt a b = true) ∧ ∀ v, v ∈ vals ↔ v ∈ splitByte body 44 := by
  refine ⟨(listExpand_some h).1, ?_⟩
  have hle := listExpand_braces body
  rw [← List.cons_append] at hle
  rw [hle, if_neg hne] at h
  cases h
  intro v
  have hne2 : sortBy strLe (splitByte body 44) ≠ [] := by
    intro h0
    have := (sortBy_perm strLe (splitByte body 44)).length_eq
    rw [h0] at this
    exact splitByte_ne_nil _ 44 (List.length_eq_zero_iff.mp this.symm)
  obtain ⟨b, hb1, _, hb3⟩ := removeDuplicated_spec _ hne2
  rw [hb1, mem_dedupAdj, hb3, mem_sortBy]

theorem plain_row {v : Str} (h : hasWildcard v = false) : Row GlobPiece v := by
  have := (glob_frees (l := v) (t := []) (by
    intro b hb
    apply free_of_plain
    simp only [hasWildcard, List.any_eq_false] at h
    simpa using h b hb)).2 .nil
  simpa using this

theorem listItem_accept {vals : List Str} (hs : vals.Pairwise (fun a b => strLt a b = true)) :
    (listItem vals = .inr () ∧ ¬ vals.length ≤ 1) ∨
    (∃ it, listItem vals = .inl (.ok it)) ∧ (vals.length ≤ 1 ∨ GroupOk vals) := by
  rcases listItem_ok hs with h | h
  · left
    refine ⟨h, ?_⟩
    intro hl
    match vals, hl with
    | [], _ => simp [listItem] at h
    | [v], _ =>
      rw [listItem] at h
      split at h <;> cases h
  · right
    refine ⟨h, ?_⟩
    match vals with
    | [] => left; simp
    | [v] => left; simp
    | v :: w :: l =>
      right
      rw [groupOk_iff]
      refine .inr fun x hx => plain_row ?_
      obtain ⟨it, h⟩ := h
      unfold listItem at h
      dsimp only at h
      split at h
      · cases h
      · rename_i hst
        rw [listScan_hasStar, Bool.or_eq_true, not_or, List.any_eq_true] at hst
        cases hw : hasWildcard x with
        | false => rfl
        | true => exact absurd ⟨x, hx, hw⟩ hst.2

/-! ## The parser -/

theorem accept (fuel : Nat) :
    (∀ s r, nextItem fuel s = .ok r → s ≠ [] →
      (∃ e, r = .error e ∧ ¬ Row GlobPiece s) ∨
      ∃ it rest, r = .ok (it, rest) ∧ (Row GlobPiece s ↔ Row GlobPiece rest)) ∧
    (∀ vals items r, newGroup fuel vals items = .ok r → ((∃ x, r = .ok x) ↔ GroupOk vals)) ∧
    (∀ v c r, chainLoop fuel v c = .ok r → ((∃ x, r = .ok x) ↔ Row GlobPiece v)) := by
  induction fuel with
  | zero =>
    refine ⟨?_, ?_, ?_⟩
    · intro s r h; cases h
    · intro v i r h; cases h
    · intro v c r h; cases h
  | succ fuel ih =>
    obtain ⟨ih1, ih2, ih3⟩ := ih
    refine ⟨?_, ?_, ?_⟩
    · intro s r h hs
      cases s with
      | nil => exact absurd rfl hs
      | cons b t =>
        rw [nextItem] at h
        dsimp only at h
        by_cases h91 : b = 91
        · subst h91
          rw [if_pos rfl] at h
          rcases byte_span 93 t with hno | ⟨body, rest, rfl, hno⟩
          · left
            have hcut : cutAfter (91 :: t) 93 = .ok (91 :: t, []) := by
              unfold cutAfter
              have : strIndex (91 :: t) [93] = none := by
                rw [strIndex_none]
                intro p q h
                have hm : (93 : UInt8) ∈ 91 :: t := by rw [h]; simp
                rcases List.mem_cons.1 hm with h | h
                · exact absurd h (by decide)
                · exact hno h
              rw [this]
            have he : RunesRanges.expand (91 :: t) = none := by
              have hn : ¬ t.getLast? = some 0x5D := fun h => hno (List.mem_of_getLast? h)
              simp only [RunesRanges.expand, if_neg hn]
            rw [hcut] at h
            simp only [R.bind_ok] at h
            rw [he] at h
            injection h with h
            exact ⟨_, h.symm, glob_class_open hno⟩
          · have hcut := cutAfter_byte (a := 91 :: body) (b := 93) rest (by
              intro hm
              rcases List.mem_cons.1 hm with h | h
              · exact absurd h (by decide)
              · exact hno h)
            rw [← List.cons_append, hcut] at h
            simp only [R.bind_ok] at h
            rw [← List.cons_append, glob_class hno, ← classBytes_iff]
            cases he : RunesRanges.expand (91 :: body ++ [93]) with
            | none =>
              rw [he] at h
              injection h with h
              exact .inl ⟨_, h.symm, by simp⟩
            | some rs =>
              rw [he] at h
              injection h with h
              exact .inr ⟨_, _, h.symm, by simp⟩
        rw [if_neg h91] at h
        by_cases h123 : b = 123
        · subst h123
          rw [if_pos rfl] at h
          rcases byte_span 125 t with hno | ⟨body, rest, rfl, hno⟩
          · left
            have hcut : cutAfter (123 :: t) 125 = .ok (123 :: t, []) := by
              unfold cutAfter
              have : strIndex (123 :: t) [125] = none := by
                rw [strIndex_none]
                intro p q h
                have hm : (125 : UInt8) ∈ 123 :: t := by rw [h]; simp
                rcases List.mem_cons.1 hm with h | h
                · exact absurd h (by decide)
                · exact hno h
              rw [this]
            have he : listExpand (123 :: t) = none := by
              unfold listExpand
              rw [if_neg]
              rintro ⟨_, _, h⟩
              rcases List.mem_cons.1 (List.mem_of_getLast? h) with h | h
              · exact absurd h (by decide)
              · exact hno h
            rw [hcut] at h
            simp only [R.bind_ok] at h
            rw [he] at h
            injection h with h
            exact ⟨_, h.symm, glob_brace_open hno⟩
          · have hcut := cutAfter_byte (a := 123 :: body) (b := 125) rest (by
              intro hm
              rcases List.mem_cons.1 hm with h | h
              · exact absurd h (by decide)
              · exact hno h)
            rw [← List.cons_append, hcut] at h
            simp only [R.bind_ok] at h
            rw [← List.cons_append, glob_brace hno]
            by_cases hbody : body = []
            · subst hbody
              have hle : listExpand (123 :: [] ++ [125]) = some [] := by
                have := listExpand_braces []
                simpa using this
              rw [hle] at h
              dsimp only [listItem] at h
              injection h with h
              refine .inr ⟨_, _, h.symm, ?_⟩
              have : BracePiece (123 :: [] ++ [125]) := by
                rw [brace_parts hno]
                exact .inl ⟨[], by simp [splitByte]⟩
              exact ⟨fun h => h.2, fun h => ⟨this, h⟩⟩
            · cases hle : listExpand (123 :: body ++ [125]) with
              | none =>
                have := listExpand_braces body
                rw [← List.cons_append, hle, if_neg hbody] at this
                cases this
              | some vals =>
                obtain ⟨hsr, hm⟩ := values_of hbody hle
                have hparts : ∀ a ∈ splitByte body 44, 125 ∉ a := by
                  intro a ha h
                  apply hno
                  rw [← joinByte_splitByte body 44]
                  exact mem_joinByte ha h
                have hrule := brace_rule (splitByte_ne_nil body 44) hparts hm hsr
                rw [← brace_parts hno] at hrule
                rw [hle] at h
                dsimp only at h
                rw [← hrule]
                rcases listItem_accept hsr with ⟨hl, hlen⟩ | ⟨⟨it, hl⟩, hok⟩
                · rw [hl] at h
                  dsimp only at h
                  cases hg : newGroup fuel vals [] with
                  | timeout => rw [hg] at h; cases h
                  | panic => rw [hg] at h; cases h
                  | ok x =>
                    rw [hg] at h
                    simp only [R.bind_ok] at h
                    have := ih2 _ _ _ hg
                    cases x with
                    | error e =>
                      injection h with h
                      refine .inl ⟨_, h.symm, ?_⟩
                      rintro ⟨h1 | h1, _⟩
                      · exact hlen h1
                      · obtain ⟨_, h⟩ := this.2 h1; cases h
                    | ok x =>
                      injection h with h
                      refine .inr ⟨_, _, h.symm, ?_⟩
                      simp [this.1 ⟨x, rfl⟩]
                · rw [hl] at h
                  simp only [R.bind_ok] at h
                  injection h with h
                  refine .inr ⟨_, _, h.symm, ?_⟩
                  simp [hok]
        rw [if_neg h123] at h
        by_cases h42 : b = 42
        · rw [if_pos h42] at h
          obtain ⟨k, rest, e, hsk⟩ := skipStars_bytes (b :: t)
          rw [hsk] at h
          simp only [R.bind_ok] at h
          injection h with h
          refine .inr ⟨_, _, h.symm, ?_⟩
          rw [e, glob_frees]
          intro x hx
          rw [List.eq_of_mem_replicate hx]
          unfold Free
          decide
        rw [if_neg h42] at h
        by_cases h63 : b = 63
        · subst h63
          rw [if_pos rfl] at h
          injection h with h
          exact .inr ⟨_, _, h.symm, glob_free (by unfold Free; decide)⟩
        rw [if_neg h63] at h
        by_cases hcl : b = 93 ∨ b = 125
        · rw [if_pos (by simpa using hcl)] at h
          injection h with h
          exact .inl ⟨_, h.symm, glob_close hcl⟩
        rw [if_neg (by simpa using hcl)] at h
        cases hi : indexWildcard (b :: t) with
        | none =>
          rw [hi] at h
          injection h with h
          refine .inr ⟨_, _, h.symm, ?_⟩
          have := glob_frees (l := b :: t) (t := []) (by
            intro x hx
            exact free_of_plain (indexP_none.1 hi x hx))
          simpa using this
        | some n =>
          rw [hi] at h
          dsimp only at h
          obtain ⟨hlt, hpre⟩ := indexP_pre hi
          rw [sliceTo, if_pos (by omega), sliceFrom, if_pos (by omega)] at h
          simp only [R.bind_ok] at h
          injection h with h
          refine .inr ⟨_, _, h.symm, ?_⟩
          rw [← glob_frees (l := (b :: t).take n) (t := (b :: t).drop n), List.take_append_drop]
          intro x hx
          exact free_of_plain (hpre x hx)
    · intro vals items r h
      cases vals with
      | nil =>
        rw [newGroup] at h
        injection h with h
        simp [← h, GroupOk]
      | cons v vs =>
        rw [newGroup] at h
        rw [GroupOk]
        cases hw : hasWildcard v with
        | false =>
          rw [hw] at h
          rw [if_neg (by simp)] at h
          rw [ih2 _ _ _ h]
          have h1 : v ≠ [42] := by
            rintro rfl; exact absurd hw (by decide)
          simp [h1, plain_row hw]
        | true =>
          rw [hw] at h
          rw [if_pos rfl] at h
          by_cases h1 : v = [42]
          · rw [if_pos h1] at h
            injection h with h
            simp [← h, h1]
          rw [if_neg h1] at h
          by_cases h2 : v = [63]
          · rw [if_pos h2] at h
            rw [ih2 _ _ _ h]
            have : Row GlobPiece v := by
              rw [h2, glob_free (by unfold Free; decide)]
              exact .nil
            simp [h1, this]
          rw [if_neg h2] at h
          cases hc : chainLoop fuel v {} with
          | timeout => rw [hc] at h; cases h
          | panic => rw [hc] at h; cases h
          | ok x =>
            rw [hc] at h
            simp only [R.bind_ok] at h
            have := ih3 _ _ _ hc
            cases x with
            | error e =>
              injection h with h
              have hn : ¬ Row GlobPiece v := fun hr => by
                obtain ⟨_, h⟩ := this.2 hr; cases h
              simp [← h, h1, hn]
            | ok c =>
              dsimp only at h
              rw [ih2 _ _ _ h]
              simp [h1, this.1 ⟨c, rfl⟩]
    · intro v c r h
      cases v with
      | nil =>
        rw [chainLoop] at h
        injection h with h
        simp [← h, Row.nil]
      | cons b t =>
        rw [chainLoop] at h
        cases hn : nextItem fuel (b :: t) with
        | timeout => rw [hn] at h; cases h
        | panic => rw [hn] at h; cases h
        | ok x =>
          rw [hn] at h
          simp only [R.bind_ok] at h
          rcases ih1 _ _ hn (by simp) with ⟨e, rfl, hr⟩ | ⟨it, rest, rfl, hr⟩
          · injection h with h
            simp [← h, hr]
          · cases it with
            | none => rw [hr]; exact ih3 _ _ _ h
            | some it => rw [hr]; exact ih3 _ _ _ h

theorem parseLoop_accept (fuel : Nat) (s : Str) (st : ParseSt) {r : Except GErr ParseSt}
    (h : parseLoop fuel s st = .ok r) : (∃ x, r = .ok x) ↔ Row GlobPiece s := by
  induction fuel generalizing s st with
  | zero => cases h
  | succ fuel ih =>
    cases s with
    | nil =>
      rw [parseLoop] at h
      injection h with h
      simp [← h, Row.nil]
    | cons b t =>
      rw [parseLoop] at h
      cases hn : nextItem fuel (b :: t) with
      | timeout => rw [hn] at h; cases h
      | panic => rw [hn] at h; cases h
      | ok x =>
        rw [hn] at h
        simp only [R.bind_ok] at h
        rcases (accept fuel).1 _ _ hn (by simp) with ⟨e, rfl, hr⟩ | ⟨it, rest, rfl, hr⟩
        · injection h with h
          simp [← h, hr]
        · cases it with
          | none => rw [hr]; exact ih _ _ h
          | some it => rw [hr]; exact ih _ _ h

theorem lastIndexP_post {p : UInt8 → Bool} {s : Str} {i : Nat} (h : lastIndexP p s = some i) :
    ∀ c ∈ s.drop (i + 1), p c = false := by
  induction s generalizing i with
  | nil => cases h
  | cons b t ih =>
    rw [lastIndexP] at h
    cases hl : lastIndexP p t with
    | some j =>
      rw [hl] at h
      simp only [Option.some.injEq] at h
      subst h
      exact ih hl
    | none =>
      rw [hl] at h
      simp only at h
      split at h
      · simp only [Option.some.injEq] at h
        subst h
        intro c hc
        simp only [Nat.zero_add, List.drop_succ_cons, List.drop_zero] at hc
        cases hp : p c with
        | false => rfl
        | true =>
          obtain ⟨n, hn⟩ := lastIndexP_isSome ⟨c, hc, hp⟩
          rw [hl] at hn; cases hn
      · cases h

theorem parse_accept (s : Str) : (∃ g, parseGlob s = .ok (.ok g)) ↔ Row GlobPiece s := by
  unfold parseGlob
  cases hp : indexWildcard s with
  | none =>
    have : Row GlobPiece s := plain_row (by
      simp only [hasWildcard, List.any_eq_false]
      intro x hx
      simp [indexP_none.1 hp x hx])
    simp [this]
  | some pos =>
    dsimp only
    obtain ⟨hlt, hpre⟩ := indexP_pre hp
    rw [sliceTo, if_pos (by omega), sliceFrom, if_pos (by omega)]
    simp only [R.bind_ok]
    obtain ⟨b0, t, hbody, hw⟩ := indexP_at hp
    obtain ⟨e, he⟩ := lastIndexP_isSome (p := isWild) (s := s.drop pos) ⟨b0, by simp [hbody], hw⟩
    have he' : indexLastWildcard (s.drop pos) = some e := he
    have helt := lastIndexP_lt he
    have hpost := lastIndexP_post he
    have hs : Row GlobPiece s ↔ Row GlobPiece (b0 :: t) := by
      rw [← hbody, ← glob_frees (l := s.take pos) (t := s.drop pos), List.take_append_drop]
      intro x hx
      exact free_of_plain (hpre x hx)
    rw [he', hbody, hs]
    rw [hbody] at helt hpost
    dsimp only
    have hcutrow : Row GlobPiece (b0 :: t) ↔ Row GlobPiece ((b0 :: t).take (e + 1)) := by
      rw [← glob_frees_end (t := (b0 :: t).take (e + 1)) (l := (b0 :: t).drop (e + 1)),
        List.take_append_drop]
      intro x hx
      exact free_of_plain (hpost x hx)
    split
    · rename_i h0
      obtain ⟨rfl, h1, h2⟩ := h0
      have : ¬ Row GlobPiece (b0 :: t) := by
        rw [hcutrow]
        simp only [Nat.zero_add, List.take_succ_cons, List.take_zero]
        have : b0 = 91 ∨ b0 = 123 ∨ b0 = 93 ∨ b0 = 125 := by
          simp only [isWild, Bool.or_eq_true, decide_eq_true_eq] at hw
          rcases hw with ((((h | h) | h) | h) | h) | h
          · exact .inl h
          · exact .inr (.inr (.inl h))
          · exact .inr (.inl h)
          · exact .inr (.inr (.inr h))
          · exact absurd h h2
          · exact absurd h h1
        rcases this with rfl | rfl | h
        · exact glob_class_open (by simp)
        · exact glob_brace_open (by simp)
        · exact glob_close h
      simp [this]
    · have hcut : ∃ suff, (if (e : Int) < ((b0 :: t).length : Int) - 1 then do
            let suff ← sliceFrom (b0 :: t) (e + 1)
            let body ← sliceTo (b0 :: t) (e + 1)
            R.ok (body, suff)
          else R.ok (b0 :: t, [])) = .ok ((b0 :: t).take (e + 1), suff) := by
        split
        · refine ⟨(b0 :: t).drop (e + 1), ?_⟩
          rw [sliceFrom, if_pos (by omega), sliceTo, if_pos (by omega)]
          rfl
        · refine ⟨[], ?_⟩
          rw [List.take_of_length_le (by omega)]
      obtain ⟨suff, hcut⟩ := hcut
      rw [hcut, hcutrow]
      simp only [R.bind_ok]
      generalize (b0 :: t).take (e + 1) = body
      by_cases h1 : body = [42]
      · rw [if_pos h1, h1]
        have : Row GlobPiece [42] := (glob_free (by unfold Free; decide)).2 .nil
        simp [this]
      rw [if_neg h1]
      by_cases h2 : body = [63]
      · rw [if_pos h2, h2]
        have : Row GlobPiece [63] := (glob_free (by unfold Free; decide)).2 .nil
        simp [this]
      rw [if_neg h2]
      obtain ⟨r, hr⟩ := parseLoop_total (parseFuel body.length) body
        { minLen := ((s.take pos).length : Int) + suff.length,
          maxLen := ((s.take pos).length : Int) + suff.length, pref := s.take pos }
        (by unfold parseFuel; omega)
      rw [hr]
      simp only [R.bind_ok]
      have := parseLoop_accept _ _ _ hr
      cases r with
      | error er =>
        have hn : ¬ Row GlobPiece body := fun hb => by
          obtain ⟨_, h⟩ := this.2 hb; cases h
        simp [hn]
      | ok st => simp [this.1 ⟨st, rfl⟩]

end GoMatcher
