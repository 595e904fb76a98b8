import Verif.Proofs.AttainedSem
import Verif.Proofs.TextParse

/-! # Globs with a star stand for texts of any length; words of read globs -/

namespace GoMatcher

/-- Every part of the token stands for some text. -/
def Tok.Stands : Tok → Prop
  | .sub s => ∃ cs, s.Fits cs
  | .alt alts => alts ≠ [] ∧ ∀ a ∈ alts, ∀ s ∈ a, ∃ cs, s.Fits cs

theorem sub_stands {b : Bool} {s : Sub} (h : s.Ok b) : ∃ cs, s.Fits cs := by
  cases s with
  | lit c => exact ⟨[c], rfl⟩
  | any => exact ⟨['a'], rfl⟩
  | star => exact ⟨[], trivial⟩
  | cls es =>
    obtain ⟨c, hc, _⟩ := class_endpoint h.1 h.2.1
    exact ⟨[c], c, rfl, hc⟩

theorem tok_stands {t : Tok} (h : t.Ok) : t.Stands := by
  cases t with
  | sub s => exact sub_stands h
  | alt alts => exact ⟨h.1, fun a ha s hs => sub_stands (h.2.1 a ha s hs)⟩

theorem subs_stand {ss : List Sub} (h : ∀ s ∈ ss, ∃ cs, s.Fits cs) : ∃ cs, subsFit ss cs := by
  induction ss with
  | nil => exact ⟨[], rfl⟩
  | cons s ss ih =>
    obtain ⟨a, ha⟩ := h s (by simp)
    obtain ⟨b, hb⟩ := ih (fun x hx => h x (by simp [hx]))
    exact ⟨a ++ b, a, b, rfl, ha, hb⟩

theorem Tok.Stands.fits {t : Tok} (h : t.Stands) : ∃ cs, t.Fits cs := by
  cases t with
  | sub s => exact h
  | alt alts =>
    obtain ⟨a, l, e⟩ := List.exists_cons_of_ne_nil h.1
    obtain ⟨cs, hc⟩ := subs_stand (h.2 a (by rw [e]; simp))
    exact ⟨cs, a, by rw [e]; simp, hc⟩

theorem toks_stand {ts : List Tok} (h : ∀ t ∈ ts, t.Stands) : ∃ cs, Fits ts cs := by
  induction ts with
  | nil => exact ⟨[], rfl⟩
  | cons t ts ih =>
    obtain ⟨a, ha⟩ := (h t (by simp)).fits
    obtain ⟨b, hb⟩ := ih (fun x hx => h x (by simp [hx]))
    exact ⟨a ++ b, a, b, rfl, ha, hb⟩

theorem subs_long {ss : List Sub} (h : ∀ s ∈ ss, ∃ cs, s.Fits cs) (hs : .star ∈ ss) (n : Nat) :
    ∃ cs, subsFit ss cs ∧ n ≤ cs.length := by
  induction ss with
  | nil => cases hs
  | cons s ss ih =>
    rcases List.mem_cons.1 hs with rfl | hs
    · obtain ⟨b, hb⟩ := subs_stand (fun x hx => h x (List.mem_cons_of_mem _ hx))
      exact ⟨List.replicate n 'a' ++ b, ⟨_, b, rfl, trivial, hb⟩, by simp⟩
    · obtain ⟨a, ha⟩ := h s (by simp)
      obtain ⟨b, hb, hl⟩ := ih (fun x hx => h x (by simp [hx])) hs
      exact ⟨a ++ b, ⟨a, b, rfl, ha, hb⟩, by simp; omega⟩

/-- A glob with a star stands for texts of any length. -/
theorem toks_long {ts : List Tok} (h : ∀ t ∈ ts, t.Stands) (hs : HasStar ts) (n : Nat) :
    ∃ cs, Fits ts cs ∧ n ≤ cs.length := by
  induction ts with
  | nil => rcases hs with hs | ⟨_, _, hs, _⟩ <;> cases hs
  | cons t ts ih =>
    have here : (∃ cs, t.Fits cs ∧ n ≤ cs.length) → ∃ cs, Fits (t :: ts) cs ∧ n ≤ cs.length := by
      rintro ⟨a, ha, hl⟩
      obtain ⟨b, hb⟩ := toks_stand (fun x hx => h x (List.mem_cons_of_mem _ hx))
      exact ⟨a ++ b, ⟨a, b, rfl, ha, hb⟩, by simp; omega⟩
    have there : HasStar ts → ∃ cs, Fits (t :: ts) cs ∧ n ≤ cs.length := by
      intro hs
      obtain ⟨a, ha⟩ := (h t (by simp)).fits
      obtain ⟨b, hb, hl⟩ := ih (fun x hx => h x (by simp [hx])) hs
      exact ⟨a ++ b, ⟨a, b, rfl, ha, hb⟩, by simp; omega⟩
    rcases hs with hs | ⟨alts, a, hs, ha, hst⟩
    · rcases List.mem_cons.1 hs with rfl | hs
      · exact here ⟨List.replicate n 'a', trivial, by simp⟩
      · exact there (Or.inl hs)
    · rcases List.mem_cons.1 hs with rfl | hs
      · obtain ⟨cs, h1, h2⟩ := subs_long ((h (.alt alts) (by simp)).2 a ha) hst n
        exact here ⟨cs, ⟨a, ha, h1⟩, h2⟩
      · exact there (Or.inr ⟨alts, a, hs, ha, hst⟩)

/-- Hence `MaxLen` is `-1` if it is a bound at all. -/
theorem max_infinite {ts : List Tok} {g : Glob} (h : GlobOk ts g) (hl : ∀ t ∈ ts, t.Stands)
    (hs : HasStar ts) (hm : MaxOk ts) : g.maxLen = -1 := by
  rcases h.max hm with h | h
  · exact h
  · obtain ⟨cs, h1, h2⟩ := toks_long hl hs (g.maxLen.toNat + 1)
    have := h cs h1
    have := length_le_utf8 cs
    omega

/-! ## Read texts -/

theorem subTok_stands {p : List Char} {s : Sub} (h : SubTok p s) : ∃ cs, s.Fits cs := by
  cases h with
  | lit _ => exact ⟨[_], rfl⟩
  | any => exact ⟨['a'], rfl⟩
  | star => exact ⟨[], trivial⟩
  | cls h hne =>
    obtain ⟨e, es, rfl⟩ := List.exists_cons_of_ne_nil hne
    refine ⟨[e.1], e.1, rfl, .range e.1 e.2, by simp, Nat.le_refl _, (h.2.2 e (by simp)).1⟩

theorem subText_stands {p : List Char} {ss : List Sub} (h : SubText p ss) :
    ∀ s ∈ ss, ∃ cs, s.Fits cs := by
  induction h with
  | nil => simp
  | cons h _ ih =>
    intro s hs
    rcases List.mem_cons.1 hs with rfl | hs
    · exact subTok_stands h
    · exact ih s hs
  | empty _ _ ih => exact ih

theorem subTexts_mem {loose : Bool} {ps : List (List Char)} {alts : List (List Sub)}
    (h : SubTexts loose ps alts) {a : List Sub} (ha : a ∈ alts) : ∃ p ∈ ps, SubText p a := by
  induction h with
  | nil => cases ha
  | cons h _ _ ih =>
    rcases List.mem_cons.1 ha with rfl | ha
    · exact ⟨_, by simp, h⟩
    · obtain ⟨p, hp, h⟩ := ih ha
      exact ⟨p, by simp [hp], h⟩

theorem globText_stands {loose : Bool} {g : List Char} {ts : List Tok} (h : GlobText loose g ts) :
    ∀ t ∈ ts, t.Stands := by
  have lits : ∀ a : List Char, (Tok.alt [a.map Sub.lit]).Stands := by
    intro a
    refine ⟨by simp, ?_⟩
    intro b hb s hs
    rw [List.mem_singleton.1 hb] at hs
    obtain ⟨c, _, rfl⟩ := List.mem_map.1 hs
    exact ⟨[c], rfl⟩
  induction h with
  | nil => simp
  | sub h _ ih =>
    intro t ht
    rcases List.mem_cons.1 ht with rfl | ht
    · exact subTok_stands h
    · exact ih t ht
  | empty _ _ ih =>
    intro t ht
    rcases List.mem_cons.1 ht with rfl | ht
    · exact lits []
    · exact ih t ht
  | same _ _ _ ih =>
    intro t ht
    rcases List.mem_cons.1 ht with rfl | ht
    · exact lits _
    · exact ih t ht
  | star _ _ _ _ _ ih =>
    intro t ht
    rcases List.mem_cons.1 ht with rfl | ht
    · refine ⟨by simp, fun a ha s hs => ?_⟩
      rw [List.mem_singleton.1 ha, List.mem_singleton] at hs
      exact ⟨[], by rw [hs]; trivial⟩
    · exact ih t ht
  | alts hb _ _ ha _ ih =>
    intro t ht
    rcases List.mem_cons.1 ht with rfl | ht
    · refine ⟨?_, fun a h s hs => ?_⟩
      · rintro rfl
        cases ha
        exact hb.2.1 rfl
      · obtain ⟨p, _, hp⟩ := subTexts_mem ha h
        exact subText_stands hp s hs
    · exact ih t ht

theorem subText_word {p : List Char} {ss : List Sub} (h : SubText p ss) :
    ∀ ws : List Char, ss = ws.map Sub.lit → (utf8 ws).length ≤ (utf8 p).length := by
  induction h with
  | nil => intro ws e; cases ws <;> simp_all
  | cons h _ ih =>
    intro ws e
    cases ws with
    | nil => cases e
    | cons c ws =>
      simp only [List.map_cons, List.cons.injEq] at e
      obtain ⟨rfl, e⟩ := e
      have := ih ws e
      cases h
      rw [utf8_length_append, show c :: ws = [c] ++ ws from rfl, utf8_length_append]
      omega
  | empty _ _ ih =>
    intro ws e
    have := ih ws e
    rw [utf8_length_append]
    omega

theorem joinComma_le {ps : List (List Char)} {a : List Char} (h : a ∈ ps) :
    (utf8 a).length ≤ (utf8 (joinComma ps)).length := by
  match ps with
  | [] => cases h
  | [b] => rw [List.mem_singleton.1 h]; exact Nat.le_refl _
  | b :: c :: l =>
    rw [joinComma, utf8_length_append]
    rcases List.mem_cons.1 h with rfl | h
    · omega
    · have := joinComma_le h
      rw [show (',' :: joinComma (c :: l)) = [','] ++ joinComma (c :: l) from rfl, utf8_length_append]
      omega

theorem brace_le {p : List Char} {ps : List (List Char)} (h : BraceText p ps) {a : List Char}
    (ha : a ∈ ps) : (utf8 a).length ≤ (utf8 p).length := by
  have := joinComma_le ha
  rw [h.1, show '{' :: joinComma ps ++ ['}'] = ['{'] ++ joinComma ps ++ ['}'] from rfl,
    utf8_length_append, utf8_length_append]
  omega

/-- Words of a read text are no longer than the text. -/
theorem wordsLe_text {loose : Bool} {g : List Char} {ts : List Tok} (h : GlobText loose g ts) :
    WordsLe (utf8 g).length ts := by
  have lits : ∀ a ws : List Char, ws.map Sub.lit ∈ [a.map Sub.lit] → ws = a := by
    intro a ws h
    have h := List.mem_singleton.1 h
    exact List.map_inj_right (by intro x y e; cases e; rfl) |>.1 h
  induction h with
  | nil => intro alts h; cases h
  | sub h _ ih =>
    intro alts ht ws hw
    rcases List.mem_cons.1 ht with e | ht
    · cases e
    · have := ih alts ht ws hw
      rw [utf8_length_append]; omega
  | empty _ _ ih =>
    intro alts ht ws hw
    rw [utf8_length_append]
    rcases List.mem_cons.1 ht with e | ht
    · cases e
      rw [lits [] ws hw]
      simp [utf8]
    · have := ih alts ht ws hw
      omega
  | @same p g a parts ts hb ha _ ih =>
    intro alts ht ws hw
    rw [utf8_length_append]
    rcases List.mem_cons.1 ht with e | ht
    · cases e
      rw [lits a ws hw]
      obtain ⟨b, l, e⟩ := List.exists_cons_of_ne_nil hb.2.1
      have hm : a ∈ parts := by
        have := ha b (by rw [e]; simp)
        rw [← this, e]
        simp
      have := brace_le hb hm
      omega
    · have := ih alts ht ws hw
      omega
  | star _ _ _ _ _ ih =>
    intro alts ht ws hw
    rw [utf8_length_append]
    rcases List.mem_cons.1 ht with e | ht
    · cases e
      have h := List.mem_singleton.1 hw
      cases ws with
      | nil => cases h
      | cons c ws => simp at h
    · have := ih alts ht ws hw
      omega
  | alts hb _ _ ha _ ih =>
    intro alts ht ws hw
    rw [utf8_length_append]
    rcases List.mem_cons.1 ht with e | ht
    · cases e
      obtain ⟨p, hp, h⟩ := subTexts_mem ha hw
      have := subText_word h ws rfl
      have := brace_le hb hp
      omega
    · have := ih alts ht ws hw
      omega

end GoMatcher
