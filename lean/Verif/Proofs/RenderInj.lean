import Verif.Proofs.ParseAlt
import Verif.Spec.Tidy

/-! # The written form determines the tokens -/

namespace GoMatcher

theorem renderAlts_chars {alts : List (List Sub)} (h : ∀ a ∈ alts, ∀ s ∈ a, s.Ok true) :
    '}' ∉ renderAlts alts := by
  induction alts with
  | nil => simp [renderAlts]
  | cons a alts ih =>
    have ha := renderSubs_chars (h a (by simp))
    cases alts with
    | nil => intro hm; exact (ha _ hm).2 rfl
    | cons b alts =>
      rw [renderAlts]
      intro hm
      rcases List.mem_append.1 hm with hm | hm
      · exact (ha _ hm).2 rfl
      · rcases List.mem_cons.1 hm with hm | hm
        · exact absurd hm (by decide)
        · exact ih (fun x hx => h x (by simp [hx])) hm

theorem renderAlts_inj {a b : List (List Sub)} (ha : a ≠ []) (hb : b ≠ [])
    (oa : ∀ x ∈ a, ∀ s ∈ x, s.Ok true) (ob : ∀ x ∈ b, ∀ s ∈ x, s.Ok true)
    (h : renderAlts a = renderAlts b) : a = b := by
  have nc : ∀ l : List (List Sub), (∀ x ∈ l, ∀ s ∈ x, s.Ok true) →
      ∀ v ∈ l.map (fun a => utf8 (renderSubs a)), (44 : UInt8) ∉ v := by
    intro l hl v hv hm
    obtain ⟨x, hx, rfl⟩ := List.mem_map.1 hv
    obtain ⟨c, hc, e⟩ := (mem_utf8_ascii (by decide) _).1 hm
    exact (renderSubs_chars (hl x hx) c hc).1 (Char.toNat_val_inj e)
  have h1 := congrArg utf8 h
  rw [utf8_renderAlts, utf8_renderAlts] at h1
  have h2 := congrArg (splitByte · 44) h1
  rw [splitByte_joinByte (by simpa using ha) (nc a oa),
    splitByte_joinByte (by simpa using hb) (nc b ob)] at h2
  clear h h1 ha hb nc
  induction a generalizing b with
  | nil =>
    cases b with
    | nil => rfl
    | cons y b => simp at h2
  | cons x a ih =>
    cases b with
    | nil => simp at h2
    | cons y b =>
      simp only [List.map_cons, List.cons.injEq] at h2
      rw [renderSubs_inj (oa x (by simp)) (ob y (by simp)) (utf8_inj h2.1),
        ih (fun z hz => oa z (by simp [hz])) (fun z hz => ob z (by simp [hz])) h2.2]

/-- First characters of written tokens. -/
def headKind : Tok → Char
  | .sub (.lit c) => c
  | .sub .any => '?'
  | .sub .star => '*'
  | .sub (.cls _) => '['
  | .alt _ => '{'

theorem render_headKind (t : Tok) : ∃ r, t.render = headKind t :: r := by
  match t with
  | .sub (.lit c) => exact ⟨[], rfl⟩
  | .sub .any => exact ⟨[], rfl⟩
  | .sub .star => exact ⟨[], rfl⟩
  | .sub (.cls es) => exact ⟨_, rfl⟩
  | .alt alts => exact ⟨_, rfl⟩

theorem renderGlob_inj {a b : List Tok} (ha : ∀ t ∈ a, t.Written) (hb : ∀ t ∈ b, t.Written)
    (h : renderGlob a = renderGlob b) : a = b := by
  have hcons : ∀ (t : Tok) (ts : List Tok), renderGlob (t :: ts) = t.render ++ renderGlob ts := by
    intro t ts; rfl
  induction a generalizing b with
  | nil =>
    cases b with
    | nil => rfl
    | cons t b =>
      obtain ⟨r, e⟩ := render_headKind t
      rw [hcons, e] at h
      simp [renderGlob] at h
  | cons t a ih =>
    cases b with
    | nil =>
      obtain ⟨r, e⟩ := render_headKind t
      rw [hcons, e] at h
      simp [renderGlob] at h
    | cons u b =>
      have hat := ha t (by simp)
      have hbt := hb u (by simp)
      have ha' : ∀ t ∈ a, t.Written := fun x hx => ha x (by simp [hx])
      have hb' : ∀ t ∈ b, t.Written := fun x hx => hb x (by simp [hx])
      rw [hcons, hcons] at h
      have hhead : headKind t = headKind u := by
        obtain ⟨r, e⟩ := render_headKind t
        obtain ⟨r', e'⟩ := render_headKind u
        rw [e, e'] at h
        simp only [List.cons_append, List.cons.injEq] at h
        exact h.1
      have litNo : ∀ c, (Tok.sub (.lit c)).Written → c ≠ '?' ∧ c ≠ '*' ∧ c ≠ '[' ∧ c ≠ '{' := by
        intro c hc
        have := hc.1
        refine ⟨?_, ?_, ?_, ?_⟩ <;> rintro rfl <;> exact absurd this (by decide)
      match t, u, hat, hbt, hhead, h with
      | .sub (.lit c), .sub (.lit d), _, _, hh, h =>
        have hcd : c = d := hh
        subst hcd
        simp only [Tok.render, Sub.render, List.cons_append, List.nil_append, List.cons.injEq,
          true_and] at h
        rw [ih ha' hb' h]
      | .sub .any, .sub .any, _, _, _, h =>
        simp only [Tok.render, Sub.render, List.cons_append, List.nil_append, List.cons.injEq,
          true_and] at h
        rw [ih ha' hb' h]
      | .sub .star, .sub .star, _, _, _, h =>
        simp only [Tok.render, Sub.render, List.cons_append, List.nil_append, List.cons.injEq,
          true_and] at h
        rw [ih ha' hb' h]
      | .sub (.cls es), .sub (.cls fs), h1, h2, _, h =>
        simp only [Tok.render, Sub.render, List.cons_append, List.append_assoc, List.nil_append,
          List.cons.injEq, true_and] at h
        obtain ⟨e1, e2⟩ := append_sep_inj (fun hm => (h1.2.2.2 _ hm).1 rfl)
          (fun hm => (h2.2.2.2 _ hm).1 rfl) h
        rw [classRender_inj h1.2.1 h2.2.1 e1, ih ha' hb' e2]
      | .alt x, .alt y, h1, h2, _, h =>
        simp only [Tok.render, List.cons_append, List.append_assoc, List.nil_append,
          List.cons.injEq, true_and] at h
        obtain ⟨e1, e2⟩ := append_sep_inj (renderAlts_chars h1.2) (renderAlts_chars h2.2) h
        rw [renderAlts_inj h1.1 h2.1 h1.2 h2.2 e1, ih ha' hb' e2]
      | .sub (.lit c), .sub .any, h1, _, hh, _ => exact absurd hh (litNo c h1).1
      | .sub (.lit c), .sub .star, h1, _, hh, _ => exact absurd hh (litNo c h1).2.1
      | .sub (.lit c), .sub (.cls _), h1, _, hh, _ => exact absurd hh (litNo c h1).2.2.1
      | .sub (.lit c), .alt _, h1, _, hh, _ => exact absurd hh (litNo c h1).2.2.2
      | .sub .any, .sub (.lit c), _, h1, hh, _ => exact absurd hh.symm (litNo c h1).1
      | .sub .star, .sub (.lit c), _, h1, hh, _ => exact absurd hh.symm (litNo c h1).2.1
      | .sub (.cls _), .sub (.lit c), _, h1, hh, _ => exact absurd hh.symm (litNo c h1).2.2.1
      | .alt _, .sub (.lit c), _, h1, hh, _ => exact absurd hh.symm (litNo c h1).2.2.2
      | .sub .any, .sub .star, _, _, hh, _ => exact absurd hh (by decide)
      | .sub .any, .sub (.cls _), _, _, hh, _ => exact absurd hh (show '?' ≠ '[' by decide)
      | .sub .any, .alt _, _, _, hh, _ => exact absurd hh (show '?' ≠ '{' by decide)
      | .sub .star, .sub .any, _, _, hh, _ => exact absurd hh (by decide)
      | .sub .star, .sub (.cls _), _, _, hh, _ => exact absurd hh (show '*' ≠ '[' by decide)
      | .sub .star, .alt _, _, _, hh, _ => exact absurd hh (show '*' ≠ '{' by decide)
      | .sub (.cls _), .sub .any, _, _, hh, _ => exact absurd hh (show '[' ≠ '?' by decide)
      | .sub (.cls _), .sub .star, _, _, hh, _ => exact absurd hh (show '[' ≠ '*' by decide)
      | .sub (.cls _), .alt _, _, _, hh, _ => exact absurd hh (show '[' ≠ '{' by decide)
      | .alt _, .sub .any, _, _, hh, _ => exact absurd hh (show '{' ≠ '?' by decide)
      | .alt _, .sub .star, _, _, hh, _ => exact absurd hh (show '{' ≠ '*' by decide)
      | .alt _, .sub (.cls _), _, _, hh, _ => exact absurd hh (show '{' ≠ '[' by decide)

end GoMatcher
