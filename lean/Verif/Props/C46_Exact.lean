import Verif.Props.C52_Queries

/-! # C46: exactly which conditions can be read back -/

namespace GoMatcher

theorem Trims.self {s t : Str} (h : Trims s t) : Trims t t :=
  ⟨⟨[], [], by simp, by simp, by simp [utf8]⟩, h.2⟩

theorem split_unique {a b x y : Str} {c : UInt8} {p : UInt8 → Prop} (ha : ∀ z ∈ a, ¬ p z)
    (hb : ∀ z ∈ b, ¬ p z) (hc : p c) {d : UInt8} (hd : p d) (h : a ++ c :: x = b ++ d :: y) :
    a = b ∧ c :: x = d :: y := by
  induction a generalizing b with
  | nil =>
    cases b with
    | nil => exact ⟨rfl, h⟩
    | cons z b =>
      simp only [List.nil_append, List.cons_append, List.cons.injEq] at h
      exact absurd (h.1 ▸ hc) (hb z (by simp))
  | cons w a ih =>
    cases b with
    | nil =>
      simp only [List.nil_append, List.cons_append, List.cons.injEq] at h
      exact absurd (h.1 ▸ hd) (ha w (by simp))
    | cons z b =>
      simp only [List.cons_append, List.cons.injEq] at h
      obtain ⟨e1, e2⟩ := ih (fun z hz => ha z (by simp [hz])) (fun z hz => hb z (by simp [hz])) h.2
      exact ⟨by rw [h.1, e1], e2⟩

theorem opSign_head (op : TagOp) : ∃ c s, opSign op = c :: s ∧ (c = 61 ∨ c = 126 ∨ c = 33) := by
  cases op <;> exact ⟨_, _, rfl, by decide⟩

theorem text_eq (t : TTerm) : t.text = t.key ++ opSign t.op ++ t.value := by
  unfold TTerm.text
  cases t.op <;> rfl

namespace C46

/-- Exactly which conditions survive printing and reading: those with a key whose glob value does not
begin with `~` and, without outer white space, has itself as normal form.  (Quotes are a matter of the
list, not of the condition; see `quote_wrong`.) -/
theorem condition_stable_iff (lib : GoLib) (c : Str) (t : TTerm) (h : termOf lib c = .ok (.ok t)) :
    (∃ t', termOf lib t.text = .ok (.ok t') ∧ t'.id = t.id) ↔
      t.key ≠ [] ∧ (t.op = .eq ∨ t.op = .ne → t.value.head? ≠ some 126 ∧
        ∃ w, Trims t.value w ∧ normalForm w = .ok (.ok t.value)) := by
  obtain ⟨v0, ⟨k1, v1, e0, hk1, hk1', _, hkt, htr⟩, hval⟩ := C52.termOf_stands h
  have hkey : ∀ x ∈ t.key, ¬ (x = 61 ∨ x = 126 ∨ x = 33) := by
    obtain ⟨k2, ⟨⟨a, b, _, _, e⟩, _⟩, h1, h2⟩ := hkt
    by_cases hn : k2 = [110, 97, 109, 101]
    · rw [h1 hn]; decide
    · rw [h2 hn]
      intro x hx
      have := hk1' x (by rw [e]; simp [hx])
      simp [this]
  have hkeyText : KeyText t.key t.key := by
    obtain ⟨k2, h0, h1, h2⟩ := hkt
    by_cases hn : k2 = [110, 97, 109, 101]
    · rw [h1 hn]
      refine ⟨b!"__name__", ⟨⟨[], [], by simp, by simp, by simp [utf8]⟩, by decide +kernel⟩, ?_, ?_⟩
      · intro e; exact absurd e (by decide)
      · intro _; rfl
    · rw [h2 hn]
      exact ⟨k2, h0.self, fun e => absurd e hn, fun _ => rfl⟩
  constructor
  · rintro ⟨t', ht', hid⟩
    simp only [TTerm.id, Prod.mk.injEq] at hid
    obtain ⟨i1, i2, i3⟩ := hid
    obtain ⟨v, ⟨k0, v2, e1, hk0, hk0', htil, _, htr'⟩, hval'⟩ := C52.termOf_stands ht'
    rw [text_eq, i2] at e1
    obtain ⟨a, s, es, hs⟩ := opSign_head t.op
    have := split_unique (p := fun x => x = 61 ∨ x = 126 ∨ x = 33) (a := t.key) (b := k0)
      (x := s ++ t.value) (y := s ++ v2) hkey (fun z hz => by simpa using hk0' z hz) hs hs
      (by rw [es] at e1; simpa using e1)
    obtain ⟨rfl, e2⟩ := this
    simp only [List.cons.injEq, true_and, List.append_cancel_left_eq] at e2
    subst e2
    refine ⟨hk0, fun hop => ⟨htil (by rw [i2]; exact hop), v, htr', ?_⟩⟩
    rcases hval' with ⟨ho, _⟩ | ⟨_, g, hg, hn, _⟩
    · rw [i2] at ho
      rcases ho with ho | ho <;> rw [ho] at hop <;> simp at hop
    · rw [normalForm_ok hg, ← hn, i3]
  · rintro ⟨hne, hcond⟩
    obtain ⟨w, hw, hw', hok⟩ : ∃ w, Trims t.value w ∧
        (t.op = .eq ∨ t.op = .ne → t.value.head? ≠ some 126 ∧ normalForm w = .ok (.ok t.value)) ∧
        (t.op = .mt ∨ t.op = .nm → w = t.value ∧ lib.reCompiles w = true) := by
      rcases hval with ⟨ho, e1, _⟩ | ⟨ho, _⟩
      · have hno : ¬ (t.op = .eq ∨ t.op = .ne) := by rcases ho with h | h <;> simp [h]
        refine ⟨v0, by rw [e1]; exact htr.self, fun h => absurd h hno, fun _ => ⟨e1.symm, ?_⟩⟩
        obtain ⟨k, op, v, hv, hvo⟩ := (C52.termOf_iff lib c).1 ⟨t, h⟩
        have hc0 : CondText c t.key t.op v0 := ⟨k1, v1, e0, hk1, hk1', fun h => absurd h hno, hkt, htr⟩
        obtain ⟨rfl, rfl, rfl⟩ := C52.condition_unique hv hc0
        exact hvo.1 ho
      · obtain ⟨a, w, b, d⟩ := hcond ho
        refine ⟨w, b, fun _ => ⟨a, d⟩, fun h => ?_⟩
        rcases ho with ho | ho <;> rw [ho] at h <;> simp at h
    have hct : CondText t.text t.key t.op w :=
      ⟨t.key, t.value, text_eq t, hne, fun x hx => by have := hkey x hx; simpa using this,
        fun ho => (hw' ho).1, hkeyText, hw⟩
    have hvo : C52.ValueOk lib t.op w := by
      refine ⟨fun ho => (hok ho).2, fun ho => ?_⟩
      have := (hw' ho).2
      rw [← (C51.accepted_iff w).1]
      unfold normalForm at this
      obtain ⟨r, hr, hn⟩ := R.bind_eq_ok.1 this
      cases r with
      | error e => simp at hn
      | ok g => exact ⟨g, hr⟩
    obtain ⟨t', ht'⟩ := (C52.termOf_iff lib t.text).2 ⟨_, _, _, hct, hvo⟩
    refine ⟨t', ht', ?_⟩
    obtain ⟨v', hv', hx⟩ := C52.termOf_stands ht'
    obtain ⟨a1, a2, rfl⟩ := C52.condition_unique hct hv'
    simp only [TTerm.id, Prod.mk.injEq]
    refine ⟨a1.symm, a2.symm, ?_⟩
    rcases hx with ⟨ho, e, _⟩ | ⟨ho, g, hg, hn, _⟩
    · rw [e, (hok (by rw [a2]; exact ho)).1]
    · have := (hw' (by rw [a2]; exact ho)).2
      rw [normalForm_ok hg] at this
      simp only [R.ok.injEq, Except.ok.injEq] at this
      rw [hn, this]

-- Both sides: `x[a-c]*` can be read back, `b ` cannot.
example : normalForm (b!"x[a-c]*") = .ok (.ok (b!"x[a-c]*")) ∧
    normalForm (b!"b[ ]") = .ok (.ok (b!"b ")) ∧ normalForm (b!"b") ≠ .ok (.ok (b!"b ")) := by
  decide +kernel

/-- A class with one blank at the end is printed as a blank, which is then trimmed. -/
theorem blank_wrong : twice exLib (b!"seriesByTag('a=b[ ]')") =
      .ok (.ok (b!"seriesByTag('a=b ')", b!"seriesByTag('a=b')")) ∧
    queryMap exLib (b!"seriesByTag('a=b[ ]')") [(b!"a", b!"b")] = .ok (.ok false) ∧
    queryMap exLib (b!"seriesByTag('a=b ')") [(b!"a", b!"b")] = .ok (.ok true) := by
  decide +kernel

end C46
end GoMatcher
