import Verif.Proofs.NodeTwice
import Verif.Props.C07_Node

/-! # C07 for globs whose braces hold words: normal forms and pieces -/

namespace GoMatcher.C07

theorem ok_written {ts : List Tok} (h : ∀ t ∈ ts, t.Ok) : ∀ t ∈ ts, t.Written := by
  intro t ht
  have := h t ht
  cases t with
  | sub s => exact this
  | alt alts => exact ⟨this.1, this.2.1⟩

theorem normalForm_pieces (ts : List Tok) (hok : ∀ t ∈ ts, t.Ok) (hw : ∀ t ∈ ts, t.Wordy) :
    normalForm (utf8 (renderGlob ts)) = .ok (.ok (formText (pieces ts))) := by
  obtain ⟨g, hg, hG, hn⟩ := parse_spec_words ts hok
  rw [normalForm_ok hg, node_pieces hok hw hG (hn fun a ha => hw _ ha)]

/-- Globs whose braces hold words and that differ only in how runs of `?` and `*`, classes and braces are
written have the same normal form.  No tidiness is needed. -/
theorem same_pieces_partial (ts us : List Tok) (hs : ∀ t ∈ ts, t.Ok) (hu : ∀ t ∈ us, t.Ok)
    (ws : ∀ t ∈ ts, t.Wordy) (wu : ∀ t ∈ us, t.Wordy) (h : pieces ts = pieces us) :
    normalForm (utf8 (renderGlob ts)) = normalForm (utf8 (renderGlob us)) := by
  rw [normalForm_pieces ts hs ws, normalForm_pieces us hu wu, h]

/-- Tidy globs whose braces hold words are filed under the same normal form exactly if they have the
same pieces. -/
theorem form_iff_partial (ts us : List Tok) (hs : ∀ t ∈ ts, t.Ok) (hu : ∀ t ∈ us, t.Ok)
    (ws : ∀ t ∈ ts, t.Wordy) (wu : ∀ t ∈ us, t.Wordy) (ds : ∀ t ∈ ts, t.Tidy) (du : ∀ t ∈ us, t.Tidy) :
    normalForm (utf8 (renderGlob ts)) = normalForm (utf8 (renderGlob us)) ↔ pieces ts = pieces us := by
  refine ⟨fun h => ?_, same_pieces_partial ts us hs hu ws wu⟩
  rw [normalForm_pieces ts hs ws, normalForm_pieces us hu wu] at h
  simp only [R.ok.injEq, Except.ok.injEq] at h
  obtain ⟨a, a1, _, _, a3, a4⟩ := pieces_written ts hs ws ds
  obtain ⟨b, b1, _, _, b3, b4⟩ := pieces_written us hu wu du
  rw [← a3, ← b3] at h
  have h := utf8_inj h
  have he := written_unique a b (ok_written a1) (ok_written b1) h
  rw [← a4, ← b4, he]

/-- The normal form of a tidy glob whose braces hold words is its own normal form: it is accepted again,
and parsing it gives the same `Node`. -/
theorem idempotent_partial (ts : List Tok) (hok : ∀ t ∈ ts, t.Ok) (hw : ∀ t ∈ ts, t.Wordy)
    (ht : ∀ t ∈ ts, t.Tidy) :
    ∃ n, normalForm (utf8 (renderGlob ts)) = .ok (.ok n) ∧ normalForm n = .ok (.ok n) := by
  refine ⟨_, normalForm_pieces ts hok hw, ?_⟩
  obtain ⟨us, h1, h2, _, h3, h4⟩ := pieces_written ts hok hw ht
  rw [← h3, normalForm_pieces us h1 h2, h4, h3]

/-- `a?[cab]**?[x]{q,,p,q}{y,y}` and `a?[a-c]?*x{,p,q}y` have the same pieces. -/
example :
    let ts : List Tok := [.sub (.lit 'a'), .sub .any, .sub (.cls [.one 'c', .one 'a', .one 'b']), .sub .star,
      .sub .star, .sub .any, .sub (.cls [.one 'x']), .alt [[.lit 'q'], [], [.lit 'p'], [.lit 'q']],
      .alt [[.lit 'y'], [.lit 'y']]]
    let us : List Tok := [.sub (.lit 'a'), .sub .any, .sub (.cls [.range 'a' 'c']), .sub .any, .sub .star,
      .sub (.lit 'x'), .alt [[], [.lit 'p'], [.lit 'q']], .sub (.lit 'y')]
    (∀ t ∈ ts, t.Ok ∧ t.Wordy ∧ t.Tidy) ∧ (∀ t ∈ us, t.Ok ∧ t.Wordy ∧ t.Tidy) ∧ pieces ts = pieces us := by
  refine ⟨by decide +kernel, by decide +kernel, ?_⟩
  have h : (fun c => decide (ClassMem [.one 'c', .one 'a', .one 'b'] c)) =
      fun c => decide (ClassMem [.range 'a' 'c'] c) := by
    funext c
    rw [Bool.eq_iff_iff, decide_eq_true_eq, decide_eq_true_eq]
    simp only [ClassMem, ClassElt.Mem, List.mem_cons, List.not_mem_nil, or_false, exists_eq_or_imp,
      exists_eq_left]
    have h1 : 'a'.toNat = 97 := rfl
    have h2 : 'b'.toNat = 98 := rfl
    have h3 : 'c'.toNat = 99 := rfl
    omega
  have h' : (fun w : List Char => decide (w.map Sub.lit ∈ [[Sub.lit 'q'], [], [.lit 'p'], [.lit 'q']])) =
      fun w => decide (w.map Sub.lit ∈ [[], [Sub.lit 'p'], [.lit 'q']]) := by
    funext w
    rw [Bool.eq_iff_iff, decide_eq_true_eq, decide_eq_true_eq]
    simp only [List.mem_cons, List.not_mem_nil, or_false]
    grind
  show [GPiece.ch 'a', .run false 1, .set fun c => decide (ClassMem [.one 'c', .one 'a', .one 'b'] c),
    .run true 1, .ch 'x',
    .words fun w => decide (w.map Sub.lit ∈ [[Sub.lit 'q'], [], [.lit 'p'], [.lit 'q']]), .ch 'y'] = _
  rw [h, h']
  rfl

/-- The forms, evaluated. -/
example : normalForm (b!"a?[cab]**?[x]{q,,p,q}{y,y}") = .ok (.ok (b!"a?[a-c]*?x{,p,q}y")) ∧
    normalForm (b!"a?[a-c]?*x{,p,q}y") = .ok (.ok (b!"a?[a-c]*?x{,p,q}y")) ∧
    normalForm (b!"a?[a-c]*?x{,p,q}y") = .ok (.ok (b!"a?[a-c]*?x{,p,q}y")) := by decide +kernel

/-- Different pieces: the number of `?`, the words. -/
example : normalForm (b!"a*?") ≠ normalForm (b!"a*??") ∧ normalForm (b!"{a,b}") ≠ normalForm (b!"{a,b,}") := by
  decide +kernel

end GoMatcher.C07
