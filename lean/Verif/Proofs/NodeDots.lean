import Verif.Proofs.NodeTwice
import Verif.Proofs.GGlobParse

/-! # Normal forms of parts hold no dot and are not empty -/

namespace GoMatcher

theorem mem_joinByte_cases {sep x : UInt8} (ps : List Str) (h : x ∈ joinByte sep ps) :
    x = sep ∨ ∃ p ∈ ps, x ∈ p := by
  match ps with
  | [] => cases h
  | [p] => exact .inr ⟨p, by simp, h⟩
  | p :: q :: r =>
    rw [joinByte_cons_cons] at h
    rcases List.mem_append.1 h with h | h
    · exact .inr ⟨p, by simp, h⟩
    · rcases List.mem_cons.1 h with h | h
      · exact .inl h
      · rcases mem_joinByte_cases (q :: r) h with h | ⟨p', hp', h⟩
        · exact .inl h
        · exact .inr ⟨p', by simp [hp'], h⟩

theorem renderAlts_has {alts : List (List Sub)} {a : List Sub} (ha : a ∈ alts) {c : Char}
    (hc : c ∈ renderSubs a) : c ∈ renderAlts alts := by
  match alts with
  | [] => cases ha
  | [b] => rw [List.mem_singleton.1 ha] at hc; exact hc
  | b :: d :: l =>
    rw [renderAlts]
    rcases List.mem_cons.1 ha with rfl | ha
    · simp [hc]
    · have := renderAlts_has ha hc
      simp [this]

theorem mem_put {p q : GPiece} {r : List GPiece} (h : q ∈ p.put r) : q.isRun = true ∨ q = p ∨ q ∈ r := by
  by_cases hp : p.isRun = false ∨ ∀ q ∈ r.head?, q.isRun = false
  · rw [put_ne hp] at h
    exact .inr (List.mem_cons.1 h)
  · simp only [not_or, Bool.not_eq_false] at hp
    cases p with
    | run s n =>
      cases r with
      | nil => exact absurd (fun q hq => by cases hq) hp.2
      | cons q' r =>
        cases q' with
        | run s' n' =>
          rcases List.mem_cons.1 h with rfl | h
          · exact .inl rfl
          · exact .inr (.inr (by simp [h]))
        | _ => exact absurd (fun q hq => by cases hq; rfl) hp.2
    | _ => cases hp.1

theorem mem_foldr_put {q : GPiece} (l : List GPiece) (h : q ∈ l.foldr GPiece.put []) :
    q.isRun = true ∨ q ∈ l := by
  induction l with
  | nil => cases h
  | cons p l ih =>
    rcases mem_put h with h | rfl | h
    · exact .inl h
    · exact .inr (by simp)
    · rcases ih h with h | h
      · exact .inl h
      · exact .inr (by simp [h])

theorem class_text_dot {es : List ClassElt} (hok : (Sub.cls es).Ok false) (ht : TidyClass es)
    (hd : '.' ∉ Sub.render (.cls es)) : (46 : UInt8) ∉ classText fun c => decide (ClassMem es c) := by
  obtain ⟨hne, hes, h0, hch⟩ := hok
  obtain ⟨rs, hexp, hsem⟩ := RunesRanges.expand_sem es hes
  obtain ⟨es', q1, q2, q3, q4⟩ := class_write hes h0 ht hsem
  have hc : (fun c => decide (ClassMem es c)) = rs.contains := by
    funext c
    rw [Bool.eq_iff_iff, hsem.mem, decide_eq_true_eq]
  rw [hc, classText_eq rs ⟨hsem.sorted, hsem.wf⟩, q2, dot_mem_utf8]
  intro h
  simp only [Sub.render, List.cons_append, List.mem_cons, List.mem_append, List.not_mem_nil, or_false] at h hd
  rcases h with h | h | h
  · exact absurd h (by decide)
  · rcases q4 _ h with h | h
    · exact absurd h (by decide)
    · exact hd (.inr (.inl h))
  · exact absurd h (by decide)

theorem tok_text_dot (t : Tok) (hok : t.Ok) (hw : t.Wordy) (ht : t.Tidy) (hd : '.' ∉ t.render) :
    ∀ p ∈ t.pieces, (46 : UInt8) ∉ p.text := by
  intro p hp
  cases t with
  | sub s =>
    rw [List.mem_singleton.1 hp]
    cases s with
    | lit c =>
      show (46 : UInt8) ∉ utf8 [c]
      rw [dot_mem_utf8]
      exact hd
    | any => simp [Sub.piece, GPiece.text]
    | star => simp [Sub.piece, GPiece.text]
    | cls es =>
      cases ho : classOne es with
      | some c =>
        simp only [Sub.piece, ho]
        show (46 : UInt8) ∉ utf8 [c]
        rw [dot_mem_utf8]
        intro hc
        have hcc : '.' = c := by simpa using hc
        subst hcc
        apply hd
        cases es with
        | nil => cases ho
        | cons e es =>
          cases e with
          | one d =>
            simp only [classOne] at ho
            split at ho
            · cases ho
              simp [Tok.render, Sub.render, ClassElt.render]
            · cases ho
          | range d e =>
            simp only [classOne] at ho
            split at ho
            · cases ho
              simp [Tok.render, Sub.render, ClassElt.render]
            · cases ho
      | none =>
        simp only [Sub.piece, ho]
        exact class_text_dot hok ht hd
  | alt alts =>
    have hsub : ∀ w : List Char, w.map Sub.lit ∈ alts → '.' ∉ w := by
      intro w hm hc
      apply hd
      have : '.' ∈ renderSubs (w.map Sub.lit) := by rw [renderSubs_lits]; exact hc
      have := renderAlts_has hm this
      simp [Tok.render, this]
    cases ho : oneWord alts with
    | some w =>
      simp only [Tok.pieces, ho] at hp
      obtain ⟨c, hc, rfl⟩ := List.mem_map.1 hp
      show (46 : UInt8) ∉ utf8 [c]
      rw [dot_mem_utf8]
      intro h
      have hcc : '.' = c := by simpa using h
      subst hcc
      have hall := oneWord_some ho hw
      cases alts with
      | nil => exact hok.1 rfl
      | cons a l =>
        have := hall a (by simp)
        exact hsub w (by rw [← this]; simp) hc
    | none =>
      simp only [Tok.pieces, ho] at hp
      rw [List.mem_singleton.1 hp]
      obtain ⟨ws, hs, hm⟩ := sorted_alts alts hw
      have hwl : WordList (fun w => decide (w.map Sub.lit ∈ alts)) (ws.map utf8) := by
        refine ⟨hs, fun v => ?_⟩
        rw [List.mem_map]
        constructor
        · rintro ⟨w, hw, rfl⟩
          exact ⟨w, decide_eq_true ((hm w).1 hw), rfl⟩
        · rintro ⟨w, hw, rfl⟩
          exact ⟨w, (hm w).2 (of_decide_eq_true hw), rfl⟩
      show (46 : UInt8) ∉ wordsText _
      rw [wordsText_eq hwl]
      intro h
      simp only [List.mem_append, List.mem_singleton] at h
      rcases h with (h | h) | h
      · exact absurd h (by decide)
      · rcases mem_joinByte_cases _ h with h | ⟨v, hv, h⟩
        · exact absurd h (by decide)
        · obtain ⟨w, hw', rfl⟩ := List.mem_map.1 hv
          rw [dot_mem_utf8] at h
          exact hsub w ((hm w).1 hw') h
      · exact absurd h (by decide)

/-- No dot in a glob, no dot in its normal form. -/
theorem form_dot (ts : List Tok) (hok : ∀ t ∈ ts, t.Ok) (hw : ∀ t ∈ ts, t.Wordy) (ht : ∀ t ∈ ts, t.Tidy)
    (hd : '.' ∉ renderGlob ts) : (46 : UInt8) ∉ formText (pieces ts) := by
  intro h
  obtain ⟨q, hq, h⟩ := List.mem_flatMap.1 h
  rcases mem_foldr_put _ hq with hr | hq
  · cases q with
    | run s n =>
      simp only [GPiece.text, List.mem_append, List.mem_replicate] at h
      rcases h with h | h
      · split at h <;> simp at h
      · exact absurd h.2 (by decide)
    | _ => cases hr
  · obtain ⟨t, h1, h2⟩ := List.mem_flatMap.1 hq
    refine tok_text_dot t (hok t h1) (hw t h1) (ht t h1) (fun hc => hd ?_) q h2 h
    exact List.mem_flatMap.2 ⟨t, h1, hc⟩

theorem GoodPiece.text_ne {p : GPiece} (h : GoodPiece p) : p.text ≠ [] := by
  obtain ⟨us, hu⟩ := h.writes
  rw [← hu.text]
  intro e
  have e : renderGlob us = [] := utf8_inj (e.trans rfl)
  have hn : us = [] := by
    cases us with
    | nil => rfl
    | cons t us =>
      rw [renderGlob_cons] at e
      exact absurd (List.append_eq_nil_iff.1 e).1 (render_ne_nil t)
  have hp := hu.put []
  rw [hn] at hp
  have hne : p.put [] ≠ [] := by cases p <;> simp [GPiece.put]
  exact hne hp.symm

theorem form_ne (ts : List Tok) (hok : ∀ t ∈ ts, t.Ok) (hw : ∀ t ∈ ts, t.Wordy) (ht : ∀ t ∈ ts, t.Tidy)
    (hp : pieces ts ≠ []) : formText (pieces ts) ≠ [] := by
  have hg := good_pieces ts hok hw ht
  cases hl : pieces ts with
  | nil => exact absurd hl hp
  | cons p l =>
    intro e
    unfold formText at e
    rw [List.flatMap_cons] at e
    exact (hg p (by rw [hl]; simp)).text_ne (List.append_eq_nil_iff.1 e).1

end GoMatcher
