import Verif.Proofs.NodePieces
import Verif.Proofs.RenderInj

/-! # The normal form of a glob with words in braces can be read back to the same pieces -/

namespace GoMatcher

/-- Pieces that can be written and read back. -/
inductive GoodPiece : GPiece → Prop
  | ch {c : Char} (h : (Sub.lit c).Ok false) : GoodPiece (.ch c)
  | run {s : Bool} {n : Nat} (h : s = true ∨ 0 < n) : GoodPiece (.run s n)
  | set {es : List ClassElt} (hok : (Sub.cls es).Ok false) (ht : TidyClass es) (h : classOne es = none) :
      GoodPiece (.set fun c => decide (ClassMem es c))
  | words {alts : List (List Sub)} (hok : (Tok.alt alts).Ok) (hp : plainAlts alts = true)
      (h : ∃ a ∈ alts, ∃ b ∈ alts, a ≠ b) : GoodPiece (.words fun w => decide (w.map Sub.lit ∈ alts))

theorem good_piece (s : Sub) (hok : s.Ok false) (ht : s.Tidy) : GoodPiece s.piece := by
  cases s with
  | lit c => exact .ch hok
  | any => exact .run (.inr (by omega))
  | star => exact .run (.inl rfl)
  | cls es =>
    simp only [Sub.piece]
    cases h : classOne es with
    | none => exact .set hok ht h
    | some c =>
      obtain ⟨hne, ho⟩ := classOne_some h
      refine .ch ⟨?_, ?_, by simp⟩
      · cases hs : isSpecial c with
        | false => rfl
        | true => simp [ht.1 c (mem_specials hs)] at ho
      · cases es with
        | nil => exact absurd rfl hne
        | cons e es =>
          have h1 := List.all_eq_true.1 ho e (by simp)
          have h2 := hok.2.1 e (by simp)
          unfold ClassElt.only at h1
          simp only [Bool.or_eq_true, decide_eq_true_eq] at h1
          rcases h1 with rfl | rfl
          · simpa [isFF] using h2.2
          · simpa [isFF] using h2.2.2.1

theorem good_put {p : GPiece} {r : List GPiece} (hp : GoodPiece p) (hr : ∀ q ∈ r, GoodPiece q) :
    ∀ q ∈ p.put r, GoodPiece q := by
  by_cases h : p.isRun = false ∨ ∀ q ∈ r.head?, q.isRun = false
  · rw [put_ne h]
    intro q hq
    rcases List.mem_cons.1 hq with rfl | hq
    · exact hp
    · exact hr q hq
  · cases r with
    | nil => exact absurd (.inr (by simp)) h
    | cons x r =>
      cases p with
      | run s n =>
        cases x with
        | run s' n' =>
          intro q hq
          rcases List.mem_cons.1 hq with rfl | hq
          · cases hp with
            | run hp =>
              refine .run ?_
              rcases hp with rfl | hp
              · exact .inl rfl
              · exact .inr (by omega)
          · exact hr q (by simp [hq])
        | _ => exact absurd (.inr (by simp [GPiece.isRun])) h
      | _ => exact absurd (.inl rfl) h

theorem two_of_oneWord {alts : List (List Sub)} (hne : alts ≠ []) (h : oneWord alts = none) :
    ∃ a ∈ alts, ∃ b ∈ alts, a ≠ b := by
  cases alts with
  | nil => exact absurd rfl hne
  | cons a l =>
    simp only [oneWord] at h
    split at h
    · cases h
    · rename_i hl
      simp only [List.all_eq_true, decide_eq_true_eq, Classical.not_forall] at hl
      obtain ⟨b, hb, hab⟩ := hl
      exact ⟨b, by simp [hb], a, by simp, hab⟩

theorem good_tok (t : Tok) (hok : t.Ok) (hw : t.Wordy) (ht : t.Tidy) : ∀ p ∈ t.pieces, GoodPiece p := by
  cases t with
  | sub s =>
    intro p hp
    rw [List.mem_singleton.1 hp]
    exact good_piece s hok ht
  | alt alts =>
    simp only [Tok.pieces]
    cases h : oneWord alts with
    | none =>
      intro p hp
      rw [List.mem_singleton.1 hp]
      exact .words hok hw (two_of_oneWord hok.1 h)
    | some w =>
      intro p hp
      obtain ⟨c, hc, rfl⟩ := List.mem_map.1 hp
      obtain ⟨a, ha⟩ := List.exists_mem_of_ne_nil _ hok.1
      have h1 := oneWord_some h hw a ha
      have h2 := hok.2.1 a ha (.lit c) (by rw [h1]; exact List.mem_map_of_mem hc)
      exact .ch ⟨h2.1, h2.2.1, by simp⟩

theorem good_foldr (l : List GPiece) (h : ∀ p ∈ l, GoodPiece p) : ∀ q ∈ l.foldr GPiece.put [], GoodPiece q := by
  induction l with
  | nil => intro q hq; cases hq
  | cons p l ih => exact good_put (h p (by simp)) (ih fun q hq => h q (by simp [hq]))

theorem good_pieces (ts : List Tok) (hok : ∀ t ∈ ts, t.Ok) (hw : ∀ t ∈ ts, t.Wordy) (ht : ∀ t ∈ ts, t.Tidy) :
    ∀ q ∈ pieces ts, GoodPiece q := by
  apply good_foldr
  intro p hp
  obtain ⟨t, h1, h2⟩ := List.mem_flatMap.1 hp
  exact good_tok t (hok t h1) (hw t h1) (ht t h1) p h2

/-- The tokens `us` are written like the piece `p` and collected to `p`. -/
structure Writes (us : List Sub) (p : GPiece) : Prop where
  ok : ∀ s ∈ us, s.Ok false
  tidy : ∀ s ∈ us, s.Tidy
  text : utf8 (renderSubs us) = p.text
  put : ∀ r, (us.map Sub.piece).foldr GPiece.put r = p.put r

/-- The same for tokens of a glob. -/
structure WritesTok (us : List Tok) (p : GPiece) : Prop where
  ok : ∀ t ∈ us, t.Ok
  wordy : ∀ t ∈ us, t.Wordy
  tidy : ∀ t ∈ us, t.Tidy
  text : utf8 (renderGlob us) = p.text
  put : ∀ r, (us.flatMap Tok.pieces).foldr GPiece.put r = p.put r

theorem flatMap_subs (us : List Sub) : (us.map Tok.sub).flatMap Tok.pieces = us.map Sub.piece := by
  induction us with
  | nil => rfl
  | cons s us ih => rw [List.map_cons, List.flatMap_cons, ih]; rfl

theorem Writes.toks {us : List Sub} {p : GPiece} (h : Writes us p) : WritesTok (us.map Tok.sub) p := by
  refine ⟨?_, ?_, ?_, ?_, fun r => ?_⟩
  · intro t ht
    obtain ⟨s, hs, rfl⟩ := List.mem_map.1 ht
    exact h.ok s hs
  · intro t ht
    obtain ⟨s, hs, rfl⟩ := List.mem_map.1 ht
    trivial
  · intro t ht
    obtain ⟨s, hs, rfl⟩ := List.mem_map.1 ht
    exact h.tidy s hs
  · rw [renderGlob_subs]; exact h.text
  · rw [flatMap_subs]; exact h.put r

/-- The alternatives of braces in order, each once. -/
theorem sorted_alts (alts : List (List Sub)) (hp : plainAlts alts = true) :
    ∃ ws : List (List Char), (ws.map utf8).Pairwise (fun a b => strLt a b = true) ∧
      ∀ w, w ∈ ws ↔ w.map Sub.lit ∈ alts := by
  have hv : ∀ v ∈ dedupAdj (sortBy strLe (alts.map fun a => utf8 (renderSubs a))),
      ∃ w : List Char, w.map Sub.lit ∈ alts ∧ v = utf8 w := by
    intro v hv
    rw [mem_dedupAdj, mem_sortBy] at hv
    obtain ⟨a, ha, rfl⟩ := List.mem_map.1 hv
    obtain ⟨w, rfl⟩ := (plainAlts_iff alts).1 hp a ha
    exact ⟨w, ha, by rw [renderSubs_lits]⟩
  have hpre : ∃ ws : List (List Char),
      ws.map utf8 = dedupAdj (sortBy strLe (alts.map fun a => utf8 (renderSubs a))) := by
    generalize dedupAdj (sortBy strLe (alts.map fun a => utf8 (renderSubs a))) = vs at hv
    induction vs with
    | nil => exact ⟨[], rfl⟩
    | cons v vs ih =>
      obtain ⟨ws, hws⟩ := ih fun u hu => hv u (by simp [hu])
      obtain ⟨w, _, rfl⟩ := hv v (by simp)
      exact ⟨w :: ws, by rw [List.map_cons, hws]⟩
  obtain ⟨ws, hws⟩ := hpre
  refine ⟨ws, ?_, fun w => ⟨fun h => ?_, fun h => ?_⟩⟩
  · rw [hws]
    exact dedupAdj_sorted _ (sortBy_pairwise strLe strLe_total strLe_trans _)
  · obtain ⟨u, hu, e⟩ := hv (utf8 w) (by rw [← hws]; exact List.mem_map_of_mem h)
    rw [utf8_inj e]
    exact hu
  · have : utf8 w ∈ ws.map utf8 := by
      rw [hws, mem_dedupAdj, mem_sortBy]
      exact List.mem_map.2 ⟨_, h, by rw [renderSubs_lits]⟩
    obtain ⟨u, hu, e⟩ := List.mem_map.1 this
    rw [← utf8_inj e]
    exact hu

theorem words_writes {alts : List (List Sub)} (hok : (Tok.alt alts).Ok) (hp : plainAlts alts = true)
    (h2 : ∃ a ∈ alts, ∃ b ∈ alts, a ≠ b) :
    ∃ us, WritesTok us (.words fun w => decide (w.map Sub.lit ∈ alts)) := by
  obtain ⟨ws, hs, hm⟩ := sorted_alts alts hp
  have hmem : ∀ a, a ∈ ws.map (fun w => w.map Sub.lit) ↔ a ∈ alts := by
    intro a
    constructor
    · intro h
      obtain ⟨w, hw, rfl⟩ := List.mem_map.1 h
      exact (hm w).1 hw
    · intro h
      obtain ⟨w, rfl⟩ := (plainAlts_iff alts).1 hp a h
      exact List.mem_map.2 ⟨w, (hm w).2 h, rfl⟩
  have hp' : plainAlts (ws.map fun w => w.map Sub.lit) = true := by
    rw [plainAlts_iff]
    intro a ha
    exact (plainAlts_iff alts).1 hp a ((hmem a).1 ha)
  have hone : oneWord (ws.map fun w => w.map Sub.lit) = none := by
    obtain ⟨a, ha, b, hb, hab⟩ := h2
    exact oneWord_none hp' ⟨a, (hmem a).2 ha, b, (hmem b).2 hb, hab⟩
  refine ⟨[.alt (ws.map fun w => w.map Sub.lit)], ⟨?_, ?_, ?_, ?_, fun r => ?_⟩⟩
  · intro t ht
    rw [List.mem_singleton.1 ht]
    refine ⟨?_, fun a ha => hok.2.1 a ((hmem a).1 ha), .inl hp'⟩
    intro e
    obtain ⟨a, ha, _⟩ := h2
    have := (hmem a).2 ha
    rw [e] at this
    cases this
  · intro t ht
    rw [List.mem_singleton.1 ht]
    exact hp'
  · intro t ht
    rw [List.mem_singleton.1 ht]
    intro a ha s hs
    obtain ⟨w, _, rfl⟩ := List.mem_map.1 ha
    obtain ⟨c, _, rfl⟩ := List.mem_map.1 hs
    trivial
  · have hwl : WordList (fun w => decide (w.map Sub.lit ∈ alts)) (ws.map utf8) := by
      refine ⟨hs, fun v => ?_⟩
      rw [List.mem_map]
      constructor
      · rintro ⟨w, hw, rfl⟩
        exact ⟨w, decide_eq_true ((hm w).1 hw), rfl⟩
      · rintro ⟨w, hw, rfl⟩
        exact ⟨w, (hm w).2 (of_decide_eq_true hw), rfl⟩
    have hr : renderGlob [Tok.alt (ws.map fun w => w.map Sub.lit)] =
        '{' :: renderAlts (ws.map fun w => w.map Sub.lit) ++ ['}'] := by
      simp [renderGlob, Tok.render]
    have hj : utf8 (renderAlts (ws.map fun w => w.map Sub.lit)) = joinByte 44 (ws.map utf8) := by
      rw [utf8_renderAlts, List.map_map]
      congr 1
      apply List.map_congr_left
      intro w _
      show utf8 (renderSubs (w.map Sub.lit)) = utf8 w
      rw [renderSubs_lits]
    show _ = wordsText _
    rw [wordsText_eq hwl, hr, utf8_append, utf8_ascii_cons (by decide), hj]
    rfl
  · have hfun : (fun w : List Char => decide (w.map Sub.lit ∈ ws.map fun w => w.map Sub.lit)) =
        fun w => decide (w.map Sub.lit ∈ alts) := by
      funext w
      rw [Bool.eq_iff_iff, decide_eq_true_eq, decide_eq_true_eq, hmem]
    simp only [List.flatMap_cons, List.flatMap_nil, List.append_nil, Tok.pieces, hone, hfun,
      List.foldr_cons, List.foldr_nil]

theorem anys_put (n : Nat) (r : List GPiece) :
    ((List.replicate (n + 1) Sub.any).map Sub.piece).foldr GPiece.put r = GPiece.put (.run false (n + 1)) r := by
  induction n with
  | zero => rfl
  | succ n ih =>
    rw [List.replicate_succ, List.map_cons, List.foldr_cons, ih]
    show GPiece.put (.run false 1) (GPiece.put (.run false (n + 1)) r) = _
    rw [put_put, Nat.add_comm 1]
    rfl

theorem GoodPiece.writes {p : GPiece} (h : GoodPiece p) : ∃ us, WritesTok us p := by
  cases h with
  | @words alts hok hp h2 => exact words_writes hok hp h2
  | @ch c h =>
    refine ⟨_, Writes.toks (us := [.lit c]) ⟨by simpa using h, by simp [Sub.Tidy], ?_, fun r => rfl⟩⟩
    simp [renderSubs, Sub.render, GPiece.text]
  | @run s n h =>
    cases s with
    | false =>
      cases n with
      | zero => simp at h
      | succ n =>
        refine ⟨_, Writes.toks (us := List.replicate (n + 1) .any) ⟨?_, ?_, ?_, anys_put n⟩⟩
        · intro s hs; rw [List.eq_of_mem_replicate hs]; trivial
        · intro s hs; rw [List.eq_of_mem_replicate hs]; trivial
        · rw [renderSubs_anys]; rfl
    | true =>
      refine ⟨_, Writes.toks (us := .star :: List.replicate n .any) ⟨?_, ?_, ?_, ?_⟩⟩
      · intro s hs
        rcases List.mem_cons.1 hs with rfl | hs
        · trivial
        · rw [List.eq_of_mem_replicate hs]; trivial
      · intro s hs
        rcases List.mem_cons.1 hs with rfl | hs
        · trivial
        · rw [List.eq_of_mem_replicate hs]; trivial
      · rw [renderSubs_cons, utf8_append, renderSubs_anys]; rfl
      · intro r
        rw [List.map_cons, List.foldr_cons]
        cases n with
        | zero => rfl
        | succ n =>
          rw [anys_put]
          show GPiece.put (.run true 0) (GPiece.put (.run false (n + 1)) r) = _
          rw [put_put]
          simp
  | @set es hok ht ho =>
    obtain ⟨hne, hes, h0, hch⟩ := hok
    obtain ⟨rs, hexp, hsem⟩ := RunesRanges.expand_sem es hes
    obtain ⟨es', q1, q2, q3, q4⟩ := class_write hes h0 ht hsem
    have hne' : es' ≠ [] := by
      rintro rfl
      obtain ⟨c, hc, _⟩ := class_endpoint hne hes
      obtain ⟨e, he, _⟩ := (q3 c.toNat).2 hc
      cases he
    have ho' : ∀ c, es'.all (ClassElt.only c) = false := by
      intro c
      cases h : es'.all (ClassElt.only c) with
      | false => rfl
      | true =>
        exfalso
        have : es.all (ClassElt.only c) = true := by
          refine only_of_single hes fun d hd => ?_
          have := mem_of_only h ((q3 _).2 hd)
          exact Char.ext (UInt32.toNat_inj.1 this)
        rw [classOne_of_only hne this] at ho
        cases ho
    have hone : classOne es' = none := by
      cases h : classOne es' with
      | none => rfl
      | some c =>
        have := (classOne_some h).2
        rw [ho' c] at this
        cases this
    have hm : (fun c => decide (ClassMem es' c)) = fun c => decide (ClassMem es c) := by
      funext c
      rw [Bool.eq_iff_iff, decide_eq_true_eq, decide_eq_true_eq, q3]
    refine ⟨_, Writes.toks (us := [.cls es']) ⟨?_, ?_, ?_, ?_⟩⟩
    · intro s hs
      rw [List.mem_singleton.1 hs]
      refine ⟨hne', q1, by rw [q3]; exact h0, fun c hc => ?_⟩
      rcases q4 c hc with rfl | h'
      · exact ⟨by decide, by simp⟩
      · exact hch c h'
    · intro s hs
      rw [List.mem_singleton.1 hs]
      refine ⟨fun c _ => ho' c, ?_⟩
      simp only [q3]
      exact ht.2
    · have hc : (fun c => decide (ClassMem es c)) = rs.contains := by
        funext c
        rw [Bool.eq_iff_iff, hsem.mem, decide_eq_true_eq]
      show _ = classText _
      rw [hc, classText_eq rs ⟨hsem.sorted, hsem.wf⟩, q2]
      simp [renderSubs]
    · intro r
      simp only [List.map_cons, List.map_nil, List.foldr_cons, List.foldr_nil, Sub.piece, hone, hm]

theorem good_writes (l : List GPiece) (h : ∀ p ∈ l, GoodPiece p) : ∃ us : List Tok,
    (∀ t ∈ us, t.Ok) ∧ (∀ t ∈ us, t.Wordy) ∧ (∀ t ∈ us, t.Tidy) ∧ utf8 (renderGlob us) = formText l ∧
    (us.flatMap Tok.pieces).foldr GPiece.put [] = l.foldr GPiece.put [] := by
  induction l with
  | nil => exact ⟨[], by simp, by simp, by simp, rfl, rfl⟩
  | cons p l ih =>
    obtain ⟨a, ha⟩ := (h p (by simp)).writes
    obtain ⟨b, b1, b2, b3, b4, b5⟩ := ih fun q hq => h q (by simp [hq])
    have both : ∀ (P : Tok → Prop), (∀ t ∈ a, P t) → (∀ t ∈ b, P t) → ∀ t ∈ a ++ b, P t := by
      intro P h1 h2 t ht
      rcases List.mem_append.1 ht with ht | ht
      · exact h1 t ht
      · exact h2 t ht
    refine ⟨a ++ b, both _ ha.ok b1, both _ ha.wordy b2, both _ ha.tidy b3, ?_, ?_⟩
    · have : renderGlob (a ++ b) = renderGlob a ++ renderGlob b := List.flatMap_append
      rw [this, utf8_append, ha.text, b4]
      rfl
    · rw [List.flatMap_append, List.foldr_append, b5, ha.put, List.foldr_cons]

/-- The tokens of the normal form. -/
theorem pieces_written (ts : List Tok) (hok : ∀ t ∈ ts, t.Ok) (hw : ∀ t ∈ ts, t.Wordy) (ht : ∀ t ∈ ts, t.Tidy) :
    ∃ us : List Tok, (∀ t ∈ us, t.Ok) ∧ (∀ t ∈ us, t.Wordy) ∧ (∀ t ∈ us, t.Tidy) ∧
      utf8 (renderGlob us) = formText (pieces ts) ∧ pieces us = pieces ts := by
  obtain ⟨us, h1, h2, h3, h4, h5⟩ := good_writes _ (good_pieces ts hok hw ht)
  exact ⟨us, h1, h2, h3, h4, h5.trans (foldr_put_twice _ _)⟩

end GoMatcher
