import Verif.Spec.Faults
import Verif.Proofs.BytesParse
import Verif.Proofs.NoPanic

/-! # The errors of the glob parser name the segment they refuse -/

namespace GoMatcher

theorem strLt_lt {a b : Str} : strLt a b = true ↔ a < b := by
  induction a generalizing b with
  | nil => cases b <;> simp [strLt, strLe]
  | cons x a ih =>
    cases b with
    | nil => simp [strLt, strLe]
    | cons y b =>
      have ih' := ih (b := b)
      rw [List.cons_lt_cons_iff, ← ih']
      simp only [strLt, strLe]
      by_cases h1 : y < x
      · rw [if_pos h1]
        have h2 : ¬ x < y := by rw [UInt8.lt_iff_toNat_lt] at *; omega
        have h3 : x ≠ y := by rintro rfl; exact h2 h1
        simp [h2, h3]
      · rw [if_neg h1]
        by_cases h2 : y = x
        · subst h2
          simp [h1]
        · rw [if_neg h2]
          have h3 : x < y := by
            rw [UInt8.lt_iff_toNat_lt] at *
            have : y.toNat ≠ x.toNat := fun h => h2 (UInt8.toNat_inj.1 h)
            omega
          simp [h3]

theorem special_iff {b : UInt8} : Special b ↔ isWild b = true := by
  have : (b! "[]{}?*") = [91, 93, 123, 125, 63, 42] := rfl
  unfold Special
  rw [this]
  simp only [List.mem_cons, List.not_mem_nil, or_false, isWild, Bool.or_eq_true, decide_eq_true_eq,
    or_assoc]
  constructor
  · rintro (h | h | h | h | h | h) <;> simp [h]
  · rintro (h | h | h | h | h | h) <;> simp [h]

/-- A fault behind well-formed pieces. -/
def FaultRow (e : GErr) (s : Str) : Prop := ∃ p w, s = p ++ w ∧ Row GlobPiece p ∧ Fault e w

theorem Fault.row {e : GErr} {s : Str} (h : Fault e s) : FaultRow e s := ⟨[], s, rfl, .nil, h⟩

theorem FaultRow.before {e : GErr} {s p : Str} (hp : Row GlobPiece p) (h : FaultRow e s) :
    FaultRow e (p ++ s) := by
  obtain ⟨p', w, rfl, h2, h3⟩ := h
  exact ⟨p ++ p', w, by simp, hp.append h2, h3⟩

/-- The first faulty value. -/
def FaultVals (e : GErr) (vals : List Str) : Prop :=
  ∃ l v r, vals = l ++ v :: r ∧ (∀ x ∈ l, x ≠ [42] ∧ Row GlobPiece x) ∧ v ≠ [42] ∧ FaultRow e v

theorem faults (fuel : Nat) :
    (∀ s r, nextItem fuel s = .ok r → s ≠ [] →
      (∃ e, r = .error e ∧ Fault e s) ∨
      ∃ it rest p, r = .ok (it, rest) ∧ s = p ++ rest ∧ Row GlobPiece p) ∧
    (∀ vals items e, newGroup fuel vals items = .ok (.error e) → FaultVals e vals) ∧
    (∀ v c e, chainLoop fuel v c = .ok (.error e) → FaultRow e v) := by
  induction fuel with
  | zero =>
    refine ⟨?_, ?_, ?_⟩
    · intro s r h; cases h
    · intro v i r h; cases h
    · intro v c r h; cases h
  | succ fuel ih =>
    obtain ⟨ih1, ih2, ih3⟩ := ih
    refine ⟨?_, ?_, ?_⟩
    · intro s r h hs
      cases s with
      | nil => exact absurd rfl hs
      | cons b t =>
        rw [nextItem] at h
        dsimp only at h
        by_cases h91 : b = 91
        · subst h91
          rw [if_pos rfl] at h
          rcases byte_span 93 t with hno | ⟨body, rest, rfl, hno⟩
          · left
            have hcut : cutAfter (91 :: t) 93 = .ok (91 :: t, []) := by
              unfold cutAfter
              have : strIndex (91 :: t) [93] = none := by
                rw [strIndex_none]
                intro p q h
                have hm : (93 : UInt8) ∈ 91 :: t := by rw [h]; simp
                rcases List.mem_cons.1 hm with h | h
                · exact absurd h (by decide)
                · exact hno h
              rw [this]
            have he : RunesRanges.expand (91 :: t) = none := by
              have hn : ¬ t.getLast? = some 0x5D := fun h => hno (List.mem_of_getLast? h)
              simp only [RunesRanges.expand, if_neg hn]
            rw [hcut] at h
            simp only [R.bind_ok] at h
            rw [he] at h
            injection h with h
            exact ⟨_, h.symm, .openClass hno⟩
          · have hcut := cutAfter_byte (a := 91 :: body) (b := 93) rest (by
              intro hm
              rcases List.mem_cons.1 hm with h | h
              · exact absurd h (by decide)
              · exact hno h)
            rw [← List.cons_append, hcut] at h
            simp only [R.bind_ok] at h
            have hcb := classBytes_iff body
            cases he : RunesRanges.expand (91 :: body ++ [93]) with
            | none =>
              rw [he] at h hcb
              injection h with h
              exact .inl ⟨_, h.symm, .badClass hno (by rw [← hcb]; simp)⟩
            | some rs =>
              rw [he] at h hcb
              injection h with h
              refine .inr ⟨_, _, 91 :: body ++ [93], h.symm, by simp, ?_⟩
              exact (glob_class (r := []) hno).2 ⟨hcb.1 rfl, .nil⟩
        rw [if_neg h91] at h
        by_cases h123 : b = 123
        · subst h123
          rw [if_pos rfl] at h
          rcases byte_span 125 t with hno | ⟨body, rest, rfl, hno⟩
          · left
            have hcut : cutAfter (123 :: t) 125 = .ok (123 :: t, []) := by
              unfold cutAfter
              have : strIndex (123 :: t) [125] = none := by
                rw [strIndex_none]
                intro p q h
                have hm : (125 : UInt8) ∈ 123 :: t := by rw [h]; simp
                rcases List.mem_cons.1 hm with h | h
                · exact absurd h (by decide)
                · exact hno h
              rw [this]
            have he : listExpand (123 :: t) = none := by
              unfold listExpand
              rw [if_neg]
              rintro ⟨_, _, h⟩
              rcases List.mem_cons.1 (List.mem_of_getLast? h) with h | h
              · exact absurd h (by decide)
              · exact hno h
            rw [hcut] at h
            simp only [R.bind_ok] at h
            rw [he] at h
            injection h with h
            exact ⟨_, h.symm, .openList hno⟩
          · have hcut := cutAfter_byte (a := 123 :: body) (b := 125) rest (by
              intro hm
              rcases List.mem_cons.1 hm with h | h
              · exact absurd h (by decide)
              · exact hno h)
            rw [← List.cons_append, hcut] at h
            simp only [R.bind_ok] at h
            have good : BracePiece (123 :: body ++ [125]) → Row GlobPiece (123 :: body ++ [125]) :=
              fun hb => (glob_brace (r := []) hno).2 ⟨hb, .nil⟩
            by_cases hbody : body = []
            · subst hbody
              have hle : listExpand (123 :: [] ++ [125]) = some [] := by
                have := listExpand_braces []
                simpa using this
              rw [hle] at h
              dsimp only [listItem] at h
              injection h with h
              refine .inr ⟨_, _, 123 :: [] ++ [125], h.symm, by simp, good ?_⟩
              rw [brace_parts hno]
              exact .inl ⟨[], by simp [splitByte]⟩
            · cases hle : listExpand (123 :: body ++ [125]) with
              | none =>
                have := listExpand_braces body
                rw [← List.cons_append, hle, if_neg hbody] at this
                cases this
              | some vals =>
                obtain ⟨hsr, hm⟩ := values_of hbody hle
                have hparts : ∀ a ∈ splitByte body 44, 125 ∉ a := by
                  intro a ha h
                  apply hno
                  rw [← joinByte_splitByte body 44]
                  exact mem_joinByte ha h
                have hrule := brace_rule (splitByte_ne_nil body 44) hparts hm hsr
                rw [← brace_parts hno] at hrule
                rw [hle] at h
                dsimp only at h
                rcases listItem_accept hsr with ⟨hl, hlen⟩ | ⟨⟨it, hl⟩, hok⟩
                · rw [hl] at h
                  dsimp only at h
                  cases hg : newGroup fuel vals [] with
                  | timeout => rw [hg] at h; cases h
                  | panic => rw [hg] at h; cases h
                  | ok x =>
                    rw [hg] at h
                    simp only [R.bind_ok] at h
                    cases x with
                    | error e =>
                      injection h with h
                      refine .inl ⟨_, h.symm, ?_⟩
                      obtain ⟨l, v, r', rfl, hl', hv42, p, w, e1, hp, hf⟩ := ih2 _ _ _ hg
                      have hv := (hm v).1 (by simp)
                      have hpw := hparts v hv
                      rw [e1] at hpw
                      have := Fault.alternative (q := rest) (parts := splitByte body 44) (v := v)
                        (fun a ha => ⟨splitByte_no_sep _ _ a ha, hparts a ha⟩) hv ?_ ?_ ?_ e1
                        ((glob_noBrace fun hx => hpw (by simp [hx])).1 hp) hf
                      · rw [intercalate_joinByte, joinByte_splitByte] at this
                        simpa using this
                      · -- another value
                        apply Classical.byContradiction
                        intro hno2
                        have hall : ∀ a ∈ l ++ v :: r', a = v := fun a ha =>
                          Classical.byContradiction fun hne => hno2 ⟨a, (hm a).1 ha, hne⟩
                        apply hlen
                        cases l with
                        | nil =>
                          cases r' with
                          | nil => simp
                          | cons y r' =>
                            have h1 := (List.pairwise_cons.1 hsr).1 y (by simp)
                            rw [hall y (by simp), strLt_irrefl] at h1
                            cases h1
                        | cons y l =>
                          have h1 := (List.pairwise_cons.1 hsr).1 v (by simp)
                          rw [hall y (by simp), strLt_irrefl] at h1
                          cases h1
                      · intro a ha hna
                        rcases List.mem_append.1 ((hm a).2 ha) with h1 | h1
                        · exact absurd ((glob_noBrace (hparts a ha)).1 (hl' a h1).2) hna
                        · rcases List.mem_cons.1 h1 with h1 | h1
                          · exact .inl h1
                          · exact .inr (strLt_lt.1
                              ((List.pairwise_cons.1 (List.pairwise_append.1 hsr).2.1).1 a h1))
                      · intro h42
                        rcases List.mem_append.1 ((hm _).2 h42) with h1 | h1
                        · exact absurd rfl (hl' _ h1).1
                        · rcases List.mem_cons.1 h1 with h1 | h1
                          · exact absurd h1.symm hv42
                          · exact strLt_lt.1
                              ((List.pairwise_cons.1 (List.pairwise_append.1 hsr).2.1).1 _ h1)
                    | ok x =>
                      injection h with h
                      refine .inr ⟨_, _, 123 :: body ++ [125], h.symm, by simp, good ?_⟩
                      exact hrule.1 (.inr (((accept fuel).2.1 _ _ _ hg).1 ⟨x, rfl⟩))
                · rw [hl] at h
                  simp only [R.bind_ok] at h
                  injection h with h
                  exact .inr ⟨_, _, 123 :: body ++ [125], h.symm, by simp, good (hrule.1 hok)⟩
        rw [if_neg h123] at h
        have frees : ∀ l : Str, (∀ x ∈ l, Free x) → Row GlobPiece l := by
          intro l hl
          have := (glob_frees (t := []) hl).2 .nil
          simpa using this
        by_cases h42 : b = 42
        · rw [if_pos h42] at h
          obtain ⟨k, rest, e, hsk⟩ := skipStars_bytes (b :: t)
          rw [hsk] at h
          simp only [R.bind_ok] at h
          injection h with h
          refine .inr ⟨_, _, _, h.symm, e, frees _ ?_⟩
          intro x hx
          rw [List.eq_of_mem_replicate hx]
          unfold Free
          decide
        rw [if_neg h42] at h
        by_cases h63 : b = 63
        · subst h63
          rw [if_pos rfl] at h
          injection h with h
          exact .inr ⟨_, _, [63], h.symm, rfl, frees _ (by unfold Free; decide)⟩
        rw [if_neg h63] at h
        by_cases hcl : b = 93 ∨ b = 125
        · rw [if_pos (by simpa using hcl)] at h
          injection h with h
          exact .inl ⟨_, h.symm, .close hcl⟩
        rw [if_neg (by simpa using hcl)] at h
        cases hi : indexWildcard (b :: t) with
        | none =>
          rw [hi] at h
          injection h with h
          refine .inr ⟨_, _, b :: t, h.symm, by simp, frees _ ?_⟩
          intro x hx
          exact free_of_plain (indexP_none.1 hi x hx)
        | some n =>
          rw [hi] at h
          dsimp only at h
          obtain ⟨hlt, hpre⟩ := indexP_pre hi
          rw [sliceTo, if_pos (by omega), sliceFrom, if_pos (by omega)] at h
          simp only [R.bind_ok] at h
          injection h with h
          refine .inr ⟨_, _, (b :: t).take n, h.symm, (List.take_append_drop _ _).symm, frees _ ?_⟩
          intro x hx
          exact free_of_plain (hpre x hx)
    · intro vals items e h
      cases vals with
      | nil =>
        rw [newGroup] at h
        injection h with h
        cases h
      | cons v vs =>
        have later : ∀ items, newGroup fuel vs items = .ok (.error e) → v ≠ [42] →
            Row GlobPiece v → FaultVals e (v :: vs) := by
          intro items h h1 h2
          obtain ⟨l, x, r, rfl, hl, hx, hf⟩ := ih2 _ _ _ h
          refine ⟨v :: l, x, r, rfl, ?_, hx, hf⟩
          intro y hy
          rcases List.mem_cons.1 hy with rfl | hy
          · exact ⟨h1, h2⟩
          · exact hl y hy
        rw [newGroup] at h
        by_cases hw : hasWildcard v = true
        · rw [if_pos hw] at h
          by_cases h1 : v = [42]
          · rw [if_pos h1] at h
            injection h with h
            cases h
          rw [if_neg h1] at h
          by_cases h2 : v = [63]
          · rw [if_pos h2] at h
            refine later _ h h1 ?_
            rw [h2, glob_free (by unfold Free; decide)]
            exact .nil
          rw [if_neg h2] at h
          cases hc : chainLoop fuel v {} with
          | timeout => rw [hc] at h; cases h
          | panic => rw [hc] at h; cases h
          | ok x =>
            rw [hc] at h
            simp only [R.bind_ok] at h
            cases x with
            | error e' =>
              injection h with h
              injection h with h
              subst h
              exact ⟨[], v, vs, rfl, by simp, h1, ih3 _ _ _ hc⟩
            | ok c => exact later _ h h1 (((accept fuel).2.2 _ _ _ hc).1 ⟨c, rfl⟩)
        · rw [if_neg hw] at h
          refine later _ h ?_ (plain_row (by simpa using hw))
          rintro rfl
          exact hw (by decide)
    · intro v c e h
      cases v with
      | nil =>
        rw [chainLoop] at h
        injection h with h
        cases h
      | cons b t =>
        rw [chainLoop] at h
        cases hn : nextItem fuel (b :: t) with
        | timeout => rw [hn] at h; cases h
        | panic => rw [hn] at h; cases h
        | ok x =>
          rw [hn] at h
          simp only [R.bind_ok] at h
          rcases ih1 _ _ hn (by simp) with ⟨e', rfl, hr⟩ | ⟨it, rest, p, rfl, e1, hr⟩
          · injection h with h
            injection h with h
            subst h
            exact hr.row
          · rw [e1]
            cases it with
            | none => exact (ih3 _ _ _ h).before hr
            | some it => exact (ih3 _ _ _ h).before hr

theorem parseLoop_reports (fuel : Nat) (s : Str) (st : ParseSt) {e : GErr}
    (h : parseLoop fuel s st = .ok (.error e)) : FaultRow e s := by
  induction fuel generalizing s st with
  | zero => cases h
  | succ fuel ih =>
    cases s with
    | nil =>
      rw [parseLoop] at h
      injection h with h
      cases h
    | cons b t =>
      rw [parseLoop] at h
      cases hn : nextItem fuel (b :: t) with
      | timeout => rw [hn] at h; cases h
      | panic => rw [hn] at h; cases h
      | ok x =>
        rw [hn] at h
        simp only [R.bind_ok] at h
        rcases (faults fuel).1 _ _ hn (by simp) with ⟨e', rfl, hr⟩ | ⟨it, rest, p, rfl, e1, hr⟩
        · injection h with h
          injection h with h
          subst h
          exact hr.row
        · rw [e1]
          cases it with
          | none => exact (ih _ _ h).before hr
          | some it => exact (ih _ _ h).before hr

theorem Fault.ne_nil {e : GErr} {w : Str} (h : Fault e w) : w ≠ [] := by
  cases h <;> simp

theorem Fault.head {e : GErr} {b : UInt8} {t : Str} (h : Fault e (b :: t)) : Special b := by
  rw [special_iff]
  cases h with
  | openClass _ => decide
  | badClass _ _ => decide
  | openList _ => decide
  | close h => rcases h with rfl | rfl <;> decide
  | alternative => decide

theorem special_pos {s : Str} {pos i : Nat} {b0 : UInt8} {t : Str}
    (hp : indexWildcard s = some pos) (hbody : s.drop pos = b0 :: t)
    (he : indexLastWildcard (b0 :: t) = some i) :
    Special b0 ∧ (∀ b ∈ s.take pos, ¬ Special b) ∧ (∀ b ∈ (b0 :: t).drop (i + 1), ¬ Special b) ∧
      ∃ z, ((b0 :: t).take (i + 1)).getLast? = some z ∧ Special z := by
  have hlt := lastIndexP_lt he
  refine ⟨?_, ?_, ?_, (b0 :: t)[i], ?_, ?_⟩
  · obtain ⟨b, t', h1, h2⟩ := indexP_at hp
    rw [hbody] at h1
    simp only [List.cons.injEq] at h1
    rw [h1.1]
    exact special_iff.2 h2
  · intro b hb
    rw [special_iff, (indexP_pre hp).2 b hb]
    simp
  · intro b hb
    rw [special_iff, lastIndexP_post he b hb]
    simp
  · rw [List.take_succ_eq_append_getElem hlt, List.getLast?_append]
    rfl
  · exact special_iff.2 (lastIndexP_at he)

theorem parse_reports {s : Str} {e : GErr} (h : parseGlob s = .ok (.error e)) : Reports e s := by
  unfold parseGlob at h
  cases hp : indexWildcard s with
  | none => rw [hp] at h; cases h
  | some pos =>
    rw [hp] at h
    dsimp only at h
    obtain ⟨hlt, hpre⟩ := indexP_pre hp
    rw [sliceTo, if_pos (by omega), sliceFrom, if_pos (by omega)] at h
    simp only [R.bind_ok] at h
    obtain ⟨b0, t, hbody, hw⟩ := indexP_at hp
    obtain ⟨i, he⟩ := lastIndexP_isSome (p := isWild) (s := s.drop pos) ⟨b0, by simp [hbody], hw⟩
    have he' : indexLastWildcard (s.drop pos) = some i := he
    have helt := lastIndexP_lt he
    rw [hbody] at he'
    obtain ⟨hb0, hsp, hsq, hz⟩ := special_pos hp hbody he'
    have hrow : Row GlobPiece (s.take pos) := by
      have := (glob_frees (l := s.take pos) (t := []) fun x hx => free_of_plain (hpre x hx)).2 .nil
      simpa using this
    have hs : s = s.take pos ++ (b0 :: t) := by rw [← hbody, List.take_append_drop]
    rw [hbody, he'] at h
    rw [hbody] at helt
    dsimp only at h
    split at h
    · rename_i h0
      obtain ⟨rfl, h1, h2⟩ := h0
      injection h with h
      injection h with h
      subst h
      refine .inl ⟨s.take pos, b0, t, hs, ?_, ?_, rfl⟩
      · have e1 : (b! "[]{}") = [91, 93, 123, 125] := rfl
        rw [e1]
        have e2 : (b! "[]{}?*") = [91, 93, 123, 125, 63, 42] := rfl
        unfold Special at hb0
        rw [e2] at hb0
        simp only [List.mem_cons, List.not_mem_nil, or_false] at hb0 ⊢
        rcases hb0 with h | h | h | h | h | h
        · exact .inl h
        · exact .inr (.inl h)
        · exact .inr (.inr (.inl h))
        · exact .inr (.inr (.inr h))
        · exact absurd h h1
        · exact absurd h h2
      · intro b hb
        rcases List.mem_append.1 hb with hb | hb
        · exact hsp b hb
        · exact hsq b hb
    · rename_i h0
      have hcut : ∃ suff, (if (i : Int) < ((b0 :: t).length : Int) - 1 then do
            let suff ← sliceFrom (b0 :: t) (i + 1)
            let body ← sliceTo (b0 :: t) (i + 1)
            R.ok (body, suff)
          else R.ok (b0 :: t, [])) = .ok ((b0 :: t).take (i + 1), suff) := by
        split
        · refine ⟨(b0 :: t).drop (i + 1), ?_⟩
          rw [sliceFrom, if_pos (by omega), sliceTo, if_pos (by omega)]
          rfl
        · refine ⟨[], ?_⟩
          rw [List.take_of_length_le (by omega)]
      obtain ⟨suff, hcut⟩ := hcut
      rw [hcut] at h
      simp only [R.bind_ok] at h
      have hf : FaultRow e ((b0 :: t).take (i + 1)) := by
        revert h
        generalize (b0 :: t).take (i + 1) = body
        intro h
        split at h
        · cases h
        · split at h
          · cases h
          · cases hl : parseLoop (parseFuel body.length) body
              { minLen := ((s.take pos).length : Int) + suff.length
                maxLen := ((s.take pos).length : Int) + suff.length
                pref := s.take pos } with
            | timeout => rw [hl] at h; cases h
            | panic => rw [hl] at h; cases h
            | ok x =>
              rw [hl] at h
              simp only [R.bind_ok] at h
              cases x with
              | error e' =>
                injection h with h
                injection h with h
                subst h
                exact parseLoop_reports _ _ _ hl
              | ok st => cases h
      obtain ⟨p, w, e1, hr, hfw⟩ := hf
      refine .inr ⟨s.take pos ++ p, w, (b0 :: t).drop (i + 1), ?_, hrow.append hr, hfw, ?_, hsq, ?_⟩
      · rw [List.append_assoc (s.take pos), ← e1, List.append_assoc, List.take_append_drop]
        exact hs
      · obtain ⟨z, hz, hzs⟩ := hz
        refine ⟨z, ?_, hzs⟩
        rw [e1, List.getLast?_append] at hz
        cases hw' : w.getLast? with
        | none => exact absurd (List.getLast?_eq_none_iff.1 hw') hfw.ne_nil
        | some y => rw [hw'] at hz; simpa using hz
      · cases p with
        | cons x p =>
          left
          simp only [List.take_succ_cons, List.cons_append, List.cons.injEq] at e1
          exact ⟨x, by simp, by rw [← e1.1]; exact hb0⟩
        | nil =>
          right
          cases i with
          | zero =>
            exfalso
            have e2 : w = [b0] := by simpa using e1.symm
            rw [e2] at hfw
            refine h0 ⟨rfl, ?_, ?_⟩
            · rintro rfl
              cases hfw with
              | close h7 => exact absurd h7 (by decide)
            · rintro rfl
              cases hfw with
              | close h7 => exact absurd h7 (by decide)
          | succ i =>
            rw [← List.nil_append w, ← e1, List.length_take]
            simp only [List.length_cons] at *
            omega

/-! ## Only one error is reported -/

theorem prefix_piece {p q r r' : Str} (hp : GlobPiece p) (hq : GlobPiece q)
    (e : p ++ r = q ++ r') : p = q ∧ r = r' := by
  rcases hp.cases with ⟨b, rfl, hf⟩ | ⟨body, rfl, hb, _⟩ | ⟨body, rfl, hb, _⟩ <;>
    rcases hq.cases with ⟨b', rfl, hf'⟩ | ⟨body', rfl, hb', _⟩ | ⟨body', rfl, hb', _⟩ <;>
    simp only [List.cons_append, List.nil_append, List.append_assoc, List.cons.injEq] at e
  · exact ⟨by rw [e.1], e.2⟩
  · exact absurd e.1 hf.1
  · exact absurd e.1 hf.2.2.1
  · exact absurd e.1.symm hf'.1
  · obtain ⟨rfl, rfl⟩ := first_split hb hb' e.2
    exact ⟨rfl, rfl⟩
  · exact absurd e.1 (by decide)
  · exact absurd e.1.symm hf'.2.2.1
  · exact absurd e.1 (by decide)
  · obtain ⟨rfl, rfl⟩ := first_split hb hb' e.2
    exact ⟨rfl, rfl⟩

/-- The text does not begin with a well-formed piece. -/
def NoPiece (w : Str) : Prop := w ≠ [] ∧ ∀ p r, GlobPiece p → w ≠ p ++ r

theorem NoPiece.notRow {w : Str} (h : NoPiece w) : ¬ Row GlobPiece w := by
  intro hr
  rcases hr.inv with e | ⟨p, r, e, hp, _⟩
  · exact h.1 e
  · exact h.2 p r hp e

theorem noPiece_split {p p' w w' : Str} (hp : Row GlobPiece p) (hp' : Row GlobPiece p')
    (hw : NoPiece w) (hw' : NoPiece w') (e : p ++ w = p' ++ w') : p = p' ∧ w = w' := by
  obtain ⟨ps, rfl, h1⟩ := hp
  obtain ⟨qs, rfl, h2⟩ := hp'
  induction ps generalizing qs with
  | nil =>
    cases qs with
    | nil => exact ⟨rfl, e⟩
    | cons q qs =>
      simp only [List.flatten_nil, List.nil_append, List.flatten_cons, List.append_assoc] at e
      exact absurd e (hw.2 _ _ (h2 q (by simp)))
  | cons p ps ih =>
    cases qs with
    | nil =>
      simp only [List.flatten_nil, List.nil_append, List.flatten_cons, List.append_assoc] at e
      exact absurd e.symm (hw'.2 _ _ (h1 p (by simp)))
    | cons q qs =>
      simp only [List.flatten_cons, List.append_assoc] at e ⊢
      obtain ⟨rfl, e3⟩ := prefix_piece (h1 p (by simp)) (h2 q (by simp)) e
      obtain ⟨e1, e2⟩ := ih (fun x hx => h1 x (by simp [hx])) qs (fun x hx => h2 x (by simp [hx])) e3
      exact ⟨by rw [e1], e2⟩

theorem NoPiece.notRow_append {p w : Str} (hp : Row GlobPiece p) (h : NoPiece w) :
    ¬ Row GlobPiece (p ++ w) := by
  obtain ⟨ps, rfl, h1⟩ := hp
  induction ps with
  | nil => exact h.notRow
  | cons p ps ih =>
    simp only [List.flatten_cons, List.append_assoc]
    intro hr
    rcases hr.inv with e | ⟨q, r, e, hq, hr'⟩
    · exact h.1 (by simp at e; exact e.2.2)
    · obtain ⟨_, e⟩ := prefix_piece (h1 p (by simp)) hq e
      exact ih (fun x hx => h1 x (by simp [hx])) (by rw [e]; exact hr')

theorem not_mem_join {parts : List Str} (h : ∀ a ∈ parts, 44 ∉ a ∧ 125 ∉ a) :
    125 ∉ List.intercalate [44] parts := by
  rw [intercalate_joinByte]
  induction parts with
  | nil => simp [joinByte]
  | cons a l ih =>
    cases l with
    | nil => simpa [joinByte] using (h a (by simp)).2
    | cons b l =>
      have := ih fun x hx => h x (by simp [hx])
      simp only [joinByte, List.mem_append, List.mem_cons, not_or]
      exact ⟨(h a (by simp)).2, by decide, this⟩

theorem Fault.noPiece {e : GErr} {w : Str} (h : Fault e w) : NoPiece w := by
  induction h with
  | openClass h =>
    refine ⟨by simp, fun p r hp e => ?_⟩
    rcases hp.cases with ⟨b, rfl, hf⟩ | ⟨body, rfl, hb, _⟩ | ⟨body, rfl, hb, _⟩ <;>
      simp only [List.cons_append, List.nil_append, List.append_assoc, List.cons.injEq] at e
    · exact hf.1 e.1.symm
    · exact h (by rw [e.2]; simp)
    · exact absurd e.1 (by decide)
  | badClass h hc =>
    refine ⟨by simp, fun p r hp e => ?_⟩
    rcases hp.cases with ⟨b, rfl, hf⟩ | ⟨body, rfl, hb, hb'⟩ | ⟨body, rfl, hb, _⟩ <;>
      simp only [List.cons_append, List.nil_append, List.append_assoc, List.cons.injEq] at e
    · exact hf.1 e.1.symm
    · obtain ⟨rfl, _⟩ := first_split h hb e.2
      exact hc hb'
    · exact absurd e.1 (by decide)
  | openList h =>
    refine ⟨by simp, fun p r hp e => ?_⟩
    rcases hp.cases with ⟨b, rfl, hf⟩ | ⟨body, rfl, hb, _⟩ | ⟨body, rfl, hb, _⟩ <;>
      simp only [List.cons_append, List.nil_append, List.append_assoc, List.cons.injEq] at e
    · exact hf.2.2.1 e.1.symm
    · exact absurd e.1 (by decide)
    · exact h (by rw [e.2]; simp)
  | close h =>
    refine ⟨by simp, fun p r hp e => ?_⟩
    rcases hp.cases with ⟨b, rfl, hf⟩ | ⟨body, rfl, hb, _⟩ | ⟨body, rfl, hb, _⟩ <;>
      simp only [List.cons_append, List.nil_append, List.append_assoc, List.cons.injEq] at e <;>
      obtain ⟨rfl, _⟩ := e
    · rcases h with h | h
      · exact hf.2.1 h
      · exact hf.2.2.2 h
    · exact absurd h (by decide)
    · exact absurd h (by decide)
  | @alternative e parts v p w q h1 hv h2 h3 h4 e1 hp hf ih =>
    have hj := not_mem_join h1
    refine ⟨by simp, fun p' r hp' e => ?_⟩
    rcases hp'.cases with ⟨b, rfl, hf'⟩ | ⟨body, rfl, hb, _⟩ | ⟨body, rfl, hb, hbr⟩ <;>
      simp only [List.cons_append, List.nil_append, List.append_assoc, List.cons.injEq] at e
    · exact hf'.2.2.1 e.1.symm
    · exact absurd e.1 (by decide)
    · obtain ⟨rfl, _⟩ := first_split hj hb e.2
      have hne : parts ≠ [] := by rintro rfl; cases hv
      rw [brace_parts hj, intercalate_joinByte, splitByte_joinByte hne fun a ha => (h1 a ha).1] at hbr
      have hvn : ¬ Row SubPiece v := by
        rw [← glob_noBrace (h1 v hv).2, e1]
        have := (h1 v hv).2
        rw [e1] at this
        exact ih.notRow_append ((glob_noBrace fun h => this (by simp [h])).2 hp)
      rcases hbr with ⟨a, ha⟩ | ⟨h5, h6⟩ | h5
      · obtain ⟨b, hb, hbv⟩ := h2
        exact hbv ((ha b hb).trans (ha v hv).symm)
      · have h7 := before_star_byte.1 (strLt_lt.2 (h4 h5))
        cases v with
        | nil => exact hvn .nil
        | cons b t => exact hvn (h6 b t hv (h7 b t rfl))
      · exact hvn (h5 v hv)

theorem fault_class {e : GErr} {t : Str} (h : Fault e (91 :: t)) :
    (93 ∉ t ∧ e = .mismatch (b! "rune") (91 :: t)) ∨
    ∃ body q, t = body ++ 93 :: q ∧ 93 ∉ body ∧ e = .mismatch (b! "rune") (91 :: body ++ [93]) := by
  generalize hw : 91 :: t = w at h
  cases h with
  | openClass h => cases hw; exact .inl ⟨h, rfl⟩
  | @badClass body q h _ =>
    simp only [List.cons_append, List.cons.injEq, true_and] at hw
    exact .inr ⟨body, q, hw, h, rfl⟩
  | openList h => cases hw
  | close h =>
    simp only [List.cons.injEq] at hw
    rw [← hw.1] at h
    exact absurd h (by decide)
  | alternative => cases hw

theorem fault_brace {e : GErr} {t : Str} (h : Fault e (123 :: t)) :
    (125 ∉ t ∧ e = .mismatch (b! "list") (123 :: t)) ∨
    ∃ parts v p w q, t = List.intercalate [44] parts ++ 125 :: q ∧
      (∀ a ∈ parts, 44 ∉ a ∧ 125 ∉ a) ∧ v ∈ parts ∧
      (∀ a ∈ parts, ¬ Row SubPiece a → a = v ∨ v < a) ∧
      v = p ++ w ∧ Row SubPiece p ∧ Fault e w := by
  generalize hw : 123 :: t = w at h
  cases h with
  | openClass h => cases hw
  | badClass h _ => cases hw
  | openList h => cases hw; exact .inl ⟨h, rfl⟩
  | close h =>
    simp only [List.cons.injEq] at hw
    rw [← hw.1] at h
    exact absurd h (by decide)
  | alternative h1 hv h2 h3 h4 e1 hp hf =>
    simp only [List.cons_append, List.cons.injEq, true_and] at hw
    exact .inr ⟨_, _, _, _, _, hw, h1, hv, h3, e1, hp, hf⟩

theorem fault_close {e : GErr} {c : UInt8} {t : Str} (hc : c = 93 ∨ c = 125)
    (h : Fault e (c :: t)) : e = .unclosed (c :: t) := by
  generalize hw : c :: t = w at h
  cases h with
  | close h => rfl
  | openClass h => cases hw; exact absurd hc (by decide)
  | badClass h _ => cases hw; exact absurd hc (by decide)
  | openList h => cases hw; exact absurd hc (by decide)
  | alternative => cases hw; exact absurd hc (by decide)

theorem Fault.unique {e e' : GErr} {w : Str} (h : Fault e w) (h' : Fault e' w) : e = e' := by
  induction h generalizing e' with
  | openClass h =>
    rcases fault_class h' with ⟨_, e⟩ | ⟨body, q, rfl, _, _⟩
    · exact e.symm
    · exact absurd h (by simp)
  | badClass h _ =>
    rcases fault_class h' with ⟨h1, _⟩ | ⟨body, q, e1, h1, e2⟩
    · exact absurd h1 (by simp)
    · obtain ⟨rfl, _⟩ := first_split h h1 e1
      exact e2.symm
  | openList h =>
    rcases fault_brace h' with ⟨_, e⟩ | ⟨parts, v, p, w, q, rfl, _⟩
    · exact e.symm
    · exact absurd h (by simp)
  | close h => exact (fault_close h h').symm
  | @alternative e parts v p w q h1 hv h2 h3 h4 e1 hp hf ih =>
    have hj := not_mem_join h1
    rcases fault_brace h' with ⟨h, _⟩ | ⟨parts', v', p', w', q', e2, h1', hv', h3', e1', hp', hf'⟩
    · exact absurd h (by simp)
    · have hj' := not_mem_join h1'
      obtain ⟨e3, _⟩ := first_split hj hj' e2
      have hne : parts ≠ [] := by rintro rfl; cases hv
      have hne' : parts' ≠ [] := by rintro rfl; cases hv'
      rw [intercalate_joinByte, intercalate_joinByte] at e3
      have e4 : parts = parts' := by
        rw [← splitByte_joinByte hne fun a ha => (h1 a ha).1, e3,
          splitByte_joinByte hne' fun a ha => (h1' a ha).1]
      subst e4
      have row : ∀ {v p w : Str}, v ∈ parts → v = p ++ w → Row SubPiece p → Row GlobPiece p := by
        intro v p w hv e hp
        have := (h1 v hv).2
        rw [e] at this
        exact (glob_noBrace fun h => this (by simp [h])).2 hp
      have bad : ∀ {v p w : Str} {e : GErr}, v ∈ parts → v = p ++ w → Row SubPiece p → Fault e w →
          ¬ Row SubPiece v := by
        intro v p w e hv e1 hp hf
        rw [← glob_noBrace (h1 v hv).2, e1]
        exact hf.noPiece.notRow_append (row hv e1 hp)
      have ev : v = v' := by
        rcases h3 v' hv' (bad hv' e1' hp' hf') with h | h
        · exact h.symm
        · rcases h3' v hv (bad hv e1 hp hf) with h' | h'
          · exact h'
          · have := strLt_asymm (strLt_lt.2 h)
            rw [strLt_lt.2 h'] at this
            cases this
      have := noPiece_split (row hv e1 hp) (row hv' e1' hp') hf.noPiece hf'.noPiece
        (by rw [← e1, ← e1', ev])
      exact ih (by rw [this.2]; exact hf')

theorem special_end {x x' q q' : Str} (e : x ++ q = x' ++ q') (hq : ∀ b ∈ q, ¬ Special b)
    (hq' : ∀ b ∈ q', ¬ Special b) (hx : ∃ z, x.getLast? = some z ∧ Special z)
    (hx' : ∃ z, x'.getLast? = some z ∧ Special z) : x = x' := by
  have aux : ∀ {x x' q a : Str}, (∀ b ∈ q, ¬ Special b) → x' = x ++ a → (∃ q', q = a ++ q') →
      (∃ z, x'.getLast? = some z ∧ Special z) → x = x' := by
    rintro x x' q a hq e ⟨q', e'⟩ ⟨z, hz, hzs⟩
    rw [e, List.getLast?_append] at hz
    cases ha : a.getLast? with
    | none => rw [e, List.getLast?_eq_none_iff.1 ha, List.append_nil]
    | some y =>
      rw [ha] at hz
      simp only [Option.some_or, Option.some.injEq] at hz
      subst hz
      exact absurd hzs (hq y (by rw [e']; exact List.mem_append_left _ (List.mem_of_getLast? ha)))
  rcases List.append_eq_append_iff.1 e with ⟨a, e1, e2⟩ | ⟨a, e1, e2⟩
  · exact aux hq e1 ⟨_, e2⟩ hx'
  · exact (aux hq' e1 ⟨_, e2⟩ hx).symm

theorem plain_split {p p' t t' : Str} {c c' : UInt8} (e : p ++ c :: t = p' ++ c' :: t')
    (hp : ∀ b ∈ p, ¬ Special b) (hp' : ∀ b ∈ p', ¬ Special b) (hc : Special c) (hc' : Special c') :
    c :: t = c' :: t' := by
  induction p generalizing p' with
  | nil =>
    cases p' with
    | nil => exact e
    | cons x p' =>
      simp only [List.nil_append, List.cons_append, List.cons.injEq] at e
      exact absurd hc (by rw [e.1]; exact hp' x (by simp))
  | cons y p ih =>
    cases p' with
    | nil =>
      simp only [List.nil_append, List.cons_append, List.cons.injEq] at e
      exact absurd hc' (by rw [← e.1]; exact hp y (by simp))
    | cons x p' =>
      simp only [List.cons_append, List.cons.injEq] at e
      exact ih e.2 (fun b hb => hp b (by simp [hb])) (fun b hb => hp' b (by simp [hb]))

theorem bracket_special {c : UInt8} (h : c ∈ (b! "[]{}")) : Special c := by
  have e1 : (b! "[]{}") = [91, 93, 123, 125] := rfl
  rw [e1] at h
  simp only [List.mem_cons, List.not_mem_nil, or_false] at h
  rcases h with rfl | rfl | rfl | rfl <;> exact special_iff.2 (by decide)

theorem countP_one {p t : Str} {c : UInt8} (h : ∀ b ∈ p ++ t, ¬ Special b) (hc : Special c) :
    (p ++ c :: t).countP isWild = 1 := by
  have h0 : ∀ l : Str, (∀ b ∈ l, ¬ Special b) → l.countP isWild = 0 := by
    intro l hl
    rw [List.countP_eq_zero]
    exact fun b hb hw => hl b hb (special_iff.2 hw)
  rw [List.countP_append, List.countP_cons, h0 p fun b hb => h b (by simp [hb]),
    h0 t fun b hb => h b (by simp [hb]), special_iff.1 hc]
  rfl

theorem countP_two {e : GErr} {p w q : Str} (hf : Fault e w)
    (hz : ∃ z, w.getLast? = some z ∧ Special z) (h : (∃ b ∈ p, Special b) ∨ 2 ≤ w.length) :
    2 ≤ (p ++ w ++ q).countP isWild := by
  have one : ∀ {l : Str} {b : UInt8}, b ∈ l → Special b → 1 ≤ l.countP isWild := by
    intro l b hb hs
    exact List.countP_pos_iff.2 ⟨b, hb, special_iff.1 hs⟩
  obtain ⟨z, hz, hzs⟩ := hz
  rw [List.countP_append, List.countP_append]
  rcases h with ⟨b, hb, hbs⟩ | h
  · have := one hb hbs
    have := one (List.mem_of_getLast? hz) hzs
    omega
  · cases w with
    | nil => simp at h
    | cons a l =>
      have h1 := hf.head
      cases l with
      | nil => simp at h
      | cons a' l =>
        rw [List.getLast?_cons_cons] at hz
        have := one (List.mem_of_getLast? hz) hzs
        rw [List.countP_cons, special_iff.1 h1, if_pos rfl]
        omega

theorem Reports.unique {e e' : GErr} {s : Str} (h : Reports e s) (h' : Reports e' s) : e = e' := by
  rcases h with ⟨p, c, t, rfl, hc, hpt, rfl⟩ | ⟨p, w, q, rfl, hp, hf, hz, hq, h2⟩
  · rcases h' with ⟨p', c', t', e, hc', hpt', rfl⟩ | ⟨p', w', q', e, hp', hf', hz', hq', h2'⟩
    · rw [plain_split e (fun b hb => hpt b (by simp [hb])) (fun b hb => hpt' b (by simp [hb]))
        (bracket_special hc) (bracket_special hc')]
    · have h1 := countP_one hpt (bracket_special hc)
      have h3 := countP_two (q := q') hf' hz' h2'
      rw [← e] at h3
      omega
  · rcases h' with ⟨p', c', t', e, hc', hpt', rfl⟩ | ⟨p', w', q', e, hp', hf', hz', hq', h2'⟩
    · have h1 := countP_one hpt' (bracket_special hc')
      have h3 := countP_two (q := q) hf hz h2
      rw [e] at h3
      omega
    · have last : ∀ {p w : Str}, (∃ z, w.getLast? = some z ∧ Special z) →
          ∃ z, (p ++ w).getLast? = some z ∧ Special z := by
        rintro p w ⟨z, h, hs⟩
        exact ⟨z, by rw [List.getLast?_append, h]; rfl, hs⟩
      have e1 := special_end e hq hq' (last hz) (last hz')
      obtain ⟨_, e2⟩ := noPiece_split hp hp' hf.noPiece hf'.noPiece e1
      subst e2
      exact hf.unique hf'

theorem Reports.notRow {e : GErr} {s : Str} (h : Reports e s) : ¬ Row GlobPiece s := by
  have free : ∀ {b : UInt8}, ¬ Special b → Free b := by
    intro b hb
    apply free_of_plain
    cases hw : isWild b with
    | false => rfl
    | true => exact absurd (special_iff.2 hw) hb
  rcases h with ⟨p, c, t, rfl, hc, hpt, rfl⟩ | ⟨p, w, q, rfl, hp, hf, hz, hq, h2⟩
  · rw [glob_frees fun b hb => free (hpt b (by simp [hb]))]
    have no : ∀ x : UInt8, Special x → x ∉ t := fun x hx hm => hpt x (by simp [hm]) hx
    have e1 : (b! "[]{}") = [91, 93, 123, 125] := rfl
    rw [e1] at hc
    simp only [List.mem_cons, List.not_mem_nil, or_false] at hc
    rcases hc with rfl | rfl | rfl | rfl
    · exact glob_class_open (no 93 (special_iff.2 (by decide)))
    · exact glob_close (.inl rfl)
    · exact glob_brace_open (no 125 (special_iff.2 (by decide)))
    · exact glob_close (.inr rfl)
  · rw [glob_frees_end fun b hb => free (hq b hb)]
    exact hf.noPiece.notRow_append hp

/-- The error is the one reported. -/
theorem parse_error_iff {s : Str} {e : GErr} : parseGlob s = .ok (.error e) ↔ Reports e s := by
  refine ⟨parse_reports, fun h => ?_⟩
  obtain ⟨r, hr⟩ := parseGlob_total s
  cases r with
  | ok g => exact absurd ((parse_accept s).1 ⟨g, hr⟩) h.notRow
  | error e' => rw [hr, (parse_reports hr).unique h]

end GoMatcher
