import Verif.Proofs.MatchSem

/-! # Completeness of the matcher on well-behaved item sequences -/

namespace GoMatcher

/-- No class occurs in the item. -/
inductive NoClass : Item → Prop where
  | flat {it : Item} : (∀ rs, it ≠ .ranges rs) → (∀ vals mn mx, it ≠ .group vals mn mx) → NoClass it
  | group {vals : List Item} {mn mx : Int} : (∀ v ∈ vals, ∀ x ∈ groupItems v, NoClass x) →
      NoClass (.group vals mn mx)

/-- Every item is exact on the text: it has no U+FFFD, or there is no class. -/
def CleanSeq (items : List Item) (cs : List Char) : Prop := NoFF cs ∨ ∀ x ∈ items, NoClass x

namespace CleanSeq

theorem suffix {items : List Item} {cs t : List Char} (h : CleanSeq items cs) (ht : t <:+ cs) :
    CleanSeq items t := h.imp (fun h => h.suffix ht) id

theorem append_right {items : List Item} {a b : List Char} (h : CleanSeq items (a ++ b)) :
    CleanSeq items b := h.suffix (List.suffix_append a b)

theorem tail {it : Item} {items : List Item} {cs : List Char} (h : CleanSeq (it :: items) cs) :
    CleanSeq items cs := h.imp id fun h x hx => h x (by simp [hx])

theorem head {it : Item} {items : List Item} {cs : List Char} (h : CleanSeq (it :: items) cs) :
    Clean it cs := by
  intro rs e
  rcases h with h | h
  · exact h
  · cases h it (by simp) with
    | flat h1 _ => exact absurd e (h1 rs)
    | group _ => cases e

theorem group {vals rest : List Item} {mn mx : Int} {cs : List Char}
    (h : CleanSeq (.group vals mn mx :: rest) cs) {v : Item} (hv : v ∈ vals) :
    CleanSeq (groupItems v ++ rest) cs := by
  rcases h with h | h
  · exact .inl h
  · right
    intro x hx
    rcases List.mem_append.1 hx with hx | hx
    · cases h _ (List.mem_cons_self ..) with
      | flat _ h2 => exact absurd rfl (h2 _ _ _)
      | group hg => exact hg v hv x hx
    · exact h x (by simp [hx])

end CleanSeq

section Complete
variable {M S L : Matcher}

def CompM (M : Matcher) : Prop := ∀ cs items next ab, CleanSeq (items ++ next.flatten) cs →
  Good true false (items ++ next.flatten) → M (utf8 cs) items next = .ok (false, ab) →
  ¬ SeqSem (items ++ next.flatten) cs ∧
  (ab = true → ∀ t, t <:+ cs → ¬ SeqSem (items ++ next.flatten) t)

def CompS (S : Matcher) : Prop := ∀ cs items next ab, CleanSeq (items ++ next.flatten) cs →
  items ++ next.flatten ≠ [] → Good true true (items ++ next.flatten) →
  S (utf8 cs) items next = .ok (false, ab) →
  ∀ t, t <:+ cs → ¬ SeqSem (items ++ next.flatten) t

def CompL (L : Matcher) : Prop := ∀ cs items next ab, CleanSeq (items ++ next.flatten) cs →
  items ≠ [] → Good true true (items ++ next.flatten) →
  L (utf8 cs) items next = .ok (false, ab) →
  ∀ t, t <:+ cs → ¬ SeqSem (items ++ next.flatten) t

theorem comp_contM (hM : CompM M) {rest : List Item} {next : NextItems} {cs : List Char}
    (hno : CleanSeq (rest ++ next.flatten) cs) (hg : Good true false (rest ++ next.flatten))
    (h : contWith M M rest next (utf8 cs) = .ok false) : ¬ SeqSem (rest ++ next.flatten) cs := by
  rcases contWith_ok h with ⟨rfl, e, h⟩ | ⟨rfl, _, ab, h⟩ | ⟨_, ab, h⟩
  · have h' := h.symm
    rw [decide_eq_false_iff_not] at h'
    rw [e]
    simp only [List.append_nil, SeqSem]
    rintro rfl
    exact h' (by simp [utf8])
  · rw [List.nil_append] at hno hg ⊢
    rw [← NextItems.next_flatten] at hno hg ⊢
    exact (hM _ _ _ _ hno hg h).1
  · exact (hM _ _ _ _ hno hg h).1

theorem comp_contMS (hM : CompM M) (hS : CompS S) {rest : List Item} {next : NextItems}
    {cs : List Char} (hno : CleanSeq (rest ++ next.flatten) cs) (hg : Good true true (rest ++ next.flatten))
    (h : contWith M S rest next (utf8 cs) = .ok false) : ¬ SeqSem (rest ++ next.flatten) cs := by
  rcases contWith_ok h with ⟨rfl, e, h⟩ | ⟨rfl, _, ab, h⟩ | ⟨hne, ab, h⟩
  · have h' := h.symm
    rw [decide_eq_false_iff_not] at h'
    rw [e]
    simp only [List.append_nil, SeqSem]
    rintro rfl
    exact h' (by simp [utf8])
  · rw [List.nil_append] at hno hg ⊢
    rw [← NextItems.next_flatten] at hno hg ⊢
    exact (hM _ _ _ _ hno hg.of_false h).1
  · exact hS _ _ _ _ hno (by simp [hne]) hg h cs (List.suffix_refl _)

theorem suffix_of_length_le {α : Type} {a b c : List α} (h1 : a <:+ c) (h2 : b <:+ c)
    (h : a.length ≤ b.length) : a <:+ b := List.suffix_of_suffix_length_le h1 h2 h

theorem comp_done {it : Item} {w : Nat} (hd : DoneItem it w) (hM : CompM M)
    {rest : List Item} {next : NextItems} {cs : List Char} {ab : Bool} (hno : CleanSeq (it :: (rest ++ next.flatten)) cs)
    (hr : Good true false (rest ++ next.flatten))
    (h : matchStep M S (utf8 cs) (it :: rest) next = .ok (false, ab)) :
    ¬ SeqSem (it :: (rest ++ next.flatten)) cs ∧
    (ab = true → ∀ t, t <:+ cs → ¬ SeqSem (it :: (rest ++ next.flatten)) t) := by
  unfold matchStep at h
  dsimp only at h
  split at h
  · rename_i hlen
    cases h
    refine ⟨?_, by simp⟩
    rintro ⟨a, b, rfl, h1, _⟩
    have := hd.minLen a h1
    simp at hlen
    omega
  · rcases hd.matchAt cs with ⟨a, b, rfl, h1, h2⟩ | ⟨h1, h2⟩
    · rw [h2] at h
      dsimp only at h
      rw [sliceFrom_utf8] at h
      obtain ⟨h3, h4⟩ := hM _ _ _ _ hno.tail.append_right hr h
      have hwa := hd.width a h1
      constructor
      · rintro ⟨a', b', e, h5, h6⟩
        have hwa' := hd.width a' h5
        obtain ⟨rfl, rfl⟩ := append_split_eq e (by omega)
        exact h3 h6
      · rintro hab t ht ⟨a', b', rfl, h5, h6⟩
        have hwa' := hd.width a' h5
        refine h4 hab b' ?_ h6
        refine suffix_of_length_le ((List.suffix_append a' b').trans ht)
          (List.suffix_append a b) ?_
        have := ht.length_le
        simp at this
        omega
    · rw [h2] at h
      dsimp only at h
      cases h
      refine ⟨?_, by simp⟩
      rintro ⟨a, b, e, h3, _⟩
      exact h1 hno.head a b e h3

theorem comp_matchStep (hM : CompM M) (hS : CompS S) : CompM (matchStep M S) := by
  intro cs items next ab hno hg h
  cases items with
  | nil =>
    unfold matchStep at h
    dsimp only at h
    rw [List.nil_append] at hno hg ⊢
    split at h
    · rename_i he
      rw [NextItems.flatten_of_isEmpty he]
      simp only [R.ok.injEq, Prod.mk.injEq, decide_eq_false_iff_not] at h
      obtain ⟨h, rfl⟩ := h
      refine ⟨?_, by simp⟩
      simp only [SeqSem]
      rintro rfl
      exact h (by simp [utf8])
    · obtain ⟨h1, rfl⟩ := retR_ok h
      obtain ⟨ab', h'⟩ := fstR_ok h1
      rw [← NextItems.next_flatten] at hno hg ⊢
      exact ⟨(hM _ _ _ _ hno hg h').1, by simp⟩
  | cons it rest =>
    rw [List.cons_append] at hno hg ⊢
    cases hg with
    | lit hd hr => exact comp_done hd.toDoneItem hM hno hr h
    | any hr => exact comp_done (doneItem_any _) hM hno hr h
    | @star _ n _ _ hr =>
      suffices hs : ∀ t, t <:+ cs → ¬ SeqSem (.star n :: (rest ++ next.flatten)) t from
        ⟨hs cs (List.suffix_refl _), fun _ => hs⟩
      unfold matchStep at h
      dsimp only at h
      split at h
      · rename_i hlen
        rintro t ht ⟨a, b, rfl, h1, _⟩
        have h2 := ht.length_le
        have h3 := length_le_utf8 cs
        simp only [Item.Sem] at h1
        simp only [Item.minLen] at hlen
        simp at h2
        omega
      · simp only [Item.matchAt, skipRunes_utf8] at h
        by_cases hn : n ≤ cs.length
        · simp only [hn, if_true] at h
          have e : sliceFrom (utf8 cs) (utf8 (cs.take n)).length = .ok (utf8 (cs.drop n)) := by
            have := sliceFrom_utf8 (cs.take n) (cs.drop n)
            rwa [List.take_append_drop] at this
          rw [e] at h
          dsimp only at h
          unfold matchFlag at h
          have hno' := hno.tail.suffix (List.drop_suffix n cs)
          suffices hs : ∀ t, t <:+ cs.drop n → ¬ SeqSem (rest ++ next.flatten) t by
            rintro t ht ⟨a, b, rfl, h1, h2⟩
            refine hs b ?_ h2
            refine suffix_of_length_le ((List.suffix_append a b).trans ht)
              (List.drop_suffix n cs) ?_
            have h3 := ht.length_le
            simp only [Item.Sem] at h1
            simp at h3 ⊢
            omega
          simp only [List.isEmpty_iff] at h
          split at h
          · rename_i hre
            subst hre
            rw [List.nil_append] at *
            split at h
            · cases h
            · rename_i hne
              have hne' : next.flatten ≠ [] := by
                intro he
                apply hne
                simp only [NextItems.isEmpty, List.all_eq_true, List.isEmpty_iff]
                simpa using he
              rw [← NextItems.next_flatten] at hno' hr hne' ⊢
              exact hS _ _ _ _ hno' hne' hr h
          · rename_i hre
            exact hS _ _ _ _ hno' (by simp [hre]) hr h
        · rintro t ht ⟨a, b, rfl, h1, h2⟩
          have h3 := ht.length_le
          simp only [Item.Sem] at h1
          simp at h3
          omega
    | @list _ l _ hw hl hr ho =>
      unfold matchStep at h
      dsimp only at h
      split at h
      · rename_i hlen
        cases h
        refine ⟨?_, by simp⟩
        rintro ⟨a, b, rfl, h1 | ⟨h1, rfl⟩, _⟩
        · have := hw.min _ h1
          simp [Item.minLen] at hlen
          omega
        · simp [Item.minLen] at hlen
          omega
      · simp only [Item.matchAt, sliceFrom_zero] at h
        unfold matchFlag at h
        dsimp only at h
        obtain ⟨h', rfl⟩ := retR_ok h
        obtain ⟨h1, h2⟩ := orR_false h'
        refine ⟨?_, by simp⟩
        rintro ⟨a, b, rfl, h3 | ⟨h3, rfl⟩, h4⟩
        · have := listLoop_false h2 _ h3 (by simp [hasPrefix])
          rw [drop_utf8_append] at this
          exact comp_contM hM hno.tail.append_right hr this h4
        · rw [if_pos h3] at h1
          exact comp_contM hM hno.tail hr h1 h4
    | @group _ vals mn mx _ hw hne hr ho =>
      unfold matchStep at h
      dsimp only at h
      split at h
      · rename_i hlen
        cases h
        refine ⟨?_, by simp⟩
        rintro ⟨a, b, rfl, h1, _⟩
        have := hw.min _ h1
        simp [Item.minLen] at hlen
        omega
      · simp only [Item.matchAt, sliceFrom_zero] at h
        unfold matchFlag at h
        dsimp only at h
        obtain ⟨h', rfl⟩ := retR_ok h
        obtain ⟨h1, h2⟩ := orR_false h'
        refine ⟨?_, by simp⟩
        rintro ⟨a, b, rfl, h3, h4⟩
        obtain ⟨v, hv, h5⟩ := (anySem_iff _ _).1 h3
        obtain ⟨ab', hk⟩ := fstR_ok (groupLoop_false h2 v hv)
        refine (hM _ (groupItems v) (rest :: next) ab' (by simpa using hno.group hv) (by simpa using hr v hv) hk).1 ?_
        rw [List.flatten_cons, seqSem_append]
        exact ⟨a, b, rfl, (seqSem_groupItems _ _).2 h5, h4⟩

theorem comp_starStep (hS : CompS S) (hL : CompL L) : CompS (starStep S L) := by
  intro cs items next ab hno hne hg h
  cases items with
  | nil =>
    unfold starStep at h
    dsimp only at h
    rw [List.nil_append] at *
    split at h
    · rename_i he
      exact absurd (NextItems.flatten_of_isEmpty he) hne
    · rw [← NextItems.next_flatten] at hno hg hne ⊢
      exact hS _ _ _ _ hno hne hg h
  | cons it rest => exact hL _ _ _ _ hno (by simp) hg h

theorem comp_loopStep (hM : CompM M) (hS : CompS S) (hL : CompL L) :
    CompL (loopStep M S L) := by
  intro cs items next ab hno hni hg h
  cases items with
  | nil => exact absurd rfl hni
  | cons it rest =>
    have hg0 := hg
    have hno0 := hno
    rw [List.cons_append] at hno hg ⊢
    unfold loopStep at h
    dsimp only at h
    cases hg with
    | @lit _ _ w _ hd hr =>
      split at h
      · rename_i hlen
        rintro t ht ⟨a, b, rfl, h1, _⟩
        have h2 := hd.minLen a h1
        obtain ⟨p, rfl⟩ := ht
        simp at hlen
        omega
      rcases hd.find cs with ⟨p, a, q, rfl, h1, h2, hfirst⟩ | ⟨h1, _⟩
      · rw [h2] at h
        dsimp only at h
        rw [List.append_assoc, sliceFrom_utf8] at h
        dsimp only at h
        unfold loopFlag at h
        rw [sliceFromInt_utf8] at h
        dsimp only at h
        have hnoq := hno.tail.append_right
        have hwa := hd.width a h1
        -- any match starts at the found position or later
        have hpos : ∀ t a' b', t <:+ p ++ a ++ q → t = a' ++ b' → it.Sem a' →
            t.length ≤ a.length + q.length := by
          rintro t a' b' ⟨p', hp'⟩ rfl h3
          have h4 := hfirst p' a' b' (by rw [← hp', List.append_assoc]) h3
          have h5 := congrArg List.length hp'
          simp at h5 ⊢
          omega
        split at h
        · rename_i m ab' hm
          split at h
          · rename_i hor
            have hmf : m = false ∧ ab' = ab := by cases h; exact ⟨rfl, rfl⟩
            obtain ⟨rfl, rfl⟩ := hmf
            have hab : ab' = true := by simpa using hor
            obtain ⟨_, h4⟩ := hM _ _ _ _ hnoq hr hm
            rintro t ht ⟨a', b', rfl, h5, h6⟩
            have h7 := hpos _ a' b' ht rfl h5
            have h8 := hd.width a' h5
            refine h4 hab b' ?_ h6
            refine suffix_of_length_le ((List.suffix_append a' b').trans ht)
              (List.suffix_append _ q) ?_
            simp at h7
            omega
          · rename_i hor
            have hmf : m = false := by cases m <;> simp_all
            subst hmf
            obtain ⟨h3, _⟩ := hM _ _ _ _ hnoq hr hm
            rintro t ht ⟨a', b', rfl, h5, h6⟩
            have h7 := hpos _ a' b' ht rfl h5
            have h8 := hd.width a' h5
            have hs : a' ++ b' <:+ a ++ q :=
              suffix_of_length_le ht ⟨p, by simp⟩ (by simpa using h7)
            rcases againStep_ok h with ⟨h9, _, _⟩ | ⟨c, t', h9, h10⟩
            · rw [h9] at hs
              have hnil := List.suffix_nil.1 hs
              have e1 : a' = [] ∧ b' = [] := by simpa using hnil
              have e2 : a = [] ∧ q = [] := by simpa using h9
              obtain ⟨rfl, rfl⟩ := e1
              obtain ⟨rfl, rfl⟩ := e2
              exact h3 h6
            · rw [h9] at hs
              rcases List.suffix_cons_iff.1 hs with h11 | h11
              · rw [← h9] at h11
                obtain ⟨rfl, rfl⟩ := append_split_eq h11 (by omega)
                exact h3 h6
              · have hnot := hno0.suffix (t := t')
                  ⟨p ++ [c], by rw [List.append_assoc, List.append_assoc, h9]; rfl⟩
                exact hL _ _ _ _ hnot (by simp) hg0 h10 _ h11 ⟨a', b', rfl, h5, h6⟩
        · cases h
        · cases h
      · rintro t ⟨p, rfl⟩ ⟨a, b, rfl, h5, h6⟩
        exact h1 hno.head p a b (by simp) h5
    | @any _ n _ hr =>
      split at h
      · rename_i hlen
        rintro t ht ⟨a, b, rfl, h1, _⟩
        have h2 := ht.length_le
        have h3 := length_le_utf8 cs
        simp only [Item.Sem] at h1
        simp only [Item.minLen] at hlen
        simp at h2
        omega
      simp only [Item.find, skipRunes_utf8] at h
      by_cases hn : n ≤ cs.length
      · simp only [hn, if_true, Option.map_some] at h
        rw [sliceFrom_zero] at h
        unfold loopFlag at h
        cases h
      · rintro t ht ⟨a, b, rfl, h1, _⟩
        have h2 := ht.length_le
        simp only [Item.Sem] at h1
        simp at h2
        omega
    | @star _ n _ hs hr => exact absurd (hs rfl).1 (by simp)
    | @list _ l _ hw hl hr ho =>
      split at h
      · rename_i hlen
        rintro t ⟨p, rfl⟩ ⟨a, b, rfl, h1 | ⟨h1, rfl⟩, _⟩
        · have := hw.min _ h1
          simp [Item.minLen] at hlen
          omega
        · simp [Item.minLen] at hlen
          omega
      simp only [Item.find, sliceFrom_zero] at h
      unfold loopFlag at h
      dsimp only at h
      obtain ⟨h', rfl⟩ := retR_ok h
      obtain ⟨h1, h2⟩ := orR_false h'
      rintro t ht ⟨a, b, rfl, h3 | ⟨h3, rfl⟩, h4⟩
      · obtain ⟨p, rfl⟩ := ht
        have hcs : p ++ (a ++ b) = p ++ a ++ b := by simp
        have hnob := hno.tail
        rw [hcs] at hnob
        replace hnob := hnob.append_right
        rcases hl rfl rfl with hsingle | hend | ⟨n, r, hstar⟩
        · obtain ⟨v, hv⟩ : ∃ v, l.vals = [v] := by
            match hvl : l.vals with
            | [] => rw [hvl] at h3; cases h3
            | [v] => exact ⟨v, rfl⟩
            | _ :: _ :: _ => rw [hvl] at hsingle; simp at hsingle
          have hvo := hw.vals
          rw [hv] at h2 h3 hvo
          exact comp_contM hM hnob hr
            (starListLoop_single hvo h2 (List.mem_singleton.1 h3) hcs) h4
        · have hb : b = [] := by rw [hend] at h4; exact h4
          subst hb
          have hre : rest = [] := (List.append_eq_nil_iff.1 hend).1
          have hfl : next.flatten = [] := (List.append_eq_nil_iff.1 hend).2
          subst hre
          refine starListLoop_end hw.vals (k := contWith M M [] next) ?_ h2 h3
            (p := p) (by simp)
          have : next.isEmpty = true := by
            simp only [NextItems.isEmpty, List.all_eq_true, List.isEmpty_iff]
            simpa using hfl
          simp [contWith, this]
        · obtain ⟨p0, q0, e1, e2, e3⟩ := starListLoop_first h2 h3 hcs
          have hnoq := hno.tail
          rw [e1] at hnoq
          replace hnoq := hnoq.append_right
          refine comp_contM hM hnoq hr e3 ?_
          rw [hstar] at h4 ⊢
          obtain ⟨x, y, rfl, h5, h6⟩ := h4
          have hs : x ++ y <:+ q0 := by
            refine suffix_of_length_le (c := p ++ (a ++ (x ++ y))) ⟨p ++ a, by simp⟩
              ⟨p0 ++ a, by rw [e1]⟩ ?_
            have := congrArg List.length e1
            simp at this ⊢
            omega
          obtain ⟨z, rfl⟩ := hs
          refine ⟨z ++ x, y, by simp, ?_, h6⟩
          simp only [Item.Sem] at h5 ⊢
          simp
          omega
      · rw [if_pos h3] at h1
        exact comp_contMS hM hS (hno.tail.suffix ht) (ho rfl h3) (starOptLoop_false h1 _ ht) h4
    | @group _ vals mn mx _ hw hne hr ho =>
      split at h
      · rename_i hlen
        rintro t ⟨p, rfl⟩ ⟨a, b, rfl, h1, _⟩
        have := hw.min _ h1
        simp [Item.minLen] at hlen
        omega
      simp only [Item.find, sliceFrom_zero] at h
      unfold loopFlag at h
      dsimp only at h
      obtain ⟨h', rfl⟩ := retR_ok h
      obtain ⟨_, h2⟩ := orR_false h'
      rintro t ht ⟨a, b, rfl, h3, h4⟩
      obtain ⟨v, hv, h5⟩ := (anySem_iff _ _).1 h3
      obtain ⟨ab', hk⟩ := fstR_ok (groupLoop_false h2 v hv)
      refine hS _ (groupItems v) (rest :: next) ab' (by simpa using hno.group hv) ?_ (by simpa using hr v hv) hk _ ht ?_
      · have := hne rfl rfl v hv
        simp [this]
      · rw [List.flatten_cons, seqSem_append]
        exact ⟨a, b, rfl, (seqSem_groupItems _ _).2 h5, h4⟩

theorem comp_all (fuel : Nat) :
    CompM (matchItems fuel) ∧ CompS (matchStarItems fuel) ∧ CompL (starLoop fuel) := by
  induction fuel with
  | zero =>
    refine ⟨?_, ?_, ?_⟩
    · intro cs items next ab hno hg h
      simp [matchItems] at h
    · intro cs items next ab hno _ hg h
      simp [matchStarItems] at h
    · intro cs items next ab hno _ hg h
      simp [starLoop] at h
  | succ fuel ih =>
    obtain ⟨hM, hS, hL⟩ := ih
    refine ⟨?_, ?_, ?_⟩
    · intro cs items next ab hno hg h
      rw [matchItems] at h
      exact comp_matchStep hM hS _ _ _ _ hno hg h
    · intro cs items next ab hno hne hg h
      rw [matchStarItems] at h
      exact comp_starStep hS hL _ _ _ _ hno hne hg h
    · intro cs items next ab hno hne hg h
      rw [starLoop] at h
      exact comp_loopStep hM hS hL _ _ _ _ hno hne hg h

end Complete

end GoMatcher
