import Verif.Proofs.ExpandFull
import Verif.Proofs.ClassText
import Verif.Proofs.BytesParse
import Verif.Spec.ExpandText

/-! # `Expand` on every byte string -/

namespace GoMatcher

/-! ## Merging with U+0000 -/

theorem mergeGo_zero (l : List RuneRange) (hl : ∀ r ∈ l, r.first ≤ r.last)
    (hs : l.Pairwise (fun a b => RuneRange.le a b = true)) :
    (∀ c, InRanges (mergeGo ⟨0, 0⟩ l) c ↔ InRanges (⟨0, 0⟩ :: l) c ∧ (c = 0 → InRanges l 1)) ∧
    (mergeGo ⟨0, 0⟩ l).Pairwise (fun a b => a.last + 1 < b.first) ∧
    (∀ r ∈ mergeGo ⟨0, 0⟩ l, r.first ≤ r.last ∧ 0 < r.last) := by
  induction l with
  | nil =>
    refine ⟨fun c => ?_, by simp [mergeGo, emitRange], by simp [mergeGo, emitRange]⟩
    simp only [mergeGo, emitRange, ne_eq, not_true_eq_false, if_false]
    simp [InRanges]
  | cons nx l ih =>
    rw [List.pairwise_cons] at hs
    have hnx := hl nx (by simp)
    have hl' : ∀ r ∈ l, r.first ≤ r.last := fun r hr => hl r (by simp [hr])
    have hle : ∀ r ∈ l, nx.first < r.first ∨ (nx.first = r.first ∧ nx.last ≤ r.last) :=
      fun r hr => (RuneRange.le_iff _ _).1 (hs.1 r hr)
    have hs2 : l.Pairwise (fun a b => a.first ≤ b.first) :=
      hs.2.imp fun {a b} h => by have := (RuneRange.le_iff _ _).1 h; omega
    have cons : ∀ (x : RuneRange) (l : List RuneRange) c, InRanges (x :: l) c ↔ (x.first ≤ c ∧ c ≤ x.last) ∨ InRanges l c := by
      intro x l c; simp [InRanges]
    rw [mergeGo]
    dsimp only
    by_cases h0 : nx.last = 0
    · have hf : nx.first = 0 := by omega
      have hnx0 : nx = ⟨0, 0⟩ := by cases nx; simp_all
      subst hnx0
      rw [if_pos (.inl rfl), if_neg (by simp)]
      obtain ⟨h1, h2, h3⟩ := ih hl' hs.2
      refine ⟨fun c => ?_, h2, h3⟩
      rw [h1]
      simp only [cons]
      constructor
      · rintro ⟨a, b⟩
        exact ⟨by rcases a with a | a; exact .inl a; exact .inr (.inr a), fun h => .inr (b h)⟩
      · rintro ⟨a, b⟩
        refine ⟨by rcases a with a | a | a; exact .inl a; exact .inl a; exact .inr a, fun h => ?_⟩
        rcases b h with b | b
        · omega
        · exact b
    · split
      · rename_i hc
        rw [if_pos (by omega)]
        have hnf : nx.first ≤ 1 := by omega
        obtain ⟨h1, h2, h3⟩ := mergeGo_spec l ⟨0, nx.last⟩ ⟨by simp, by simp; omega⟩
          (fun r hr => by have := hl' r hr; have := hle r hr; refine ⟨by omega, by omega, by simp⟩) hs2
        refine ⟨fun c => ?_, h2, fun r hr => ⟨(h3 r hr).1, (h3 r hr).2.1⟩⟩
        rw [h1]
        simp only [cons]
        constructor
        · rintro (h | h)
          · refine ⟨?_, fun _ => .inl (by omega)⟩
            by_cases hc0 : c = 0
            · exact .inl (by omega)
            · exact .inr (.inl (by omega))
          · exact ⟨.inr (.inr h), fun _ => .inl (by omega)⟩
        · rintro ⟨h | h | h, _⟩
          · exact .inl (by omega)
          · exact .inl (by omega)
          · exact .inr h
      · rename_i hc
        have : emitRange ⟨0, 0⟩ = [] := rfl
        rw [this, List.nil_append]
        obtain ⟨h1, h2, h3⟩ := mergeGo_spec l nx ⟨hnx, by omega⟩
          (fun r hr => by have := hl' r hr; have := hle r hr; refine ⟨by omega, by omega, by omega⟩) hs2
        refine ⟨fun c => ?_, h2, fun r hr => ⟨(h3 r hr).1, (h3 r hr).2.1⟩⟩
        rw [h1]
        simp only [cons]
        have no1 : ¬ InRanges l 1 := by
          rintro ⟨r, hr, h5, _⟩
          have := hle r hr
          omega
        have no0 : ¬ InRanges l 0 := by
          rintro ⟨r, hr, h5, _⟩
          have := hle r hr
          omega
        constructor
        · intro h
          refine ⟨.inr h, fun h0 => ?_⟩
          subst h0
          rcases h with h | h
          · omega
          · exact absurd h no0
        · rintro ⟨h | h, h'⟩
          · have : c = 0 := by omega
            rcases h' this with h' | h'
            · omega
            · exact absurd h' no1
          · exact h

theorem runesRangeMerge_all (l : List RuneRange) (hl : ∀ r ∈ l, r.first ≤ r.last) :
    (∀ c, InRanges (runesRangeMerge l) c ↔ InRanges l c ∧ (c = 0 → InRanges l 1)) ∧
    (runesRangeMerge l).Pairwise (fun a b => a.last + 1 < b.first) ∧
    (∀ r ∈ runesRangeMerge l, r.first ≤ r.last ∧ 0 < r.last) := by
  by_cases hz : ∀ r ∈ l, 0 < r.last
  · obtain ⟨h1, h2, h3⟩ := runesRangeMerge_spec l (fun r hr => ⟨hl r hr, hz r hr⟩)
    refine ⟨fun c => ?_, h2, h3⟩
    rw [h1]
    refine ⟨fun h => ⟨h, fun h0 => ?_⟩, fun h => h.1⟩
    subst h0
    obtain ⟨r, hr, h5, h6⟩ := h
    have := hz r hr
    exact ⟨r, hr, by omega, by omega⟩
  · have hp := sortBy_perm RuneRange.le l
    have hs := sortBy_pairwise RuneRange.le RuneRange.le_total RuneRange.le_trans l
    have e : ∀ c, InRanges (sortBy RuneRange.le l) c ↔ InRanges l c := by
      intro c
      unfold InRanges
      constructor
      · rintro ⟨r, hr, h⟩; exact ⟨r, hp.mem_iff.mp hr, h⟩
      · rintro ⟨r, hr, h⟩; exact ⟨r, hp.mem_iff.mpr hr, h⟩
    obtain ⟨z, hzl, hz0⟩ : ∃ z ∈ l, z.last = 0 := by
      apply Classical.byContradiction
      intro hn
      exact hz fun r hr => Nat.pos_of_ne_zero fun h => hn ⟨r, hr, h⟩
    rw [runesRangeMerge_eq]
    unfold mergeTail
    cases hsl : sortBy RuneRange.le l with
    | nil =>
      rw [hsl] at hp
      have : l = [] := by simpa using hp.symm
      subst this
      simp at hzl
    | cons a t =>
      rw [hsl] at hp hs e
      rw [List.pairwise_cons] at hs
      have hal := hl a (hp.mem_iff.1 (by simp))
      have ha : a = ⟨0, 0⟩ := by
        have hz1 := hl z hzl
        have : a.first = 0 ∧ a.last = 0 := by
          rcases List.mem_cons.1 (hp.mem_iff.2 hzl) with rfl | hzt
          · omega
          · have := (RuneRange.le_iff _ _).1 (hs.1 z hzt)
            omega
        cases a; simp_all
      subst ha
      dsimp only
      obtain ⟨h1, h2, h3⟩ := mergeGo_zero t (fun r hr => hl r (hp.mem_iff.1 (by simp [hr]))) hs.2
      refine ⟨fun c => ?_, h2, h3⟩
      rw [h1, e, ← e 1]
      have : InRanges (⟨0, 0⟩ :: t) 1 ↔ InRanges t 1 := by simp [InRanges]
      rw [this]

/-! ## Reading a class -/

/-- The ranges read, as the code keeps them. -/
def readRanges (es : List (Char × Char)) : List RuneRange := es.map fun e => ⟨e.1.toNat, e.2.toNat⟩

theorem inRanges_read (es : List (Char × Char)) (n : Nat) : InRanges (readRanges es) n ↔ Listed es n := by
  unfold InRanges readRanges Listed
  constructor
  · rintro ⟨r, hr, h⟩
    obtain ⟨e, he, rfl⟩ := List.mem_map.1 hr
    exact ⟨e, he, h⟩
  · rintro ⟨e, he, h⟩
    exact ⟨_, List.mem_map.2 ⟨e, he, rfl⟩, h⟩

theorem xRunesLoop_skip (rs : List RuneRange) (l : List Nat) :
    xRunesLoop rs runeError true l = xRunesLoop rs runeError false l := by
  cases l with
  | nil => rfl
  | cons c l =>
    rw [xRunesLoop, xRunesLoop]
    split
    · rfl
    · simp

theorem xRunesLoop_dashes (rs : List RuneRange) (st k : Nat) (l : List Nat) :
    xRunesLoop rs st true (List.replicate k 0x2D ++ l) = xRunesLoop rs st true l := by
  induction k with
  | zero => rfl
  | succ k ih => rw [List.replicate_succ, List.cons_append, xRunesLoop, if_pos rfl, ih]

theorem xRunesLoop_reads {cs : List Char} {es : List (Char × Char)} (h : Reads cs es)
    (rs : List RuneRange) (p : Option Char)
    (hp : ∀ c, p = some c → c.toNat ≠ runeError) (hd : p ≠ none → cs.head? ≠ some '-') :
    ((∀ e ∈ es, FineRange e) ∧
      xRunesLoop rs (RunesRanges.pendVal p) false (cs.map fun c => c.toNat) =
        some (flushed rs (RunesRanges.pendVal p) ++ readRanges es)) ∨
    (¬ (∀ e ∈ es, FineRange e) ∧
      xRunesLoop rs (RunesRanges.pendVal p) false (cs.map fun c => c.toNat) = none) := by
  induction h generalizing rs p with
  | nil => exact .inl ⟨by simp, by simp [xRunesLoop, readRanges, flushed]⟩
  | @skip r cs es hr _ ih =>
    rw [List.map_cons, xRunesLoop]
    by_cases hdash : r = '-'
    · have hpn : p = none := Classical.byContradiction fun hne => hd hne (by simp [hdash])
      subst hpn
      rw [if_pos (by rw [hdash]; rfl)]
      rw [show RunesRanges.pendVal none = runeError from rfl, xRunesLoop_skip]
      exact ih rs none (by simp) (by simp)
    · rw [if_neg (RunesRanges.toNat_dash hdash)]
      simp only [Bool.false_eq_true, if_false]
      rw [show r.toNat = RunesRanges.pendVal none by rw [hr.resolve_left hdash]; rfl]
      exact ih (flushed rs (RunesRanges.pendVal p)) none (by simp) (by simp)
  | @single c cs es h1 h2 h3 _ ih =>
    rw [List.map_cons, xRunesLoop, if_neg (RunesRanges.toNat_dash h1)]
    simp only [Bool.false_eq_true, if_false]
    have hgood : (∀ e ∈ (c, c) :: es, FineRange e) ↔ ∀ e ∈ es, FineRange e := by
      simp [FineRange]
    rw [hgood]
    have hce := RunesRanges.toNat_error h2
    rcases ih (flushed rs (RunesRanges.pendVal p)) (some c) (fun d hd => by cases hd; exact hce) (fun _ => h3) with
      ⟨g1, g2⟩ | ⟨g1, g2⟩
    · refine .inl ⟨g1, Eq.trans g2 ?_⟩
      rw [show flushed (flushed rs (RunesRanges.pendVal p)) (RunesRanges.pendVal (some c)) =
        flushed rs (RunesRanges.pendVal p) ++ [⟨c.toNat, c.toNat⟩] by
          conv => lhs; unfold flushed
          rw [if_pos (show RunesRanges.pendVal (some c) ≠ runeError from hce)]
          rfl]
      simp [readRanges]
    · exact .inr ⟨g1, g2⟩
  | @trailing c k h1 h2 =>
    rw [List.map_cons, xRunesLoop, if_neg (RunesRanges.toNat_dash h1)]
    simp only [Bool.false_eq_true, if_false]
    rw [List.map_cons, xRunesLoop, if_pos (by rfl), List.map_replicate,
      show ('-' : Char).toNat = 0x2D from rfl, ← List.append_nil (List.replicate k 0x2D), xRunesLoop_dashes,
      xRunesLoop, if_pos (RunesRanges.toNat_error h2)]
    exact .inl ⟨by simp [FineRange], by simp [readRanges, flushed]⟩
  | @range a b cs es k h1 h2 h3 _ ih =>
    rw [List.map_cons, xRunesLoop, if_neg (RunesRanges.toNat_dash h1)]
    simp only [Bool.false_eq_true, if_false]
    rw [List.map_cons, xRunesLoop, if_pos (by rfl), List.map_append, List.map_replicate,
      show ('-' : Char).toNat = 0x2D from rfl, xRunesLoop_dashes, List.map_cons, xRunesLoop,
      if_neg (RunesRanges.toNat_dash h3), if_pos rfl, if_neg (RunesRanges.toNat_error h2)]
    have hbad : ¬ FineRange (a, b) → ¬ ∀ e ∈ (a, b) :: es, FineRange e :=
      fun hn hall => hn (hall _ List.mem_cons_self)
    have hlen : runeLen a.toNat = runeLen b.toNat ↔ ClassElt.width a.toNat = ClassElt.width b.toNat := by
      rw [RunesRanges.runeLen_width (Char.runeOk a), RunesRanges.runeLen_width (Char.runeOk b)]
      omega
    by_cases hab : a.toNat ≤ b.toNat
    · rw [if_pos hab]
      by_cases hl : runeLen a.toNat = runeLen b.toNat
      · rw [if_neg (fun hne => hne hl)]
        have hg : FineRange (a, b) := ⟨hab, hlen.1 hl⟩
        have hgood : ((∀ e ∈ (a, b) :: es, FineRange e) ↔ ∀ e ∈ es, FineRange e) := by simp [hg]
        rw [hgood]
        rcases ih (flushed rs (RunesRanges.pendVal p) ++ [⟨a.toNat, b.toNat⟩]) none (by simp) (by simp) with
          ⟨g1, g2⟩ | ⟨g1, g2⟩
        · refine .inl ⟨g1, Eq.trans g2 ?_⟩
          simp [readRanges, flushed, RunesRanges.pendVal]
        · exact .inr ⟨g1, g2⟩
      · rw [if_pos hl]
        exact .inr ⟨hbad fun hg => hl (hlen.2 hg.2), rfl⟩
    · rw [if_neg hab]
      exact .inr ⟨hbad fun hg => hab hg.1, rfl⟩

theorem classOf_total (body : Str) : ∃ es, ClassOf body es := by
  obtain ⟨cs, hcs⟩ := RunesRanges.rangeStr_go_chars body.length 0 body
  obtain ⟨es, hes⟩ := RunesRanges.reads_total cs
  exact ⟨es, cs, hcs, hes⟩

theorem classOf_unique {body : Str} {es es' : List (Char × Char)} (h : ClassOf body es) (h' : ClassOf body es') :
    es' = es := by
  obtain ⟨cs, h1, h2⟩ := h
  obtain ⟨cs', h1', h2'⟩ := h'
  have : cs' = cs := by
    have e := h1'.symm.trans h1
    exact (List.map_inj_right (fun x y hxy => Char.toNat_val_inj hxy)).1 e
  subst this
  exact RunesRanges.reads_unique h2 _ h2'

theorem xRunesExpand_class {body : Str} (hne : body ≠ []) {es : List (Char × Char)} (h : ClassOf body es) :
    ((∀ e ∈ es, FineRange e) ∧ xRunesExpand body = some (xOf (runesRangeMerge (readRanges es)))) ∨
    (¬ (∀ e ∈ es, FineRange e) ∧ xRunesExpand body = none) := by
  obtain ⟨cs, h1, h2⟩ := h
  unfold xRunesExpand
  rw [if_neg hne, h1]
  rcases xRunesLoop_reads h2 [] none (by simp) (by simp) with ⟨g1, g2⟩ | ⟨g1, g2⟩
  · rw [show RunesRanges.pendVal none = runeError from rfl] at g2
    rw [g2]
    exact .inl ⟨g1, rfl⟩
  · rw [show RunesRanges.pendVal none = runeError from rfl] at g2
    rw [g2]
    exact .inr ⟨g1, rfl⟩

theorem mem_codesFrom {a b n : Nat} : n ∈ codesFrom a b ↔ (a ≤ n ∧ n ≤ b) ∧ ¬ (a ≤ runeError ∧ runeError ≤ n) := by
  generalize hk : b + 1 - a = k
  induction k generalizing a with
  | zero =>
    rw [codesFrom_nil (by omega)]
    simp only [List.not_mem_nil, false_iff]
    omega
  | succ k ih =>
    by_cases hc : a = runeError
    · subst hc
      rw [codesFrom_error]
      simp only [List.not_mem_nil, false_iff]
      omega
    · rw [codesFrom_cons (by omega) hc, List.mem_cons, ih (by omega)]
      omega

/-- The code points that the iterator of a class goes through. -/
def emitCodes (l : List RuneRange) : List Nat := l.flatMap fun r => codesFrom r.first r.last

theorem rangesAlts_emit (l : List RuneRange) : rangesAlts (xOf l) = (emitCodes l).map encodeRune := by
  induction l with
  | nil => rfl
  | cons r l ih =>
    have e1 : rangesAlts (xOf (r :: l)) = (codesFrom r.first r.last).map encodeRune ++ rangesAlts (xOf l) := by
      simp [xOf, rangesAlts]
    rw [e1, ih]
    simp [emitCodes]

theorem emitCodes_sorted {l : List RuneRange} (h : l.Pairwise (fun a b => a.last + 1 < b.first))
    (hw : ∀ r ∈ l, r.first ≤ r.last) : (emitCodes l).Pairwise (· < ·) := by
  induction l with
  | nil => simp [emitCodes]
  | cons r l ih =>
    rw [List.pairwise_cons] at h
    have e : emitCodes (r :: l) = codesFrom r.first r.last ++ emitCodes l := by simp [emitCodes]
    rw [e, List.pairwise_append]
    refine ⟨?_, ih h.2 (fun x hx => hw x (by simp [hx])), ?_⟩
    · exact List.Pairwise.sublist (List.takeWhile_sublist _) List.pairwise_lt_range'
    · intro a ha b hb
      rw [mem_codesFrom] at ha
      simp only [emitCodes, List.mem_flatMap] at hb
      obtain ⟨q, hq, h1⟩ := hb
      rw [mem_codesFrom] at h1
      have := h.1 q hq
      omega

theorem sep_cases {l : List RuneRange} (h : l.Pairwise (fun a b => a.last + 1 < b.first)) {q r : RuneRange}
    (hq : q ∈ l) (hr : r ∈ l) : q = r ∨ q.last + 1 < r.first ∨ r.last + 1 < q.first := by
  induction l with
  | nil => simp at hr
  | cons x l ih =>
    rw [List.pairwise_cons] at h
    rcases List.mem_cons.1 hr with h1 | h1
    · rcases List.mem_cons.1 hq with h2 | h2
      · exact .inl (h2.trans h1.symm)
      · rw [h1]; exact .inr (.inr (h.1 q h2))
    · rcases List.mem_cons.1 hq with h2 | h2
      · rw [h2]; exact .inr (.inl (h.1 r h1))
      · exact ih h.2 h2 h1

theorem sep_between {l : List RuneRange} (h : l.Pairwise (fun a b => a.last + 1 < b.first))
    (hw : ∀ r ∈ l, r.first ≤ r.last) {r : RuneRange} (hr : r ∈ l) {n : Nat} (h1 : r.last < n)
    (hin : ∀ d, r.last ≤ d → d ≤ n → InRanges l d) : False := by
  obtain ⟨q, hq, h2, h3⟩ := hin (r.last + 1) (by omega) (by omega)
  have key := sep_cases h hq hr
  have := hw r hr
  rcases key with rfl | h | h <;> omega

/-- The code points written out for a class. -/
theorem mem_emitCodes {es : List (Char × Char)} (hes : ∀ e ∈ es, FineRange e) (n : Nat) :
    n ∈ emitCodes (runesRangeMerge (readRanges es)) ↔ Emitted es n := by
  obtain ⟨m1, m2, m3⟩ := runesRangeMerge_all (readRanges es) (by
    intro r hr
    obtain ⟨e, he, rfl⟩ := List.mem_map.1 hr
    exact (hes e he).1)
  have m1' : ∀ c, InRanges (runesRangeMerge (readRanges es)) c ↔ Counted es c := by
    intro c
    rw [m1, inRanges_read, inRanges_read]
    rfl
  generalize runesRangeMerge (readRanges es) = l at *
  have hcl : ∀ d, runeError ≤ d → (InRanges l d ↔ Listed es d) := by
    intro d hd
    rw [m1']
    refine ⟨fun h => h.1, fun h => ⟨h, fun h0 => ?_⟩⟩
    have : runeError = 0xFFFD := rfl
    omega
  simp only [emitCodes, List.mem_flatMap, mem_codesFrom]
  unfold Emitted
  rw [← m1']
  constructor
  · rintro ⟨r, hr, h1, h2⟩
    refine ⟨⟨r, hr, h1⟩, ?_⟩
    rintro ⟨h3, h4⟩
    have hre : runeError = 0xFFFD := rfl
    have hne : ¬ r.first ≤ runeError := by omega
    -- the range containing U+FFFD lies before `r` without a gap
    obtain ⟨q, hq, h5, h6⟩ := (hcl 0xFFFD (by omega)).2 (h4 0xFFFD (by omega) h3)
    by_cases h7 : q.last < n
    · exact sep_between m2 (fun r hr => (m3 r hr).1) hq h7
        (fun d hd1 hd2 => (hcl d (by omega)).2 (h4 d (by omega) hd2))
    · have : q = r := by
        have key := sep_cases m2 hq hr
        rcases key with h | h | h
        · exact h
        · omega
        · omega
      subst this
      omega
  · rintro ⟨⟨r, hr, h1⟩, h2⟩
    refine ⟨r, hr, h1, ?_⟩
    rintro ⟨h3, h4⟩
    apply h2
    have hre : runeError = 0xFFFD := rfl
    refine ⟨by omega, fun d hd1 hd2 => ?_⟩
    exact (hcl d (by omega)).1 ⟨r, hr, by omega, by omega⟩

end GoMatcher
