import Verif.Spec.ClassText
import Verif.Proofs.RunesRanges
import Verif.Proofs.Utf8Inv

/-! # Every class text -/

namespace GoMatcher
namespace RunesRanges

/-- A range that `RunesRangeExpand` accepts. -/
def GoodRange (e : Char × Char) : Prop :=
  e.1.toNat ≤ e.2.toNat ∧ ClassElt.width e.1.toNat = ClassElt.width e.2.toNat

/-- Membership in the ranges read. -/
def ReadMem (es : List (Char × Char)) (c : Nat) : Prop := ∃ e ∈ es, e.1.toNat ≤ c ∧ c ≤ e.2.toNat

theorem toNat_dash {c : Char} (h : c ≠ '-') : ¬ c.toNat = 0x2D := fun e =>
  h (Char.toNat_val_inj (by simpa using e))

theorem toNat_error {c : Char} (h : c ≠ '�') : c.toNat ≠ runeError := fun e =>
  h (Char.toNat_val_inj (by simpa [runeError] using e))

theorem expandLoop_skip (rs : RunesRanges) (l : List Nat) :
    expandLoop rs runeError true l = expandLoop rs runeError false l := by
  cases l with
  | nil => rfl
  | cons c l =>
    rw [expandLoop, expandLoop]
    split
    · rfl
    · simp

theorem expandLoop_dashes (rs : RunesRanges) (st k : Nat) (l : List Nat) :
    expandLoop rs st true (List.replicate k 0x2D ++ l) = expandLoop rs st true l := by
  induction k with
  | zero => rfl
  | succ k ih => rw [List.replicate_succ, List.cons_append, expandLoop, if_pos rfl, ih]

theorem ClassSem.congr {rs : RunesRanges} {M N : Nat → Prop} (h : ClassSem rs M)
    (e : ∀ c, M c ↔ N c) : ClassSem rs N :=
  ⟨fun c => (h.mem c).trans (e c), h.sorted, h.wf, fun c hc hm => h.sizes c hc ((e c).2 hm)⟩

theorem expandLoop_reads {cs : List Char} {es : List (Char × Char)} (h : Reads cs es)
    (rs : RunesRanges) (M : Nat → Prop) (hi : ClassInv rs M) (p : Option Char)
    (hp : ∀ c, p = some c → c.toNat ≠ runeError) (hd : p ≠ none → cs.head? ≠ some '-') :
    ((∀ e ∈ es, GoodRange e) ∧
      ∃ rs', expandLoop rs (pendVal p) false (cs.map fun c => c.toNat) = some rs' ∧
        ClassSem rs' (fun c => M c ∨ PendMem p c ∨ ReadMem es c)) ∨
    (¬ (∀ e ∈ es, GoodRange e) ∧
      expandLoop rs (pendVal p) false (cs.map fun c => c.toNat) = none) := by
  induction h generalizing rs M p with
  | nil =>
    refine .inl ⟨by simp, _, rfl, ((hi.flush p hp).finish).congr fun c => ?_⟩
    simp [ReadMem]
  | @skip r cs es hr _ ih =>
    have hfl := hi.flush p hp
    rw [List.map_cons, expandLoop]
    by_cases hdash : r = '-'
    · have hpn : p = none := Classical.byContradiction fun hne => hd hne (by simp [hdash])
      subst hpn
      rw [if_pos (by rw [hdash]; rfl)]
      show _ ∨ (_ ∧ expandLoop rs runeError true _ = none)
      rw [show pendVal none = runeError from rfl, expandLoop_skip]
      exact ih rs M hi none (by simp) (by simp)
    · rw [if_neg (toNat_dash hdash)]
      simp only [Bool.false_eq_true, if_false]
      rw [show r.toNat = pendVal none by rw [hr.resolve_left hdash]; rfl]
      rcases ih _ _ hfl none (by simp) (by simp) with ⟨h1, rs', h2, h3⟩ | h1
      · refine .inl ⟨h1, rs', h2, h3.congr fun c => ?_⟩
        simp [PendMem, or_assoc]
      · exact .inr h1
  | @single c cs es h1 h2 h3 _ ih =>
    have hfl := hi.flush p hp
    rw [List.map_cons, expandLoop, if_neg (toNat_dash h1)]
    simp only [Bool.false_eq_true, if_false]
    have hgood : (∀ e ∈ (c, c) :: es, GoodRange e) ↔ ∀ e ∈ es, GoodRange e := by
      simp [GoodRange]
    rw [hgood]
    rcases ih _ _ hfl (some c) (fun d hd => by cases hd; exact toNat_error h2) (fun _ => h3) with
      ⟨g1, rs', g2, g3⟩ | g1
    · refine .inl ⟨g1, rs', g2, g3.congr fun x => ?_⟩
      have : x = c.toNat ↔ c.toNat ≤ x ∧ x ≤ c.toNat := by omega
      simp [PendMem, ReadMem, this, or_assoc]
    · exact .inr g1
  | @trailing c k h1 h2 =>
    have hfl := hi.flush p hp
    rw [List.map_cons, expandLoop, if_neg (toNat_dash h1)]
    simp only [Bool.false_eq_true, if_false]
    rw [List.map_cons, expandLoop, if_pos (by rfl), List.map_replicate,
      show ('-' : Char).toNat = 0x2D from rfl, ← List.append_nil (List.replicate k 0x2D), expandLoop_dashes]
    have := (hfl.flush (some c) (fun d hd => by cases hd; exact toNat_error h2)).finish
    refine .inl ⟨by simp [GoodRange], _, rfl, this.congr fun x => ?_⟩
    have e : x = c.toNat ↔ c.toNat ≤ x ∧ x ≤ c.toNat := by omega
    simp [PendMem, ReadMem, e, or_assoc]
  | @range a b cs es k h1 h2 h3 _ ih =>
    have hfl := hi.flush p hp
    rw [List.map_cons, expandLoop, if_neg (toNat_dash h1)]
    simp only [Bool.false_eq_true, if_false]
    rw [List.map_cons, expandLoop, if_pos (by rfl), List.map_append, List.map_replicate,
      show ('-' : Char).toNat = 0x2D from rfl, expandLoop_dashes, List.map_cons, expandLoop,
      if_neg (toNat_dash h3), if_pos rfl, if_neg (toNat_error h2)]
    have eqv : ∀ P : Nat → Prop, ∀ c, ((P c ∨ (a.toNat ≤ c ∧ c ≤ b.toNat)) ∨ PendMem none c ∨ ReadMem es c) ↔
        (P c ∨ ReadMem ((a, b) :: es) c) := by
      intro P c
      simp [PendMem, ReadMem, or_assoc]
    have hbad : ¬ GoodRange (a, b) → ¬ ∀ e ∈ (a, b) :: es, GoodRange e :=
      fun hn hall => hn (hall _ List.mem_cons_self)
    have hgood : GoodRange (a, b) → ((∀ e ∈ (a, b) :: es, GoodRange e) ↔ ∀ e ∈ es, GoodRange e) :=
      fun hg => by simp [hg]
    generalize hrs1 : (if pendVal p ≠ runeError then rs.addOne (pendVal p) else rs) = rs1 at *
    have fin : ∀ rs2 : RunesRanges, GoodRange (a, b) →
        ClassInv rs2 (fun c => (M c ∨ PendMem p c) ∨ (a.toNat ≤ c ∧ c ≤ b.toNat)) →
        ((∀ e ∈ (a, b) :: es, GoodRange e) ∧
          ∃ rs', expandLoop rs2 runeError false (cs.map fun c => c.toNat) = some rs' ∧
            ClassSem rs' (fun c => M c ∨ PendMem p c ∨ ReadMem ((a, b) :: es) c)) ∨
        (¬ (∀ e ∈ (a, b) :: es, GoodRange e) ∧
          expandLoop rs2 runeError false (cs.map fun c => c.toNat) = none) := by
      intro rs2 hg hinv
      rw [hgood hg]
      rcases ih rs2 _ hinv none (by simp) (by simp) with ⟨g1, rs', g2, g3⟩ | g1
      · exact .inl ⟨g1, rs', g2, g3.congr fun c =>
          (eqv (fun c => M c ∨ PendMem p c) c).trans or_assoc⟩
      · exact .inr g1
    have hlen : runeLen a.toNat = runeLen b.toNat ↔ ClassElt.width a.toNat = ClassElt.width b.toNat := by
      rw [runeLen_width (Char.runeOk a), runeLen_width (Char.runeOk b)]
      omega
    have hw1 : ∀ n, ClassElt.width n = 1 ↔ n ≤ 127 := by
      intro n
      unfold ClassElt.width
      split
      · omega
      · split
        · omega
        · split <;> omega
    by_cases hlow : a.toNat ≤ 127
    · rw [if_pos hlow]
      have hwa := (hw1 a.toNat).2 hlow
      by_cases hbl : b.toNat > 127
      · rw [if_pos hbl]
        refine .inr ⟨hbad fun hg => ?_, rfl⟩
        have := (hw1 b.toNat).1 (by rw [← hg.2]; exact hwa)
        omega
      · rw [if_neg hbl]
        by_cases hab : a.toNat ≤ b.toNat
        · rw [if_pos hab]
          exact fin _ ⟨hab, by rw [hwa, (hw1 b.toNat).2 (by omega)]⟩ (hfl.asciiRange (by omega))
        · rw [if_neg hab]
          exact .inr ⟨hbad fun hg => hab hg.1, rfl⟩
    · rw [if_neg hlow]
      by_cases hab : a.toNat ≤ b.toNat
      · rw [if_pos hab]
        by_cases hl : runeLen a.toNat = runeLen b.toNat
        · rw [if_neg (fun hne => hne hl)]
          obtain ⟨s1, s2, _⟩ := setSizes_spec rs1 (runeLen a.toNat)
            (runeLen_pos (Char.runeOk a)) hfl.min0
          exact fin _ ⟨hab, hlen.1 hl⟩
            (hfl.uniRange (a := a.toNat) (b := b.toNat) (by omega) hab (Char.runeOk a) (hlen.1 hl)
              { rs1.setSizes (runeLen a.toNat) with
                ranges := (rs1.setSizes (runeLen a.toNat)).ranges ++
                  [RuneRange.mk a.toNat b.toNat] }
              s1 (by simp [s2]) rfl rfl)
        · rw [if_pos hl]
          exact .inr ⟨hbad fun hg => hl (hlen.2 hg.2), rfl⟩
      · rw [if_neg hab]
        exact .inr ⟨hbad fun hg => hab hg.1, rfl⟩

/-- The dashes at the start of a text. -/
theorem dashes_split (cs : List Char) :
    ∃ k r, cs = List.replicate k '-' ++ r ∧ r.head? ≠ some '-' := by
  induction cs with
  | nil => exact ⟨0, [], rfl, by simp⟩
  | cons c cs ih =>
    by_cases h : c = '-'
    · obtain ⟨k, r, h1, h2⟩ := ih
      exact ⟨k + 1, r, by rw [List.replicate_succ, h, h1]; rfl, h2⟩
    · exact ⟨0, c :: cs, rfl, by simpa using h⟩

theorem reads_total (cs : List Char) : ∃ es, Reads cs es := by
  generalize hn : cs.length = n
  induction n using Nat.strongRecOn generalizing cs with
  | ind n ih =>
    cases cs with
    | nil => exact ⟨[], .nil⟩
    | cons c cs =>
      simp only [List.length_cons] at hn
      by_cases hs : c = '-' ∨ c = '�'
      · obtain ⟨es, h⟩ := ih _ (by omega) cs rfl
        exact ⟨es, .skip hs h⟩
      · have h1 : c ≠ '-' := fun h => hs (.inl h)
        have h2 : c ≠ '�' := fun h => hs (.inr h)
        by_cases hh : cs.head? = some '-'
        · cases cs with
          | nil => simp at hh
          | cons x cs =>
            simp at hh
            subst hh
            obtain ⟨k, r, rfl, hr⟩ := dashes_split cs
            cases r with
            | nil => exact ⟨_, by rw [List.append_nil]; exact .trailing k h1 h2⟩
            | cons d r =>
              simp only [List.length_cons, List.length_append] at hn
              obtain ⟨es, h⟩ := ih _ (by omega) r rfl
              exact ⟨_, .range k h1 h2 (by simpa using hr) h⟩
        · obtain ⟨es, h⟩ := ih _ (by omega) cs rfl
          exact ⟨_, .single h1 h2 hh h⟩

theorem dashes_inj {k l : Nat} {a b : List Char} (ha : a.head? ≠ some '-') (hb : b.head? ≠ some '-')
    (h : List.replicate k '-' ++ a = List.replicate l '-' ++ b) : a = b := by
  induction k generalizing l with
  | zero =>
    cases l with
    | zero => simpa using h
    | succ l => rw [List.replicate_zero, List.nil_append] at h; rw [h, List.replicate_succ] at ha; simp at ha
  | succ k ih =>
    cases l with
    | zero => rw [List.replicate_zero, List.nil_append] at h; rw [← h, List.replicate_succ] at hb; simp at hb
    | succ l =>
      rw [List.replicate_succ, List.replicate_succ, List.cons_append, List.cons_append] at h
      exact ih (List.cons.inj h).2

theorem reads_unique {cs : List Char} {es : List (Char × Char)} (h : Reads cs es) :
    ∀ es', Reads cs es' → es' = es := by
  induction h with
  | nil => intro es' h'; cases h'; rfl
  | skip hr _ ih =>
    intro es' h'
    cases h' with
    | skip _ h' => exact ih _ h'
    | single a b => rcases hr with hr | hr <;> contradiction
    | trailing _ a b => rcases hr with hr | hr <;> contradiction
    | range _ a b => rcases hr with hr | hr <;> contradiction
  | single h1 h2 h3 _ ih =>
    intro es' h'
    cases h' with
    | skip hr _ => rcases hr with hr | hr <;> contradiction
    | single _ _ _ h' => rw [ih _ h']
    | trailing => simp at h3
    | range => simp at h3
  | @trailing c k h1 h2 =>
    intro es' h'
    generalize hx : c :: '-' :: List.replicate k '-' = x at h'
    cases h' with
    | nil => cases hx
    | skip hr _ => cases hx; rcases hr with hr | hr <;> contradiction
    | single _ _ hh => cases hx; simp at hh
    | trailing =>
      simp only [List.cons.injEq] at hx
      rw [hx.1]
    | @range _ d r _ l _ _ hd _ =>
      simp only [List.cons.injEq, true_and] at hx
      have := dashes_inj (k := k) (l := l) (a := []) (b := d :: r) (by simp) (by simpa using hd)
        (by simpa using hx.2)
      cases this
  | @range c d r es k h1 h2 h3 _ ih =>
    intro es' h'
    generalize hx : c :: '-' :: (List.replicate k '-' ++ d :: r) = x at h'
    cases h' with
    | nil => cases hx
    | skip hr _ => cases hx; rcases hr with hr | hr <;> contradiction
    | single _ _ hh => cases hx; simp at hh
    | @trailing _ l =>
      simp only [List.cons.injEq, true_and] at hx
      have := dashes_inj (k := k) (l := l) (a := d :: r) (b := []) (by simpa using h3) (by simp)
        (by simpa using hx.2)
      cases this
    | @range _ d' r' _ l _ _ hd h' =>
      simp only [List.cons.injEq, true_and] at hx
      have := dashes_inj (k := k) (l := l) (a := d :: r) (b := d' :: r') (by simpa using h3)
        (by simpa using hd) hx.2
      cases this
      rw [ih _ h', hx.1]

theorem rangeStr_go_chars (f i : Nat) (s : Str) :
    ∃ cs : List Char, (rangeStr.go f i s).map Prod.snd = cs.map fun c => c.toNat := by
  induction f generalizing i s with
  | zero => exact ⟨[], rfl⟩
  | succ f ih =>
    cases s with
    | nil => exact ⟨[], rfl⟩
    | cons b t =>
      have hr : RuneOk (decodeRune (b :: t)).1 := by
        rcases decodeRune_inv (s := b :: t) (by simp) with h | ⟨r, _, ho, _, h⟩
        · rw [h]; exact .inr ⟨by simp [runeError], by simp [runeError]⟩
        · rw [h]; exact ho
      obtain ⟨c, hc⟩ : ∃ c : Char, c.toNat = (decodeRune (b :: t)).1 := by
        generalize (decodeRune (b :: t)).1 = r at hr
        have hv : r.isValidChar := by
          rcases hr with h | ⟨h1, h2⟩
          · exact Or.inl h
          · exact Or.inr ⟨by omega, by omega⟩
        refine ⟨Char.ofNat r, ?_⟩
        simp [Char.ofNat, hv, Char.toNat, Char.ofNatAux]
      obtain ⟨cs, hcs⟩ := ih (i + (decodeRune (b :: t)).2) ((b :: t).drop (decodeRune (b :: t)).2)
      exact ⟨c :: cs, by rw [rangeStr.go, List.map_cons, List.map_cons, hcs, hc]⟩

theorem expand_reads {body : Str} {cs : List Char} {es : List (Char × Char)}
    (hb : (rangeStr body).map Prod.snd = cs.map fun c => c.toNat) (h : Reads cs es) :
    ((∀ e ∈ es, GoodRange e) ∧ ∃ rs, expand (0x5B :: body ++ [0x5D]) = some rs ∧
        ClassSem rs (ReadMem es)) ∨
    (¬ (∀ e ∈ es, GoodRange e) ∧ expand (0x5B :: body ++ [0x5D]) = none) := by
  have hl := expandLoop_reads h {} _ classInv_empty none (by simp) (by simp)
  have eqv : ∀ c, (False ∨ PendMem none c ∨ ReadMem es c) ↔ ReadMem es c := by
    intro c; simp [PendMem]
  have he : expand (0x5B :: body ++ [0x5D]) =
      expandLoop {} runeError false (cs.map fun c => c.toNat) := by
    unfold expand
    simp only [List.cons_append, List.getLast?_append, List.getLast?_singleton,
      Option.some_or, if_true]
    rw [List.dropLast_concat]
    by_cases hne : body = []
    · rw [if_pos hne, ← hb, hne]
      rfl
    · rw [if_neg hne, hb]
  rw [he]
  rcases hl with ⟨h1, rs, h2, h3⟩ | h1
  · exact .inl ⟨h1, rs, h2, h3.congr eqv⟩
  · exact .inr h1

end RunesRanges
end GoMatcher
