import Verif.Proofs.MatchMono
import Verif.Proofs.ClassSearch

/-! # Sequences on which the matcher never panics, for all byte strings -/

namespace GoMatcher

/-- One-place items; a rune after a star must not be U+FFFD. -/
def LitSafe (a : Bool) : Item → Prop
  | .str _ => True
  | .byte _ => True
  | .ranges _ => True
  | .rune r => a = true → r ≠ runeError
  | _ => False

/-- Sequences without a panic.  The flag says that a star precedes. -/
inductive NoPan : Bool → List Item → Prop
  | nil (a : Bool) : NoPan a []
  | lit {a : Bool} {it : Item} {rest : List Item} (h : LitSafe a it) (hr : NoPan false rest) :
      NoPan a (it :: rest)
  | any {n : Nat} {rest : List Item} (hr : NoPan false rest) : NoPan false (.any n :: rest)
  | star {a : Bool} {n : Nat} {rest : List Item} (hr : NoPan true rest) :
      NoPan a (.star n :: rest)
  | list {a : Bool} {l : StringList} {rest : List Item} (hr : NoPan false rest)
      (ho : a = true → l.minSize = 0 → NoPan true rest) : NoPan a (.list l :: rest)
  | group {a : Bool} {vals : List Item} {mn mx : Int} {rest : List Item}
      (hr : ∀ v ∈ vals, NoPan a (groupItems v ++ rest)) (ho : mn = 0 → NoPan a rest) :
      NoPan a (.group vals mn mx :: rest)

theorem NoPan.of_false {P : List Item} (h : NoPan true P) : NoPan false P := by
  generalize ha : true = a at h
  induction h with
  | nil => exact .nil _
  | @lit _ it _ h hr =>
    refine .lit ?_ hr
    cases it <;> simp_all [LitSafe]
  | any hr => exact .any hr
  | star hr => exact .star hr
  | list hr ho => exact .list hr (by simp)
  | group hr ho ih1 ih2 =>
    subst ha
    exact .group (fun v hv => ih1 v hv rfl) (fun h => ih2 h rfl)

/-! ## The result type -/

/-- No panic. -/
def R.Safe {α : Type} (x : R α) : Prop := x ≠ .panic

theorem safe_ok {α : Type} (x : α) : R.Safe (R.ok x) := by simp [R.Safe]

theorem safe_fstR {x : R (Bool × Bool)} (h : x.Safe) : (fstR x).Safe := by
  cases x <;> simp_all [fstR, R.Safe]

theorem safe_orR {x y : R Bool} (hx : x.Safe) (hy : y.Safe) : (orR x y).Safe := by
  cases x with
  | ok m => cases m <;> simp_all [orR, R.Safe]
  | panic => exact absurd rfl hx
  | timeout => simp [orR, R.Safe]

theorem safe_retR {x : R Bool} (hx : x.Safe) : (retR x).Safe := by
  cases x <;> simp_all [retR, R.Safe]

theorem safe_listLoop {s : Str} {k : Str → R Bool} (h : ∀ t, (k t).Safe) (vals : List Str) :
    (listLoop s k vals).Safe := by
  induction vals with
  | nil => exact safe_ok _
  | cons v vs ih =>
    unfold listLoop
    split
    · exact safe_orR (h _) ih
    · exact ih

theorem safe_groupLoop {k : Item → R Bool} {vals : List Item} (h : ∀ v ∈ vals, (k v).Safe) :
    (groupLoop k vals).Safe := by
  induction vals with
  | nil => exact safe_ok _
  | cons v vs ih =>
    exact safe_orR (h v (by simp)) (ih (fun w hw => h w (by simp [hw])))

theorem safe_starListInner {s : Str} {k : Str → R Bool} (h : ∀ t, (k t).Safe) (vals : List Str)
    (off : Option Nat) : (starListInner s k vals off).Safe := by
  induction vals generalizing off with
  | nil => exact safe_ok _
  | cons v vs ih =>
    unfold starListInner
    split
    · exact ih _
    · rename_i i hi
      have := h (s.drop (i + v.length))
      cases hk : k (s.drop (i + v.length)) with
      | ok m =>
        dsimp only
        split
        · exact safe_ok _
        · exact ih _
      | panic => exact absurd hk this
      | timeout => simp [R.Safe]

theorem safe_starListLoop {k : Str → R Bool} (h : ∀ t, (k t).Safe) (vals : List Str)
    (fuel : Nat) (s : Str) : (starListLoop vals k fuel s).Safe := by
  induction fuel generalizing s with
  | zero => simp [starListLoop, R.Safe]
  | succ fuel ih =>
    unfold starListLoop
    have := safe_starListInner (s := s) h vals none
    split
    · exact safe_ok _
    · exact safe_ok _
    · dsimp only
      split
      · exact safe_ok _
      · exact ih _
    · rename_i he; exact absurd he this
    · simp [R.Safe]

theorem safe_starOptLoop {k : Str → R Bool} (h : ∀ t, (k t).Safe) (fuel : Nat) (s : Str) :
    (starOptLoop k fuel s).Safe := by
  induction fuel generalizing s with
  | zero => simp [starOptLoop, R.Safe]
  | succ fuel ih =>
    unfold starOptLoop
    refine safe_orR (h _) ?_
    dsimp only
    split
    · exact safe_ok _
    · exact ih _

/-! ## Positions found by one-place items -/

theorem strIndex_le {s w : Str} {i : Nat} (h : strIndex s w = some i) : i + w.length ≤ s.length := by
  induction s generalizing i with
  | nil =>
    unfold strIndex at h
    split at h
    · rename_i hp
      cases h
      have := (List.isPrefixOf_iff_prefix.1 hp).length_le
      simpa using this
    · cases h
  | cons c t ih =>
    unfold strIndex at h
    split at h
    · rename_i hp
      cases h
      have := (List.isPrefixOf_iff_prefix.1 hp).length_le
      simpa using this
    · obtain ⟨j, hj, rfl⟩ := Option.map_eq_some_iff.1 h
      have := ih hj
      simp
      omega

theorem indexByte_le {s : Str} {b : UInt8} {i : Nat} (h : indexByte s b = some i) :
    i + 1 ≤ s.length := by
  induction s generalizing i with
  | nil => simp [indexByte] at h
  | cons c t ih =>
    unfold indexByte at h
    split at h
    · cases h; simp
    · obtain ⟨j, hj, rfl⟩ := Option.map_eq_some_iff.1 h
      have := ih hj
      simp
      omega

theorem RunesRanges.indexAscii_le (rs : RunesRanges) {s : Str} {k i c w : Nat}
    (h : rs.indexAscii k s = some (i, c, w)) : i + w ≤ k + s.length := by
  induction s generalizing k with
  | nil => simp [indexAscii] at h
  | cons b t ih =>
    unfold indexAscii at h
    split at h
    · cases h; simp
    · have := ih h
      simp
      omega

theorem RunesRanges.indexLoop_le (rs : RunesRanges) {fuel : Nat} {s : Str} {k i c w : Nat}
    (h : rs.indexLoop fuel k s = some (i, c, w)) : i + w ≤ k + s.length := by
  induction fuel generalizing k s with
  | zero => simp [indexLoop] at h
  | succ fuel ih =>
    cases s with
    | nil => simp [indexLoop] at h
    | cons b t =>
      unfold indexLoop at h
      have hw := decodeRune_width_le (b :: t)
      split at h
      · split at h
        · cases h; simp
        · have := ih h
          simp
          omega
      · dsimp only at h
        split at h
        · cases h
        · split at h
          · cases h; omega
          · have := ih h
            rw [List.length_drop] at this
            omega

theorem RunesRanges.index_le (rs : RunesRanges) {s : Str} {i c w : Nat}
    (h : rs.index s = some (i, c, w)) : i + w ≤ s.length := by
  unfold index at h
  split at h
  · simpa using rs.indexAscii_le h
  · simpa using rs.indexLoop_le h

theorem lit_matchAt {a : Bool} {it : Item} (hl : LitSafe a it) (s : Str) :
    (it.matchAt s).2 = .done ∧ ∀ o, (it.matchAt s).1 = some o → o ≤ s.length := by
  cases it with
  | str w =>
    refine ⟨rfl, ?_⟩
    intro o h
    simp only [Item.matchAt] at h
    split at h
    · rename_i hp
      cases h
      exact (List.isPrefixOf_iff_prefix.1 hp).length_le
    · cases h
  | byte b =>
    refine ⟨rfl, ?_⟩
    intro o h
    cases s with
    | nil => simp [Item.matchAt] at h
    | cons c t =>
      simp only [Item.matchAt] at h
      split at h
      · cases h; simp
      · cases h
  | rune r =>
    refine ⟨rfl, ?_⟩
    intro o h
    simp only [Item.matchAt] at h
    split at h
    · split at h
      · cases h; exact decodeRune_width_le s
      · cases h
    · cases h
  | ranges rs =>
    refine ⟨rfl, ?_⟩
    intro o h
    simp only [Item.matchAt] at h
    rw [RunesRanges.startsWith_eq] at h
    split at h
    · simp only [Option.map_some, Option.some.injEq] at h
      rw [← h]
      exact decodeRune_width_le s
    · cases h
  | any _ => exact hl.elim
  | star _ => exact hl.elim
  | list _ => exact hl.elim
  | group _ _ _ => exact hl.elim
  | chain _ _ _ => exact hl.elim

theorem runeOk_of_valid {r : Nat} (h : validRune r = true) : RuneOk r := by
  simpa [validRune, RuneOk] using h

theorem lit_find {it : Item} (hl : LitSafe true it) (s : Str) :
    ∃ x, it.find s = .ok (x, .done) ∧
      ∀ o l, x = some (o, l) → o ≤ s.length ∧ 0 ≤ l ∧ (o : Int) + l ≤ s.length := by
  cases it with
  | str w =>
    refine ⟨_, rfl, ?_⟩
    intro o l h
    obtain ⟨i, hi, h⟩ := Option.map_eq_some_iff.1 h
    cases h
    have := strIndex_le hi
    omega
  | byte b =>
    refine ⟨_, rfl, ?_⟩
    intro o l h
    obtain ⟨i, hi, h⟩ := Option.map_eq_some_iff.1 h
    cases h
    have := indexByte_le hi
    omega
  | rune r =>
    refine ⟨_, rfl, ?_⟩
    intro o l h
    obtain ⟨i, hi, h⟩ := Option.map_eq_some_iff.1 h
    cases h
    have hne : r ≠ runeError := hl rfl
    unfold indexRune at hi
    split at hi
    · rename_i hlt
      have := indexByte_le hi
      have : runeLen r = 1 := by
        have := encodeRune_length (r := r) (Or.inl (by omega))
        rw [encodeRune_ascii hlt] at this
        simpa using this.symm
      omega
    · try rw [if_neg hne] at hi
      split at hi
      · cases hi
      · rename_i hv
        have hv : RuneOk r := runeOk_of_valid (by simpa using hv)
        have := strIndex_le hi
        have := encodeRune_length hv
        omega
  | ranges rs =>
    refine ⟨_, rfl, ?_⟩
    intro o l h
    obtain ⟨⟨i, c, w⟩, hi, h⟩ := Option.map_eq_some_iff.1 h
    cases h
    have := rs.index_le hi
    dsimp only
    omega
  | any _ => exact hl.elim
  | star _ => exact hl.elim
  | list _ => exact hl.elim
  | group _ _ _ => exact hl.elim
  | chain _ _ _ => exact hl.elim

/-! ## The matcher -/

section
variable {M S L : Matcher}

def SafeF (a : Bool) (M : Matcher) : Prop := ∀ s items next,
  NoPan a (items ++ List.flatten next) → (M s items next).Safe

theorem safe_next {a : Bool} {F : Matcher} (hF : SafeF a F) (s : Str) {next : NextItems}
    (h : NoPan a (List.flatten next)) : (F s next.next.1 next.next.2).Safe := by
  refine hF _ _ _ ?_
  have e : next.next.1 ++ List.flatten next.next.2 = List.flatten next := by
    cases next with
    | nil => rfl
    | cons l t =>
      cases l with
      | nil => cases t <;> simp [NextItems.next]
      | cons x l => simp [NextItems.next]
  rw [e]
  exact h

theorem safe_contWith {a b : Bool} {F G : Matcher} (hF : SafeF a F) (hG : SafeF b G)
    {rest : List Item} {next : NextItems} (h1 : NoPan a (rest ++ List.flatten next))
    (h2 : NoPan b (rest ++ List.flatten next)) (t : Str) : (contWith F G rest next t).Safe := by
  unfold contWith
  split
  · rename_i he
    have he := List.isEmpty_iff.1 he
    subst he
    split
    · exact safe_ok _
    · exact safe_fstR (safe_next hF t h1)
  · exact safe_fstR (hG _ _ _ h2)

theorem safe_againStep (hL : SafeF true L) (s : Str) {items : List Item} {next : NextItems}
    (h : NoPan true (items ++ List.flatten next)) : (againStep L s items next).Safe := by
  unfold againStep
  dsimp only
  split
  · exact safe_ok _
  · exact hL _ _ _ h

theorem sliceFrom_le {s : Str} {n : Nat} (h : n ≤ s.length) : sliceFrom s n = .ok (s.drop n) := by
  simp [sliceFrom, h]

theorem safe_matchStep (hM : SafeF false M) (hS : SafeF true S) : SafeF false (matchStep M S) := by
  intro s items next hp
  cases items with
  | nil =>
    unfold matchStep
    dsimp only
    split
    · exact safe_ok _
    · exact safe_retR (safe_fstR (safe_next hM s hp))
  | cons it rest =>
    rw [List.cons_append] at hp
    unfold matchStep
    dsimp only
    split
    · exact safe_ok _
    have done : NoPan false (rest ++ List.flatten next) →
        (it.matchAt s).2 = .done → (∀ o, (it.matchAt s).1 = some o → o ≤ s.length) →
        R.Safe (match it.matchAt s with
        | (none, _) => .ok (false, false)
        | (some offset, flag) =>
          match sliceFrom s offset with
          | .ok s => matchFlag M S it flag s rest next
          | .panic => .panic
          | .timeout => .timeout) := by
      intro hr h1 h2
      cases hm : it.matchAt s with
      | mk o fl =>
        rw [hm] at h1 h2
        cases o with
        | none => exact safe_ok _
        | some o =>
          dsimp only at h1 h2 ⊢
          subst h1
          rw [sliceFrom_le (h2 o rfl)]
          dsimp only
          unfold matchFlag
          dsimp only
          exact hM _ _ _ hr
    cases hp with
    | lit hl hr => exact done hr (lit_matchAt hl s).1 (lit_matchAt hl s).2
    | any hr =>
      refine done hr rfl ?_
      intro o ho
      exact skipRunes_le ho
    | @star _ n _ hr =>
      simp only [Item.matchAt]
      split
      · exact safe_ok _
      · rename_i o fl heq
        cases heq' : skipRunes s n with
        | none => rw [heq'] at heq; cases heq
        | some k =>
          rw [heq'] at heq
          cases heq
          rw [sliceFrom_le (skipRunes_le heq')]
          dsimp only
          unfold matchFlag
          dsimp only
          split
          · rename_i he
            have he := List.isEmpty_iff.1 he
            subst he
            split
            · exact safe_ok _
            · exact safe_next hS _ hr
          · exact hS _ _ _ hr
    | @list _ l _ hr ho =>
      simp only [Item.matchAt]
      rw [sliceFrom_le (Nat.zero_le _)]
      dsimp only [List.drop_zero]
      unfold matchFlag
      dsimp only
      refine safe_retR (safe_orR ?_ (safe_listLoop (fun t => safe_contWith hM hM hr hr t) _))
      split
      · exact safe_contWith hM hM hr hr _
      · exact safe_ok _
    | @group _ vals mn mx _ hr ho =>
      simp only [Item.matchAt]
      rw [sliceFrom_le (Nat.zero_le _)]
      dsimp only [List.drop_zero]
      unfold matchFlag
      dsimp only
      refine safe_retR (safe_orR ?_ (safe_groupLoop (fun v hv => safe_fstR (hM _ _ _ ?_))))
      · split
        · rename_i h0
          exact safe_contWith hM hM (ho h0) (ho h0) _
        · exact safe_ok _
      · simpa using hr v hv

theorem safe_starStep (hS : SafeF true S) (hL : SafeF true L) : SafeF true (starStep S L) := by
  intro s items next hp
  cases items with
  | nil =>
    unfold starStep
    dsimp only
    split
    · exact safe_ok _
    · exact safe_next hS s hp
  | cons it rest => exact hL _ _ _ hp

theorem safe_loopStep (hM : SafeF false M) (hS : SafeF true S) (hL : SafeF true L) :
    SafeF true (loopStep M S L) := by
  intro s items next hp
  cases items with
  | nil =>
    unfold loopStep
    dsimp only
    split
    · exact safe_ok _
    · exact safe_retR (safe_fstR (safe_next hM s hp.of_false))
  | cons it rest =>
    have hp0 := hp
    rw [List.cons_append] at hp
    unfold loopStep
    dsimp only
    split
    · exact safe_ok _
    cases hp with
    | lit hl hr =>
      obtain ⟨x, hf, hx⟩ := lit_find hl s
      rw [hf]
      cases x with
      | none => exact safe_ok _
      | some x =>
        obtain ⟨o, l⟩ := x
        obtain ⟨h1, h2, h3⟩ := hx o l rfl
        dsimp only
        rw [sliceFrom_le h1]
        dsimp only
        unfold loopFlag
        have e : sliceFromInt (s.drop o) l = .ok ((s.drop o).drop l.toNat) := by
          unfold sliceFromInt
          rw [if_pos ⟨h2, by rw [List.length_drop]; omega⟩]
        dsimp only
        rw [e]
        dsimp only
        have := hM ((s.drop o).drop l.toNat) rest next hr
        split
        · split
          · exact safe_ok _
          · exact safe_againStep hL _ hp0
        · rename_i he; exact absurd he this
        · simp [R.Safe]
    | @star _ n _ hr =>
      simp only [Item.find]
      rw [sliceFrom_le (Nat.zero_le _)]
      dsimp only [List.drop_zero]
      unfold loopFlag
      dsimp only
      split
      · rename_i he
        have he := List.isEmpty_iff.1 he
        subst he
        split
        · exact safe_ok _
        · have := safe_fstR (safe_next hS s hr)
          split
          · split
            · exact safe_ok _
            · exact safe_againStep hL _ hr
          · rename_i he; exact absurd he this
          · simp [R.Safe]
      · exact safe_againStep hL _ hr
    | @list _ l _ hr ho =>
      simp only [Item.find]
      rw [sliceFrom_le (Nat.zero_le _)]
      dsimp only [List.drop_zero]
      unfold loopFlag
      dsimp only
      refine safe_retR (safe_orR ?_ (safe_starListLoop (fun t => safe_contWith hM hM hr hr t) _ _ _))
      split
      · rename_i h0
        exact safe_starOptLoop (fun t => safe_contWith hM hS hr (ho rfl h0) t) _ _
      · exact safe_ok _
    | @group _ vals mn mx _ hr ho =>
      simp only [Item.find]
      rw [sliceFrom_le (Nat.zero_le _)]
      dsimp only [List.drop_zero]
      unfold loopFlag
      dsimp only
      refine safe_retR (safe_orR ?_ (safe_groupLoop (fun v hv => safe_fstR (hS _ _ _ ?_))))
      · split
        · rename_i h0
          exact safe_contWith hS hS (ho h0) (ho h0) _
        · exact safe_ok _
      · simpa using hr v hv

theorem safe_all (fuel : Nat) :
    SafeF false (matchItems fuel) ∧ SafeF true (matchStarItems fuel) ∧
    SafeF true (starLoop fuel) := by
  induction fuel with
  | zero =>
    refine ⟨?_, ?_, ?_⟩ <;> intro s items next _ <;>
      simp [matchItems, matchStarItems, starLoop, R.Safe]
  | succ fuel ih =>
    obtain ⟨hM, hS, hL⟩ := ih
    refine ⟨?_, ?_, ?_⟩
    · intro s items next h
      rw [matchItems]
      exact safe_matchStep hM hS _ _ _ h
    · intro s items next h
      rw [matchStarItems]
      exact safe_starStep hS hL _ _ _ h
    · intro s items next h
      rw [starLoop]
      exact safe_loopStep hM hS hL _ _ _ h

end

end GoMatcher
