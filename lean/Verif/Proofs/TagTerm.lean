import Verif.Proofs.TagOrder
import Verif.Proofs.ParseTotal

/-! # Facts about query terms -/

namespace GoMatcher

theorem parseGlob_ok (s : Str) : ∃ r, parseGlob s = .ok r := by
  have := parseGlob_total s
  unfold R.IsOk at this
  exact this

theorem build_total (lib : GoLib) (t : TTerm) : ∃ r, t.build lib = .ok r := by
  unfold TTerm.build
  split
  · split <;> exact ⟨_, rfl⟩
  · split
    · obtain ⟨r, hr⟩ := parseGlob_ok t.value
      rw [hr, R.bind_ok]
      cases r with
      | error e => exact ⟨_, rfl⟩
      | ok g =>
        dsimp only
        split <;> exact ⟨_, rfl⟩
    · exact ⟨_, rfl⟩

theorem conditionsLoop_total (lib : GoLib) (cs : List Str) : ∃ r, conditionsLoop lib cs = .ok r := by
  induction cs with
  | nil => exact ⟨_, rfl⟩
  | cons c cs ih =>
    rw [conditionsLoop]
    cases parseCondition c with
    | error e => exact ⟨_, rfl⟩
    | ok t =>
      obtain ⟨r, hr⟩ := build_total lib t
      dsimp only
      rw [hr, R.bind_ok]
      cases r with
      | error e => exact ⟨_, rfl⟩
      | ok t' =>
        obtain ⟨q, hq⟩ := ih
        dsimp only
        rw [hq, R.bind_ok]
        cases q <;> exact ⟨_, rfl⟩

theorem parseConditions_total (lib : GoLib) (cs : List Str) :
    ∃ r, parseConditions lib cs = .ok r := by
  obtain ⟨r, hr⟩ := conditionsLoop_total lib cs
  unfold parseConditions
  rw [hr, R.bind_ok]
  cases r <;> exact ⟨_, rfl⟩

/-- One condition, split and built. -/
def termOf (lib : GoLib) (c : Str) : R (Except TagErr TTerm) :=
  match parseCondition c with
  | .error e => .ok (.error e)
  | .ok t => t.build lib

theorem conditionsLoop_iff (lib : GoLib) (cs : List Str) (ts : List TTerm) :
    conditionsLoop lib cs = .ok (.ok ts) ↔
      cs.length = ts.length ∧ ∀ x ∈ cs.zip ts, termOf lib x.1 = .ok (.ok x.2) := by
  induction cs generalizing ts with
  | nil =>
    simp only [conditionsLoop, R.ok.injEq, Except.ok.injEq, List.length_nil, List.zip_nil_left]
    constructor
    · rintro rfl; simp
    · rintro ⟨h, _⟩; exact (List.eq_nil_of_length_eq_zero h.symm).symm
  | cons c cs ih =>
    rw [conditionsLoop]
    cases hp : parseCondition c with
    | error e =>
      cases ts with
      | nil => simp
      | cons t ts =>
        simp [termOf, hp]
    | ok t0 =>
      dsimp only
      obtain ⟨r, hr⟩ := build_total lib t0
      rw [hr, R.bind_ok]
      cases r with
      | error e =>
        cases ts with
        | nil => simp
        | cons t ts => simp [termOf, hp, hr]
      | ok t1 =>
        dsimp only
        obtain ⟨q, hq⟩ := conditionsLoop_total lib cs
        rw [hq, R.bind_ok]
        cases q with
        | error e =>
          cases ts with
          | nil => simp
          | cons t ts =>
            have := ih ts
            rw [hq] at this
            simp only [R.ok.injEq, reduceCtorEq, false_iff, List.length_cons,
              Nat.add_right_cancel_iff, List.zip_cons_cons, List.forall_mem_cons] at this ⊢
            exact fun h => this ⟨h.1, h.2.2⟩
        | ok q =>
          cases ts with
          | nil => simp
          | cons t ts =>
            have := ih ts
            rw [hq] at this
            simp only [R.ok.injEq, Except.ok.injEq, List.length_cons, List.cons.injEq,
              Nat.add_right_cancel_iff, List.zip_cons_cons, List.forall_mem_cons] at this ⊢
            simp only [termOf, hp, hr, R.ok.injEq, Except.ok.injEq]
            constructor
            · rintro ⟨rfl, h⟩
              have := this.1 h
              exact ⟨this.1, rfl, this.2⟩
            · rintro ⟨h1, h2, h3⟩
              exact ⟨h2, this.2 ⟨h1, h3⟩⟩

theorem termOf_total (lib : GoLib) (c : Str) : ∃ r, termOf lib c = .ok r := by
  unfold termOf
  split
  · exact ⟨_, rfl⟩
  · exact build_total lib _

theorem conditionsLoop_error (lib : GoLib) (cs : List Str) :
    (∃ e, conditionsLoop lib cs = .ok (.error e)) ↔
      ∃ c ∈ cs, ∃ e, termOf lib c = .ok (.error e) := by
  induction cs with
  | nil => simp [conditionsLoop]
  | cons c cs ih =>
    simp only [List.mem_cons, exists_eq_or_imp]
    rw [← ih, conditionsLoop]
    cases hp : parseCondition c with
    | error e => simp [termOf, hp]
    | ok t0 =>
      dsimp only
      obtain ⟨r, hr⟩ := build_total lib t0
      rw [hr, R.bind_ok]
      cases r with
      | error e => simp [termOf, hp, hr]
      | ok t1 =>
        dsimp only
        obtain ⟨q, hq⟩ := conditionsLoop_total lib cs
        rw [hq, R.bind_ok]
        cases q <;> simp [termOf, hp, hr]

theorem argsLoop_total (q : Str) (room : Nat) (e : Str) : ∃ r, argsLoop q room e = .ok r := by
  generalize hn : e.length = n
  induction n using Nat.strongRecOn generalizing e room with
  | _ n ih =>
    match e, hn with
    | [], _ => exact ⟨_, by rw [argsLoop]⟩
    | c :: t, hn =>
      rw [argsLoop]
      split
      · rename_i hc
        have htot : ∃ r, parseQuoted (c :: t) = .ok r := by
          simp only [parseQuoted]
          split
          · exact ⟨_, rfl⟩
          · split <;> exact ⟨_, rfl⟩
        obtain ⟨r, hr⟩ := htot
        split
        · rename_i arg rest heq
          have hl := parseQuoted_length heq
          split
          · exact ih _ (by omega) room rest rfl
          · cases room with
            | zero => exact ⟨_, rfl⟩
            | succ room =>
              obtain ⟨x, hx⟩ := ih _ (by omega) room rest rfl
              dsimp only
              rw [hx, R.bind_ok]
              cases x <;> exact ⟨_, rfl⟩
        · exact ⟨_, rfl⟩
        · rename_i heq; rw [hr] at heq; cases heq
        · rename_i heq; rw [hr] at heq; cases heq
      · split
        · exact ih _ (by simp only [List.length_cons] at hn; omega) room t rfl
        · exact ⟨_, rfl⟩

theorem seriesByTagArgs_total (q : Str) (n : Nat) : ∃ r, seriesByTagArgs q n = .ok r := by
  unfold seriesByTagArgs
  dsimp only
  split
  · exact ⟨_, rfl⟩
  · split
    · exact ⟨_, rfl⟩
    · exact argsLoop_total _ _ _

theorem parseSeriesByTag_total (lib : GoLib) (q : Str) : ∃ r, parseSeriesByTag lib q = .ok r := by
  obtain ⟨r, hr⟩ := seriesByTagArgs_total q 128
  unfold parseSeriesByTag
  rw [hr, R.bind_ok]
  cases r with
  | error e => exact ⟨_, rfl⟩
  | ok cs => exact parseConditions_total lib cs

/-! ## Reading conditions back -/

/-- Conditions in quotes, separated by commas. -/
def quoted : List Str → Str
  | [] => []
  | [c] => b!"'" ++ c ++ b!"'"
  | c :: cs => b!"'" ++ c ++ b!"'" ++ b!"," ++ quoted cs

theorem parseQuoted_text (c rest : Str) (h : (39 : UInt8) ∉ c) :
    parseQuoted (39 :: (c ++ 39 :: rest)) = .ok (.ok (c, rest)) := by
  have : ∀ a : Str, (39 : UInt8) ∉ a → cutByte 39 (a ++ 39 :: rest) = (a, rest, true) := by
    intro a ha
    induction a with
    | nil => simp [cutByte]
    | cons x a ih =>
      rw [List.mem_cons, not_or] at ha
      rw [List.cons_append, cutByte, if_neg (fun e => ha.1 e.symm), ih ha.2]
  simp only [parseQuoted]
  rw [if_neg (by simp), this c h]
  rfl

theorem argsLoop_quote (q : Str) (room : Nat) (c rest : Str) (h : (39 : UInt8) ∉ c) (hc : c ≠ []) :
    argsLoop q (room + 1) (39 :: (c ++ 39 :: rest)) =
      (do match ← argsLoop q room rest with
          | .error e => .ok (.error e)
          | .ok as => .ok (.ok (c :: as))) := by
  rw [argsLoop, if_pos (by simp)]
  split
  · rename_i arg r heq
    rw [parseQuoted_text c rest h] at heq
    simp only [R.ok.injEq, Except.ok.injEq, Prod.mk.injEq] at heq
    obtain ⟨rfl, rfl⟩ := heq
    rw [if_neg hc]
    rfl
  · rename_i heq; rw [parseQuoted_text c rest h] at heq; cases heq
  · rename_i heq; rw [parseQuoted_text c rest h] at heq; cases heq
  · rename_i heq; rw [parseQuoted_text c rest h] at heq; cases heq

theorem argsLoop_comma (q : Str) (room : Nat) (t : Str) :
    argsLoop q room (44 :: t) = argsLoop q room t := by
  rw [argsLoop, if_neg (by decide), if_pos (by decide)]

theorem argsLoop_quoted (q : Str) (cs : List Str) (hc : ∀ c ∈ cs, c ≠ [] ∧ (39 : UInt8) ∉ c)
    (room : Nat) (hr : cs.length ≤ room) : argsLoop q room (quoted cs) = .ok (.ok cs) := by
  induction cs generalizing room with
  | nil => rw [quoted, argsLoop]
  | cons c cs ih =>
    obtain ⟨h1, h2⟩ := hc c (by simp)
    obtain ⟨room, rfl⟩ : ∃ n, room = n + 1 := ⟨room - 1, by simp at hr; omega⟩
    have ih := ih (fun c h => hc c (by simp [h])) room (by simpa using hr)
    cases cs with
    | nil =>
      have : quoted [c] = 39 :: (c ++ 39 :: []) := by simp [quoted]
      rw [this, argsLoop_quote _ _ _ _ h2 h1, show ([] : Str) = quoted [] from rfl, ih]
      rfl
    | cons d cs =>
      have : quoted (c :: d :: cs) = 39 :: (c ++ 39 :: (44 :: quoted (d :: cs))) := by
        simp [quoted]
      rw [this, argsLoop_quote _ _ _ _ h2 h1, argsLoop_comma, ih]
      rfl

/-- A query text with the given conditions. -/
def queryText (cs : List Str) : Str := b!"seriesByTag(" ++ quoted cs ++ b!")"

theorem trimBlank_id (s : Str) (h1 : s.head? ≠ some 32) (h2 : s.getLast? ≠ some 32) :
    trimBlank s = s := by
  have key : ∀ l : Str, l.head? ≠ some 32 → l.dropWhile (· = 32) = l := by
    intro l hl
    cases l with
    | nil => rfl
    | cons a l =>
      rw [List.dropWhile_cons, if_neg]
      simpa using hl
  unfold trimBlank
  rw [key s h1, key _ (by rw [List.head?_reverse]; exact h2), List.reverse_reverse]

theorem seriesByTagArgs_text (cs : List Str) (hc : ∀ c ∈ cs, c ≠ [] ∧ (39 : UInt8) ∉ c)
    (n : Nat) (hn : cs.length ≤ n) : seriesByTagArgs (queryText cs) n = .ok (.ok cs) := by
  have ht : trimBlank (queryText cs) = queryText cs := by
    apply trimBlank_id
    · simp [queryText]
    · unfold queryText; rw [List.getLast?_concat]; decide
  unfold seriesByTagArgs
  rw [ht]
  dsimp only
  have h1 : hasPrefix (queryText cs) (b!"seriesByTag(") = true := by
    unfold hasPrefix queryText
    rw [List.append_assoc, List.isPrefixOf_iff_prefix]
    exact List.prefix_append _ _
  have h2 : (queryText cs).getLast? = some 41 := by unfold queryText; rw [List.getLast?_concat]
  have h3 : ((queryText cs).drop 12).dropLast = quoted cs := by
    unfold queryText
    rw [List.append_assoc, List.drop_append]
    simp
  rw [h1, h2, h3, if_neg (by simp), if_neg (by simp)]
  exact argsLoop_quoted _ cs hc n hn

theorem termTexts_quoted (ts : List TTerm) : termTexts ts = quoted (ts.map TTerm.text) := by
  induction ts with
  | nil => rfl
  | cons t ts ih =>
    cases ts with
    | nil => rfl
    | cons u ts => simp only [termTexts, List.map_cons, quoted] at ih ⊢; rw [ih]

theorem termsText_eq (ts : List TTerm) : termsText ts = queryText (ts.map TTerm.text) := by
  rw [termsText, termTexts_quoted]; rfl

theorem termsText_ids {a b : List TTerm} (h : a.map TTerm.id = b.map TTerm.id) :
    termsText a = termsText b := by
  have : ∀ l : List TTerm, l.map TTerm.text =
      (l.map TTerm.id).map fun x => x.1 ++ x.2.1.text ++ x.2.2 := by
    intro l; simp [TTerm.text, TTerm.id]
  rw [termsText_eq, termsText_eq, this, this, h]

/-- The parser takes at most `room` arguments. -/
theorem argsLoop_length (q : Str) (room : Nat) (e : Str) (as : List Str)
    (h : argsLoop q room e = .ok (.ok as)) : as.length ≤ room := by
  generalize hn : e.length = n
  induction n using Nat.strongRecOn generalizing e room as with
  | _ n ih =>
    match e, hn with
    | [], _ =>
      rw [argsLoop] at h
      simp only [R.ok.injEq, Except.ok.injEq] at h
      subst h
      simp
    | c :: t, hn =>
      rw [argsLoop] at h
      split at h
      · split at h
        · rename_i arg rest heq
          have hl := parseQuoted_length heq
          split at h
          · exact ih _ (by omega) room rest as h rfl
          · cases room with
            | zero => simp at h
            | succ room =>
              dsimp only at h
              obtain ⟨x, hx⟩ := argsLoop_total q room rest
              rw [hx, R.bind_ok] at h
              cases x with
              | error e => simp at h
              | ok bs =>
                simp only [R.ok.injEq, Except.ok.injEq] at h
                subst h
                have := ih _ (by omega) room rest bs hx rfl
                simp only [List.length_cons]
                omega
        · simp at h
        · cases h
        · cases h
      · split at h
        · exact ih _ (by simp only [List.length_cons] at hn; omega) room t as h rfl
        · simp at h

/-! ## White space -/

theorem trimFront_fix (enc : List Str) (henc : ∀ e ∈ enc, e ≠ []) :
    ∀ (n : Nat) (s : Str), s.length ≤ n →
      enc.find? (fun e => e.isPrefixOf (trimFront enc n s)) = none := by
  intro n
  induction n with
  | zero =>
    intro s hs
    have : s = [] := List.eq_nil_of_length_eq_zero (by omega)
    subst this
    rw [trimFront, List.find?_eq_none]
    intro e he h
    have := henc e he
    cases e with
    | nil => exact this rfl
    | cons a e => simp at h
  | succ n ih =>
    intro s hs
    rw [trimFront]
    cases hf : enc.find? (fun e => e.isPrefixOf s) with
    | none => dsimp only; exact hf
    | some e =>
      dsimp only
      apply ih
      have he := henc e (List.mem_of_find?_eq_some hf)
      have : 0 < e.length := List.length_pos_iff.2 he
      rw [List.length_drop]
      omega

theorem trimFront_suffix (enc : List Str) (n : Nat) (s : Str) : trimFront enc n s <:+ s := by
  induction n generalizing s with
  | zero => exact List.suffix_refl _
  | succ n ih =>
    rw [trimFront]
    split
    · exact (ih _).trans (List.drop_suffix _ _)
    · exact List.suffix_refl _

theorem trimFront_none (enc : List Str) (n : Nat) (s : Str)
    (h : enc.find? (fun e => e.isPrefixOf s) = none) : trimFront enc n s = s := by
  cases n with
  | zero => rfl
  | succ n => rw [trimFront, h]

theorem spaceEnc_ne : ∀ e ∈ spaceEnc, e ≠ [] := by decide

theorem trimSpace_idem (s : Str) : trimSpace (trimSpace s) = trimSpace s := by
  have hr : ∀ e ∈ spaceEnc.map List.reverse, e ≠ [] := by decide
  unfold trimSpace
  dsimp only
  generalize ha : trimFront spaceEnc s.length s = a
  have h1 : spaceEnc.find? (fun e => e.isPrefixOf a) = none := by
    rw [← ha]; exact trimFront_fix _ spaceEnc_ne _ _ (Nat.le_refl _)
  generalize hb : trimFront (spaceEnc.map List.reverse) a.length a.reverse = b
  have h2 : (spaceEnc.map List.reverse).find? (fun e => e.isPrefixOf b) = none := by
    rw [← hb]; exact trimFront_fix _ hr _ _ (by simp)
  have h3 : b <:+ a.reverse := by rw [← hb]; exact trimFront_suffix _ _ _
  have h4 : b.reverse <+: a := by
    have := List.reverse_prefix.2 h3
    rwa [List.reverse_reverse] at this
  have h5 : spaceEnc.find? (fun e => e.isPrefixOf b.reverse) = none := by
    rw [List.find?_eq_none] at h1 ⊢
    intro e he h
    apply h1 e he
    rw [List.isPrefixOf_iff_prefix] at h ⊢
    exact h.trans h4
  rw [trimFront_none _ _ _ h5, List.reverse_reverse, trimFront_none _ _ _ h2]

theorem trimSpace_mem {s : Str} {c : UInt8} (h : c ∈ trimSpace s) : c ∈ s := by
  unfold trimSpace at h
  dsimp only at h
  rw [List.mem_reverse] at h
  have := (trimFront_suffix _ _ _).mem h
  rw [List.mem_reverse] at this
  exact (trimFront_suffix _ _ _).mem this

theorem indexP_spec {p : UInt8 → Bool} {s : Str} {i : Nat} (h : indexP p s = some i) :
    i < s.length ∧ ∀ c ∈ s.take i, p c = false := by
  induction s generalizing i with
  | nil => simp [indexP] at h
  | cons b t ih =>
    rw [indexP] at h
    split at h
    · simp only [Option.some.injEq] at h
      subst h
      simp
    · rename_i hb
      cases hi : indexP p t with
      | none => rw [hi] at h; simp at h
      | some j =>
        rw [hi] at h
        simp only [Option.map_some, Option.some.injEq] at h
        subst h
        obtain ⟨h1, h2⟩ := ih hi
        refine ⟨by simp only [List.length_cons]; omega, ?_⟩
        rw [List.take_succ_cons]
        simp only [List.forall_mem_cons]
        exact ⟨by simpa using hb, h2⟩

theorem indexP_append {p : UInt8 → Bool} {a : Str} {c : UInt8} {b : Str} (h : ∀ x ∈ a, p x = false)
    (hc : p c = true) : indexP p (a ++ c :: b) = some a.length := by
  induction a with
  | nil => simp [indexP, hc]
  | cons x a ih =>
    simp only [List.forall_mem_cons] at h
    rw [List.cons_append, indexP, h.1, ih h.2]
    simp

theorem condKey_spec {s : Str} (h2 : ∀ x ∈ s, isOpByte x = false) :
    trimSpace (condKey s) = condKey s ∧ (∀ x ∈ condKey s, isOpByte x = false) ∧
      condKey s ≠ b!"name" := by
  unfold condKey
  dsimp only
  split
  · decide +kernel
  · rename_i hn
    exact ⟨trimSpace_idem _, fun x hx => h2 x (trimSpace_mem hx), hn⟩

theorem parseOp_spec {key s : Str} {t : TTerm} (h : parseOp key s = .ok t) :
    t.key = key ∧ trimSpace t.value = t.value ∧ t.hasWildcard = false ∧ t.glob = none ∧
      t.re = none := by
  unfold parseOp at h
  split at h
  · split at h
    · simp only [Except.ok.injEq] at h
      subst h
      exact ⟨rfl, trimSpace_idem _, rfl, rfl, rfl⟩
    · simp only [Except.ok.injEq] at h
      subst h
      exact ⟨rfl, trimSpace_idem _, rfl, rfl, rfl⟩
  · split at h
    · split at h
      · simp only [Except.ok.injEq] at h
        subst h
        exact ⟨rfl, trimSpace_idem _, rfl, rfl, rfl⟩
      · simp only [Except.ok.injEq] at h
        subst h
        exact ⟨rfl, trimSpace_idem _, rfl, rfl, rfl⟩
    · simp at h

/-- The shape of a split condition. -/
theorem parseCondition_spec {c : Str} {t : TTerm} (h : parseCondition c = .ok t) :
    trimSpace t.key = t.key ∧ (∀ x ∈ t.key, isOpByte x = false) ∧ t.key ≠ b!"name" ∧
    trimSpace t.value = t.value ∧ t.hasWildcard = false ∧ t.glob = none ∧ t.re = none := by
  unfold parseCondition at h
  cases hi : indexP isOpByte c with
  | none => rw [hi] at h; simp at h
  | some pos =>
    rw [hi] at h
    dsimp only at h
    split at h
    · simp at h
    · obtain ⟨h1, h3⟩ := parseOp_spec h
      rw [h1]
      obtain ⟨k1, k2, k3⟩ := condKey_spec (indexP_spec hi).2
      exact ⟨k1, k2, k3, h3⟩

/-- Reading back key, operator and value. -/
theorem parseCondition_text (key value : Str) (op : TagOp) (h1 : trimSpace key = key)
    (h2 : ∀ x ∈ key, isOpByte x = false) (h3 : key ≠ b!"name") (h4 : key ≠ [])
    (h5 : trimSpace value = value) (h6 : op = .eq ∨ op = .ne → value.head? ≠ some 126) :
    parseCondition (key ++ op.text ++ value) = .ok { key := key, op := op, value := value } := by
  obtain ⟨o, r, ho, hop⟩ : ∃ o r, op.text = o :: r ∧ isOpByte o = true := by
    cases op
    · exact ⟨61, [], rfl, by decide⟩
    · exact ⟨61, [126], rfl, by decide⟩
    · exact ⟨33, [61], rfl, by decide⟩
    · exact ⟨33, [61, 126], rfl, by decide⟩
  have hi : indexP isOpByte (key ++ op.text ++ value) = some key.length := by
    rw [ho, List.append_assoc, List.cons_append]
    exact indexP_append h2 hop
  have hl : ¬ key.length < 1 := by
    have := List.length_pos_iff.2 h4
    omega
  unfold parseCondition
  rw [hi]
  dsimp only
  rw [if_neg hl]
  have ht : (key ++ op.text ++ value).take key.length = key := by
    rw [List.append_assoc, List.take_left]
  have hd : (key ++ op.text ++ value).drop key.length = op.text ++ value := by
    rw [List.append_assoc, List.drop_left]
  have hk : condKey key = key := by
    unfold condKey
    dsimp only
    rw [h1, if_neg h3]
  rw [ht, hd, hk]
  unfold parseOp
  have htilde : op = .eq ∨ op = .ne → ∀ v : Str, value ≠ 126 :: v := by
    intro h v e
    exact h6 h (by rw [e]; rfl)
  cases op with
  | eq =>
    have : hasPrefix (TagOp.eq.text ++ value) (b!"=~") = false := by
      cases value with
      | nil => decide
      | cons x v =>
        have : x ≠ 126 := by
          rintro rfl
          exact htilde (.inl rfl) v rfl
        simp [TagOp.text, hasPrefix, List.isPrefixOf, this.symm]
    rw [if_pos (by simp [TagOp.text, hasPrefix, List.isPrefixOf]), this]
    simp [TagOp.text, h5]
  | mt =>
    rw [if_pos (by simp [TagOp.text, hasPrefix, List.isPrefixOf]),
      if_pos (by simp [TagOp.text, hasPrefix, List.isPrefixOf])]
    simp [TagOp.text, h5]
  | ne =>
    have : hasPrefix (TagOp.ne.text ++ value) (b!"!=~") = false := by
      cases value with
      | nil => decide
      | cons x v =>
        have : x ≠ 126 := by
          rintro rfl
          exact htilde (.inr rfl) v rfl
        simp [TagOp.text, hasPrefix, List.isPrefixOf, this.symm]
    rw [if_neg (by simp [TagOp.text, hasPrefix, List.isPrefixOf]),
      if_pos (by simp [TagOp.text, hasPrefix, List.isPrefixOf]), this]
    simp [TagOp.text, h5]
  | nm =>
    rw [if_neg (by simp [TagOp.text, hasPrefix, List.isPrefixOf]),
      if_pos (by simp [TagOp.text, hasPrefix, List.isPrefixOf]),
      if_pos (by simp [TagOp.text, hasPrefix, List.isPrefixOf])]
    simp [TagOp.text, h5]

end GoMatcher
