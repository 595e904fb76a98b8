import Verif.Spec.Query
import Verif.Proofs.TagTerm
import Verif.Proofs.Utf8

/-! # The query parser reads `Spec/Query` -/

namespace GoMatcher

/-! ## White space -/

theorem spaceEnc_eq : spaceEnc = spaceChars.map (fun c => utf8 [c]) := by decide +kernel

theorem trimFront_parts (enc : List Str) (n : Nat) (s : Str) :
    ∃ l : List Str, (∀ e ∈ l, e ∈ enc) ∧ s = l.flatten ++ trimFront enc n s := by
  induction n generalizing s with
  | zero => exact ⟨[], by simp, rfl⟩
  | succ n ih =>
    rw [trimFront]
    cases hf : enc.find? (fun e => e.isPrefixOf s) with
    | none => exact ⟨[], by simp, rfl⟩
    | some e =>
      dsimp only
      obtain ⟨l, h1, h2⟩ := ih (s.drop e.length)
      refine ⟨e :: l, ?_, ?_⟩
      · simp only [List.forall_mem_cons]
        exact ⟨List.mem_of_find?_eq_some hf, h1⟩
      · have hp := List.find?_some hf
        rw [List.isPrefixOf_iff_prefix] at hp
        obtain ⟨r, rfl⟩ := hp
        rw [List.drop_left] at h2 ⊢
        rw [List.flatten_cons, List.append_assoc, ← h2]

/-- Encodings none of which begins another one are removed one by one. -/
theorem trimFront_append {enc : List Str} (hne : ∀ e ∈ enc, e ≠ [])
    (hfree : ∀ e ∈ enc, ∀ e' ∈ enc, e <+: e' → e = e') (l : List Str) (hl : ∀ e ∈ l, e ∈ enc)
    (r : Str) (hr : ∀ e ∈ enc, ¬ e <+: r) (n : Nat) (hn : (l.flatten ++ r).length ≤ n) :
    trimFront enc n (l.flatten ++ r) = r := by
  induction l generalizing n with
  | nil =>
    apply trimFront_none
    rw [List.find?_eq_none]
    intro e he h
    rw [List.isPrefixOf_iff_prefix] at h
    exact hr e he h
  | cons e l ih =>
    simp only [List.forall_mem_cons] at hl
    have hpos : 0 < e.length := List.length_pos_iff.2 (hne e hl.1)
    simp only [List.flatten_cons, List.append_assoc] at hn ⊢
    have hlen : (e ++ (l.flatten ++ r)).length = e.length + (l.flatten ++ r).length :=
      List.length_append
    obtain ⟨n, rfl⟩ : ∃ k, n = k + 1 := ⟨n - 1, by omega⟩
    rw [trimFront]
    cases hf : enc.find? (fun e' => e'.isPrefixOf (e ++ (l.flatten ++ r))) with
    | none =>
      rw [List.find?_eq_none] at hf
      exact absurd (List.isPrefixOf_iff_prefix.2 (List.prefix_append _ _)) (hf e hl.1)
    | some e' =>
      have hp := List.find?_some hf
      rw [List.isPrefixOf_iff_prefix] at hp
      have hm := List.mem_of_find?_eq_some hf
      have : e' = e := by
        rcases List.prefix_or_prefix_of_prefix hp (List.prefix_append e (l.flatten ++ r)) with h | h
        · exact hfree _ hm _ hl.1 h
        · exact (hfree _ hl.1 _ hm h).symm
      subst this
      dsimp only
      rw [List.drop_left]
      exact ih hl.2 n (by omega)

theorem spaceEnc_free : ∀ e ∈ spaceEnc, ∀ e' ∈ spaceEnc, e <+: e' → e = e' := by decide +kernel
theorem spaceEnc_free_rev : ∀ e ∈ spaceEnc.map List.reverse, ∀ e' ∈ spaceEnc.map List.reverse,
    e <+: e' → e = e' := by decide +kernel

/-- Spaces begin with a byte that stands nowhere else in them. -/
theorem spaceEnc_lead : ∀ e ∈ spaceEnc, ∀ e' ∈ spaceEnc, ∀ x ∈ e.tail, e'.head? ≠ some x := by
  decide +kernel

theorem utf8_flatten (a : List Char) : utf8 a = (a.map fun c => utf8 [c]).flatten := by
  induction a with
  | nil => rfl
  | cons c a ih =>
    rw [List.map_cons, List.flatten_cons, ← ih, ← utf8_append]
    rfl

theorem utf8_of_parts (l : List Str) (h : ∀ e ∈ l, e ∈ spaceEnc) :
    ∃ a : List Char, (∀ c ∈ a, c ∈ spaceChars) ∧ l.flatten = utf8 a := by
  induction l with
  | nil => exact ⟨[], by simp, rfl⟩
  | cons e l ih =>
    simp only [List.forall_mem_cons] at h
    obtain ⟨a, h1, h2⟩ := ih h.2
    have he := h.1
    rw [spaceEnc_eq, List.mem_map] at he
    obtain ⟨c, hc, rfl⟩ := he
    refine ⟨c :: a, by simp only [List.forall_mem_cons]; exact ⟨hc, h1⟩, ?_⟩
    rw [List.flatten_cons, h2, ← utf8_append]
    rfl

theorem parts_of_utf8 {a : List Char} (h : ∀ c ∈ a, c ∈ spaceChars) :
    ∃ l : List Str, (∀ e ∈ l, e ∈ spaceEnc) ∧ utf8 a = l.flatten :=
  ⟨a.map fun c => utf8 [c], by
    intro e he
    obtain ⟨c, hc, rfl⟩ := List.mem_map.1 he
    rw [spaceEnc_eq]
    exact List.mem_map.2 ⟨c, h c hc, rfl⟩, utf8_flatten a⟩

theorem reverse_flatten (l : List Str) :
    l.flatten.reverse = (l.reverse.map List.reverse).flatten := by
  rw [List.reverse_flatten, List.map_reverse]

theorem trims_trimSpace (s : Str) : Trims s (trimSpace s) := by
  have hr : ∀ e ∈ spaceEnc.map List.reverse, e ≠ [] := by decide
  unfold trimSpace
  dsimp only
  generalize ha : trimFront spaceEnc s.length s = a
  generalize hb : trimFront (spaceEnc.map List.reverse) a.length a.reverse = b
  obtain ⟨l, l1, l2⟩ := trimFront_parts spaceEnc s.length s
  obtain ⟨m, m1, m2⟩ := trimFront_parts (spaceEnc.map List.reverse) a.length a.reverse
  rw [ha] at l2
  rw [hb] at m2
  obtain ⟨u, u1, u2⟩ := utf8_of_parts l l1
  obtain ⟨v, v1, v2⟩ := utf8_of_parts (m.reverse.map List.reverse) (by
    intro e he
    obtain ⟨e', he', rfl⟩ := List.mem_map.1 he
    have := m1 e' (List.mem_reverse.1 he')
    obtain ⟨e'', k, rfl⟩ := List.mem_map.1 this
    rwa [List.reverse_reverse])
  have h1 : spaceEnc.find? (fun e => e.isPrefixOf a) = none := by
    rw [← ha]; exact trimFront_fix _ spaceEnc_ne _ _ (Nat.le_refl _)
  have h2 : (spaceEnc.map List.reverse).find? (fun e => e.isPrefixOf b) = none := by
    rw [← hb]; exact trimFront_fix _ hr _ _ (by simp)
  have h3 : a = b.reverse ++ utf8 v := by
    rw [← v2, ← reverse_flatten, ← List.reverse_append, ← m2, List.reverse_reverse]
  refine ⟨⟨u, v, u1, v1, by rw [List.append_assoc, ← h3, ← u2]; exact l2⟩, ?_⟩
  intro c hc
  have hm : utf8 [c] ∈ spaceEnc := by rw [spaceEnc_eq]; exact List.mem_map.2 ⟨c, hc, rfl⟩
  rw [List.find?_eq_none] at h1 h2
  constructor
  · intro h
    refine h1 _ hm (List.isPrefixOf_iff_prefix.2 (h.trans ?_))
    rw [h3]
    exact List.prefix_append _ _
  · intro h
    refine h2 _ (List.mem_map.2 ⟨_, hm, rfl⟩) (List.isPrefixOf_iff_prefix.2 ?_)
    have := List.reverse_prefix.2 h
    rwa [List.reverse_reverse] at this

theorem trims_iff (s t : Str) : Trims s t ↔ trimSpace s = t := by
  constructor
  · rintro ⟨⟨a, b, ha, hb, rfl⟩, h⟩
    have h' : ∀ e ∈ spaceEnc, ¬ e <+: t ∧ ¬ e <:+ t := by
      intro e he
      rw [spaceEnc_eq, List.mem_map] at he
      obtain ⟨c, hc, rfl⟩ := he
      exact h c hc
    obtain ⟨l, l1, l2⟩ := parts_of_utf8 ha
    obtain ⟨m, m1, m2⟩ := parts_of_utf8 hb
    rw [l2, m2]
    have hnil : ∀ e ∈ spaceEnc, ¬ e <+: ([] : Str) := by
      intro e he hp
      exact spaceEnc_ne e he (List.prefix_nil.1 hp)
    have hnilr : ∀ e ∈ spaceEnc.map List.reverse, ¬ e <+: ([] : Str) := by
      intro e he hp
      rw [List.prefix_nil.1 hp] at he
      revert he
      decide
    unfold trimSpace
    dsimp only
    cases t with
    | nil =>
      have : trimFront spaceEnc (l.flatten ++ [] ++ m.flatten).length (l.flatten ++ [] ++ m.flatten) = [] := by
        have := trimFront_append spaceEnc_ne spaceEnc_free (l ++ m) (by
          intro e he
          rcases List.mem_append.1 he with he | he
          · exact l1 e he
          · exact m1 e he) [] hnil _ (Nat.le_refl _)
        simpa only [List.flatten_append, List.append_nil] using this
      rw [this]
      rfl
    | cons x t =>
      have h1 : trimFront spaceEnc (l.flatten ++ (x :: t) ++ m.flatten).length
          (l.flatten ++ (x :: t) ++ m.flatten) = x :: t ++ m.flatten := by
        rw [List.append_assoc]
        refine trimFront_append spaceEnc_ne spaceEnc_free l l1 _ ?_ _ (Nat.le_refl _)
        intro e he hp
        rcases List.prefix_or_prefix_of_prefix hp (List.prefix_append (x :: t) m.flatten) with k | k
        · exact (h' e he).1 k
        · -- the rest of `e` begins with the first byte of a space
          obtain ⟨r, rfl⟩ := k
          cases r with
          | nil => exact (h' _ he).1 (by simp)
          | cons y r =>
            rw [List.prefix_append_right_inj] at hp
            cases m with
            | nil => simp at hp
            | cons e' m =>
              have he' := m1 e' (by simp)
              cases e' with
              | nil => exact spaceEnc_ne _ he' rfl
              | cons z e' =>
                simp only [List.flatten_cons, List.cons_append, List.cons_prefix_cons] at hp
                exact spaceEnc_lead _ he _ he' y (by simp) (by simp [hp.1])
      rw [h1, List.reverse_append, reverse_flatten]
      have h2 := trimFront_append (enc := spaceEnc.map List.reverse) (by decide) spaceEnc_free_rev
        (m.reverse.map List.reverse) (by
          intro e he
          obtain ⟨e', he', rfl⟩ := List.mem_map.1 he
          exact List.mem_map.2 ⟨e', m1 e' (List.mem_reverse.1 he'), rfl⟩) (x :: t).reverse (by
          intro e he hp
          obtain ⟨e', he', rfl⟩ := List.mem_map.1 he
          exact (h' e' he').2 (List.reverse_prefix.1 hp)) (x :: t ++ m.flatten).length (by
          rw [← reverse_flatten]; simp; omega)
      rw [h2, List.reverse_reverse]
  · rintro rfl
    exact trims_trimSpace s

/-! ## Conditions -/

theorem opSign_eq (op : TagOp) : op.text = opSign op := by cases op <;> rfl

theorem isOpByte_false (x : UInt8) : isOpByte x = false ↔ x ≠ 61 ∧ x ≠ 126 ∧ x ≠ 33 := by
  simp [isOpByte]

theorem keyText_iff (s k : Str) : KeyText s k ↔ condKey s = k := by
  unfold KeyText condKey
  dsimp only
  constructor
  · rintro ⟨t, h1, h2, h3⟩
    rw [(trims_iff s t).1 h1]
    split
    · rename_i h; exact (h2 h).symm
    · rename_i h; exact (h3 h).symm
  · intro h
    refine ⟨trimSpace s, trims_trimSpace s, ?_, ?_⟩
    · intro e
      rw [if_pos e] at h
      exact h.symm
    · intro e
      rw [if_neg e] at h
      exact h.symm

theorem parseOp_sign (key v0 : Str) (op : TagOp) (h : op = .eq ∨ op = .ne → v0.head? ≠ some 126) :
    parseOp key (opSign op ++ v0) = .ok { key := key, op := op, value := trimSpace v0 } := by
  have ht : op = .eq ∨ op = .ne → hasPrefix v0 [126] = false := by
    intro e
    have := h e
    cases v0 with
    | nil => rfl
    | cons x v =>
      have : x ≠ 126 := by
        rintro rfl
        exact this rfl
      simp [hasPrefix, List.isPrefixOf, this.symm]
  unfold parseOp
  cases op with
  | eq =>
    have := ht (.inl rfl)
    simp only [hasPrefix] at this
    simp [opSign, hasPrefix, List.isPrefixOf, this]
  | mt => simp [opSign, hasPrefix, List.isPrefixOf]
  | ne =>
    have := ht (.inr rfl)
    simp only [hasPrefix] at this
    simp [opSign, hasPrefix, List.isPrefixOf, this]
  | nm => simp [opSign, hasPrefix, List.isPrefixOf]

theorem parseOp_inv {key s : Str} {t : TTerm} (h : parseOp key s = .ok t) :
    ∃ v0, s = opSign t.op ++ v0 ∧ (t.op = .eq ∨ t.op = .ne → v0.head? ≠ some 126) ∧
      t = { key := key, op := t.op, value := trimSpace v0 } := by
  have key' : ∀ {p : Str}, hasPrefix s p = true → s = p ++ s.drop p.length := by
    intro p hp
    simp only [hasPrefix, List.isPrefixOf_iff_prefix] at hp
    obtain ⟨r, rfl⟩ := hp
    rw [List.drop_left]
  have tilde : ∀ {p : Str} {r : Str}, s = p ++ r → ¬ hasPrefix s (p ++ [126]) = true →
      r.head? ≠ some 126 := by
    rintro p r rfl h e
    cases r with
    | nil => cases e
    | cons x r =>
      simp only [List.head?_cons, Option.some.injEq] at e
      subst e
      apply h
      simp only [hasPrefix, List.isPrefixOf_iff_prefix]
      exact ⟨r, by simp⟩
  unfold parseOp at h
  split at h
  · rename_i h1
    split at h
    · rename_i h2
      simp only [Except.ok.injEq] at h
      subst h
      exact ⟨_, key' h2, by simp, rfl⟩
    · rename_i h2
      simp only [Except.ok.injEq] at h
      subst h
      exact ⟨_, key' h1, fun _ => tilde (key' h1) h2, rfl⟩
  · split at h
    · rename_i h1
      split at h
      · rename_i h2
        simp only [Except.ok.injEq] at h
        subst h
        exact ⟨_, key' h2, by simp, rfl⟩
      · rename_i h2
        simp only [Except.ok.injEq] at h
        subst h
        exact ⟨_, key' h1, fun _ => tilde (key' h1) h2, rfl⟩
    · simp at h

theorem condText_iff (c k : Str) (op : TagOp) (v : Str) :
    CondText c k op v ↔ parseCondition c = .ok { key := k, op := op, value := v } := by
  constructor
  · rintro ⟨k0, v0, rfl, h1, h2, h3, h4, h5⟩
    rw [trims_iff] at h5
    rw [keyText_iff] at h4
    obtain ⟨o, r, ho, hop⟩ : ∃ o r, opSign op = o :: r ∧ isOpByte o = true := by
      cases op
      · exact ⟨61, [], rfl, by decide⟩
      · exact ⟨61, [126], rfl, by decide⟩
      · exact ⟨33, [61], rfl, by decide⟩
      · exact ⟨33, [61, 126], rfl, by decide⟩
    have hi : indexP isOpByte (k0 ++ opSign op ++ v0) = some k0.length := by
      rw [ho, List.append_assoc, List.cons_append]
      exact indexP_append (fun x hx => (isOpByte_false x).2 (h2 x hx)) hop
    have hl : ¬ k0.length < 1 := by
      have := List.length_pos_iff.2 h1
      omega
    unfold parseCondition
    rw [hi]
    dsimp only
    rw [if_neg hl, List.append_assoc, List.take_left, List.drop_left, parseOp_sign _ _ _ h3, h4, h5]
  · intro h
    unfold parseCondition at h
    cases hi : indexP isOpByte c with
    | none => rw [hi] at h; simp at h
    | some pos =>
      rw [hi] at h
      dsimp only at h
      split at h
      · simp at h
      · rename_i hpos
        obtain ⟨v0, e1, e2, e3⟩ := parseOp_inv h
        simp only [TTerm.mk.injEq, true_and, and_true] at e1 e2 e3
        obtain ⟨i1, i2⟩ := indexP_spec hi
        refine ⟨c.take pos, v0, ?_, ?_, ?_, e2, (keyText_iff _ _).2 e3.1.symm, (trims_iff _ _).2 e3.2.symm⟩
        · rw [List.append_assoc, ← e1, List.take_append_drop]
        · intro e
          have := congrArg List.length e
          rw [List.length_take] at this
          simp only [List.length_nil] at this
          omega
        · intro x hx
          exact (isOpByte_false x).1 (i2 x hx)

/-! ## The list of conditions -/

theorem cutByte_split (q : UInt8) (s : Str) : q ∉ (cutByte q s).1 ∧
    ((cutByte q s).2.2 = true → s = (cutByte q s).1 ++ q :: (cutByte q s).2.1) := by
  induction s with
  | nil => simp [cutByte]
  | cons c s ih =>
    rw [cutByte]
    split
    · rename_i h; simp [h]
    · rename_i h
      refine ⟨?_, fun e => ?_⟩
      · simp only [List.mem_cons, not_or]
        exact ⟨fun e => h e.symm, ih.1⟩
      · dsimp only at e ⊢
        rw [List.cons_append, ← ih.2 e]

theorem cutByte_at (q : UInt8) (w s : Str) (h : q ∉ w) : cutByte q (w ++ q :: s) = (w, s, true) := by
  induction w with
  | nil => simp [cutByte]
  | cons c a ih =>
    rw [List.mem_cons, not_or] at h
    rw [List.cons_append, cutByte, if_neg (fun e => h.1 e.symm), ih h.2]

theorem parseQuoted_iff (s w e : Str) : parseQuoted s = .ok (.ok (w, e)) ↔
    ∃ q, (q = 39 ∨ q = 34) ∧ q ∉ w ∧ s = q :: (w ++ q :: e) := by
  constructor
  · intro h
    cases s with
    | nil => simp [parseQuoted] at h
    | cons q t =>
      simp only [parseQuoted] at h
      split at h
      · simp at h
      · rename_i hq
        split at h
        · rename_i hf
          simp only [R.ok.injEq, Except.ok.injEq, Prod.mk.injEq] at h
          obtain ⟨h1, h2⟩ := cutByte_split q t
          refine ⟨q, ?_, ?_, ?_⟩
          · by_cases a : q = 39
            · exact .inl a
            · by_cases b : q = 34
              · exact .inr b
              · exact absurd ⟨a, b⟩ hq
          · rw [← h.1]; exact h1
          · rw [← h.1, ← h.2, ← h2 hf]
        · simp at h
  · rintro ⟨q, hq, hw, rfl⟩
    simp only [parseQuoted]
    rw [if_neg (by rcases hq with rfl | rfl <;> decide), cutByte_at q w e hw]
    rfl

theorem argsLoop_iff (q : Str) (room : Nat) (s : Str) (cs : List Str) :
    argsLoop q room s = .ok (.ok cs) ↔ QuotedList s cs ∧ cs.length ≤ room := by
  constructor
  · intro h
    refine ⟨?_, argsLoop_length q room s cs h⟩
    generalize hn : s.length = n
    induction n using Nat.strongRecOn generalizing s room cs with
    | _ n ih =>
      match s, hn with
      | [], _ =>
        rw [argsLoop] at h
        simp only [R.ok.injEq, Except.ok.injEq] at h
        subst h
        exact .nil
      | c :: t, hn =>
        rw [argsLoop] at h
        split at h
        · split at h
          · rename_i arg rest heq
            have hl := parseQuoted_length heq
            obtain ⟨c', hc, hw, e⟩ := (parseQuoted_iff _ _ _).1 heq
            rw [e]
            split at h
            · rename_i h0
              rw [h0]
              exact .empty hc (ih _ (by omega) room rest cs h rfl)
            · rename_i h0
              cases room with
              | zero => simp at h
              | succ room =>
                dsimp only at h
                obtain ⟨x, hx⟩ := argsLoop_total q room rest
                rw [hx, R.bind_ok] at h
                cases x with
                | error e => simp at h
                | ok bs =>
                  simp only [R.ok.injEq, Except.ok.injEq] at h
                  subst h
                  exact .text hc h0 hw (ih _ (by omega) room rest bs hx rfl)
          · simp at h
          · cases h
          · cases h
        · split at h
          · rename_i hc
            exact .sep hc (ih _ (by simp only [List.length_cons] at hn; omega) room t cs h rfl)
          · simp at h
  · rintro ⟨h, hl⟩
    induction h generalizing room with
    | nil => rw [argsLoop]
    | sep hc _ ih =>
      rw [argsLoop, if_neg (by rcases hc with rfl | rfl <;> decide), if_pos hc]
      exact ih room hl
    | @empty a s cs hc _ ih =>
      rw [argsLoop, if_pos hc]
      have : parseQuoted (a :: a :: s) = .ok (.ok ([], s)) :=
        (parseQuoted_iff _ _ _).2 ⟨a, hc, by simp, rfl⟩
      split
      · rename_i heq
        rw [this] at heq
        simp only [R.ok.injEq, Except.ok.injEq, Prod.mk.injEq] at heq
        rw [if_pos heq.1.symm, ← heq.2]
        exact ih room hl
      · rename_i heq; rw [this] at heq; simp at heq
      · rename_i heq; rw [this] at heq; simp at heq
      · rename_i heq; rw [this] at heq; simp at heq
    | @text a w s cs hc h0 hw _ ih =>
      rw [argsLoop, if_pos hc]
      have : parseQuoted (a :: (w ++ a :: s)) = .ok (.ok (w, s)) :=
        (parseQuoted_iff _ _ _).2 ⟨a, hc, hw, rfl⟩
      simp only [List.length_cons] at hl
      split
      · rename_i heq
        rw [this] at heq
        simp only [R.ok.injEq, Except.ok.injEq, Prod.mk.injEq] at heq
        rw [if_neg (by rw [← heq.1]; exact h0), ← heq.1, ← heq.2]
        obtain ⟨room, rfl⟩ : ∃ k, room = k + 1 := ⟨room - 1, by omega⟩
        dsimp only
        rw [ih room (by omega)]
        rfl
      · rename_i heq; rw [this] at heq; simp at heq
      · rename_i heq; rw [this] at heq; simp at heq
      · rename_i heq; rw [this] at heq; simp at heq

theorem dropWhile_blank (s : Str) :
    ∃ m, s = List.replicate m 32 ++ s.dropWhile (· = 32) ∧ (s.dropWhile (· = 32)).head? ≠ some 32 := by
  induction s with
  | nil => exact ⟨0, rfl, by simp⟩
  | cons c s ih =>
    by_cases hc : c = 32
    · obtain ⟨m, h1, h2⟩ := ih
      refine ⟨m + 1, ?_, ?_⟩
      · rw [List.dropWhile_cons_of_pos (by simpa using hc), List.replicate_succ, List.cons_append, ← h1, hc]
      · rw [List.dropWhile_cons_of_pos (by simpa using hc)]; exact h2
    · refine ⟨0, ?_, ?_⟩
      · rw [List.dropWhile_cons_of_neg (by simpa using hc)]; rfl
      · rw [List.dropWhile_cons_of_neg (by simpa using hc)]; simpa using hc

theorem dropWhile_replicate (m : Nat) (s : Str) (h : s.head? ≠ some 32) :
    (List.replicate m 32 ++ s).dropWhile (· = 32) = s := by
  induction m with
  | zero =>
    cases s with
    | nil => rfl
    | cons c s =>
      rw [List.replicate_zero, List.nil_append, List.dropWhile_cons_of_neg]
      simpa using h
  | succ m ih =>
    rw [List.replicate_succ, List.cons_append, List.dropWhile_cons_of_pos (by decide)]
    exact ih

theorem trimBlank_split (s : Str) :
    ∃ m n, s = List.replicate m 32 ++ trimBlank s ++ List.replicate n 32 := by
  unfold trimBlank
  obtain ⟨m, h1, _⟩ := dropWhile_blank s
  obtain ⟨n, h2, _⟩ := dropWhile_blank (s.dropWhile (· = 32)).reverse
  refine ⟨m, n, ?_⟩
  rw [List.append_assoc]
  have := congrArg List.reverse h2
  rw [List.reverse_reverse, List.reverse_append, List.reverse_replicate] at this
  rw [← this]
  exact h1

theorem trimBlank_pad (m n : Nat) (s : Str) (h1 : s.head? ≠ some 32) (h2 : s.getLast? ≠ some 32) :
    trimBlank (List.replicate m 32 ++ s ++ List.replicate n 32) = s := by
  cases s with
  | nil =>
    have : (List.replicate m (32 : UInt8) ++ [] ++ List.replicate n 32) = List.replicate (m + n) 32 ++ [] := by
      simp [List.replicate_append_replicate]
    unfold trimBlank
    rw [this, dropWhile_replicate _ _ (by simp)]
    rfl
  | cons c s =>
    unfold trimBlank
    rw [List.append_assoc, dropWhile_replicate m _ (by simpa using h1), List.reverse_append,
      List.reverse_replicate, dropWhile_replicate n _ (by rw [List.head?_reverse]; exact h2),
      List.reverse_reverse]

theorem args_iff (q : Str) (n : Nat) (cs : List Str) :
    seriesByTagArgs q n = .ok (.ok cs) ↔ QueryText q cs ∧ cs.length ≤ n := by
  unfold seriesByTagArgs
  dsimp only
  constructor
  · intro h
    split at h
    · simp at h
    · rename_i hp
      split at h
      · simp at h
      · rename_i hl
        obtain ⟨h1, h2⟩ := (argsLoop_iff _ _ _ _).1 h
        refine ⟨?_, h2⟩
        obtain ⟨m, k, e⟩ := trimBlank_split q
        simp only [Bool.not_eq_true, Bool.not_eq_false', hasPrefix, List.isPrefixOf_iff_prefix] at hp
        simp only [ne_eq, Decidable.not_not] at hl
        obtain ⟨r, hr⟩ := hp
        refine ⟨m, k, ((trimBlank q).drop 12).dropLast, ?_, h1⟩
        have e1 : (trimBlank q).drop 12 = r := by rw [← hr]; rfl
        rw [e1]
        have hne : r ≠ [] := by
          rintro rfl
          rw [← hr] at hl
          revert hl
          decide
        have e2 : r.getLast? = some 41 := by
          rw [← hr, List.getLast?_append] at hl
          cases hx : r.getLast? with
          | none => exact absurd (List.getLast?_eq_none_iff.1 hx) hne
          | some y => rw [hx] at hl; simpa using hl
        have e3 : r.dropLast ++ [41] = r := by
          rw [List.getLast?_eq_some_getLast hne] at e2
          injection e2 with e2
          rw [← e2]
          exact List.dropLast_concat_getLast hne
        have e4 : (b!"seriesByTag(") ++ r.dropLast ++ b!")" = trimBlank q := by
          rw [List.append_assoc, ← hr]
          congr 1
        rw [← e4] at e
        rw [e]
        simp only [List.append_assoc]
  · rintro ⟨⟨m, k, s, rfl, hs⟩, hl⟩
    have e : trimBlank (List.replicate m 32 ++ b!"seriesByTag(" ++ s ++ b!")" ++ List.replicate k 32) =
        (b!"seriesByTag(") ++ (s ++ b!")") := by
      have := trimBlank_pad m k ((b!"seriesByTag(") ++ (s ++ b!")")) (by simp) (by
        rw [List.getLast?_append, List.getLast?_append]; simp)
      rw [← this]
      simp only [List.append_assoc]
    rw [e, if_neg (by
      simp only [Bool.not_eq_true', Bool.not_eq_false, hasPrefix, List.isPrefixOf_iff_prefix]
      exact List.prefix_append _ _), if_neg (by
      rw [List.getLast?_append, List.getLast?_append]; simp)]
    have : (((b!"seriesByTag(") ++ (s ++ b!")")).drop 12).dropLast = s := by
      have : ((b!"seriesByTag(") ++ (s ++ b!")")).drop 12 = s ++ b!")" :=
        List.drop_left (l₁ := b!"seriesByTag(")
      rw [this]
      exact List.dropLast_concat
    rw [this]
    exact (argsLoop_iff _ _ _ _).2 ⟨hs, hl⟩

end GoMatcher
