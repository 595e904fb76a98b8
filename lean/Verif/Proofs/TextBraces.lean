import Verif.Proofs.TextChain
import Verif.Proofs.TagOrder

/-! # Parsing every text: braces -/

namespace GoMatcher

/-! ## Readings -/

theorem SubText.of_plain {p : List Char} {ss : List Sub}
    (hp : ∀ c ∈ p, isSpecial c = false) (h : SubText p ss) : ss = p.map .lit := by
  have h' : SubText (p ++ []) ss := by simpa using h
  obtain ⟨ss', rfl, h1⟩ := h'.lits_inv hp
  rw [h1.nil_inv]
  simp

theorem SubText.plain {p : List Char}
    (hp : ∀ c ∈ p, isSpecial c = false) : SubText p (p.map .lit) := by
  have := SubText.lits hp .nil
  simpa using this

theorem RawSubs.ne_nil {ss : List Sub} {raws : List Item} (h : RawSubs ss raws) (hne : ss ≠ []) :
    raws ≠ [] := by
  rintro rfl
  cases h
  exact hne rfl

theorem utf8_ne_star {p : List Char} (h : p ≠ ['*']) : ¬ utf8 p = [42] := by
  intro e
  have e' : utf8 p = utf8 ['*'] := e
  exact h (utf8_inj e')

theorem utf8_ne_any {p : List Char} (h : p ≠ ['?']) : ¬ utf8 p = [63] := by
  intro e
  have e' : utf8 p = utf8 ['?'] := e
  exact h (utf8_inj e')

/-! ## Groups -/

/-- The text has a reading. -/
def Readable (p : List Char) : Prop := ∃ ss, SubText p ss

theorem group_step (fuel : Nat) {p : List Char} (vs : List Str) (items : List Item)
    (hp : PlainText p) (hs : p ≠ ['*']) (hr : Readable p)
    (ht : newGroup (fuel + 1) (utf8 p :: vs) items ≠ .timeout) :
    ∃ v, newGroup (fuel + 1) (utf8 p :: vs) items = newGroup fuel vs (items ++ [v]) ∧
      ∀ a, SubText p a → (a = [] → p = []) → AltItem a v := by
  rw [newGroup] at ht ⊢
  by_cases hw : hasWildcard (utf8 p) = true
  · rw [if_pos hw] at ht ⊢
    have hsp : ∃ c ∈ p, isSpecial c = true := by
      rw [hasWildcard_utf8, List.any_eq_true] at hw
      exact hw
    rw [if_neg (utf8_ne_star hs)] at ht ⊢
    by_cases hq : p = ['?']
    · subst hq
      rw [if_pos (show utf8 ['?'] = [63] from rfl)] at ht ⊢
      refine ⟨_, rfl, ?_⟩
      intro a ha _
      obtain ⟨ss', rfl, h1⟩ := ha.any_inv
      rw [h1.nil_inv]
      exact altItem_any
    · rw [if_neg (utf8_ne_any hq)] at ht ⊢
      have htc : chainLoop fuel (utf8 p) {} ≠ .timeout := by
        intro e
        rw [e] at ht
        exact ht rfl
      obtain ⟨a0, ha0⟩ := hr
      obtain ⟨raws0, _, he0⟩ := chain_ok fuel p a0 {} hp ha0 htc
      rw [he0]
      simp only [R.bind_ok]
      refine ⟨_, rfl, ?_⟩
      intro a ha hne
      obtain ⟨raws, h1, he⟩ := chain_ok fuel p a {} hp ha htc
      rw [he0] at he
      injection he with he
      injection he with he
      rw [he]
      refine altItem_chain h1 (h1.ne_nil ?_)
      intro e
      obtain ⟨c, hc, _⟩ := hsp
      rw [hne e] at hc
      cases hc
  · rw [if_neg hw] at ht ⊢
    refine ⟨_, rfl, ?_⟩
    intro a ha _
    have hpl : ∀ c ∈ p, isSpecial c = false := by
      intro c hc
      cases h : isSpecial c with
      | false => rfl
      | true =>
        exact absurd (by rw [hasWildcard_utf8, List.any_eq_true]; exact ⟨c, hc, h⟩) hw
    rw [ha.of_plain hpl]
    exact altItem_lits p

theorem group_err (fuel : Nat) {p : List Char} (vs : List Str) (items : List Item)
    (hp : PlainText p) (hb : '}' ∉ p) (hs : p ≠ ['*']) {x : Option Item}
    (h : newGroup (fuel + 1) (utf8 p :: vs) items = .ok (.ok x)) : Readable p := by
  rw [newGroup] at h
  by_cases hw : hasWildcard (utf8 p) = true
  · rw [if_pos hw, if_neg (utf8_ne_star hs)] at h
    by_cases hq : p = ['?']
    · subst hq
      exact ⟨_, SubText.cons (p := ['?']) .any .nil⟩
    · rw [if_neg (utf8_ne_any hq)] at h
      cases hc : chainLoop fuel (utf8 p) {} with
      | timeout => rw [hc] at h; cases h
      | panic => rw [hc] at h; cases h
      | ok r =>
        cases r with
        | error e => rw [hc] at h; cases h
        | ok c => exact chain_inv fuel p {} c hp hb hc
  · refine ⟨_, SubText.plain ?_⟩
    intro c hc
    cases h : isSpecial c with
    | false => rfl
    | true =>
      exact absurd (by rw [hasWildcard_utf8, List.any_eq_true]; exact ⟨c, hc, h⟩) hw

theorem group_ok (fuel : Nat) (ps : List (List Char)) (items : List Item)
    (hp : ∀ p ∈ ps, PlainText p ∧ p ≠ ['*'] ∧ Readable p)
    (ht : newGroup fuel (ps.map utf8) items ≠ .timeout) :
    ∃ its, newGroup fuel (ps.map utf8) items = .ok (.ok (groupOf (items ++ its))) ∧
      its.length = ps.length ∧
      (∀ p ∈ ps, ∃ v ∈ its, ∀ a, SubText p a → (a = [] → p = []) → AltItem a v) ∧
      (∀ v ∈ its, ∃ p ∈ ps, ∀ a, SubText p a → (a = [] → p = []) → AltItem a v) := by
  induction ps generalizing fuel items with
  | nil =>
    cases fuel with
    | zero => exact absurd rfl ht
    | succ fuel =>
      refine ⟨[], ?_, rfl, by simp, by simp⟩
      rw [List.map_nil, newGroup, List.append_nil]
  | cons p ps ih =>
    cases fuel with
    | zero => exact absurd rfl ht
    | succ fuel =>
      obtain ⟨h1, h2, h3⟩ := hp p (by simp)
      rw [List.map_cons] at ht ⊢
      obtain ⟨v, hv, hva⟩ := group_step fuel (ps.map utf8) items h1 h2 h3 ht
      rw [hv] at ht ⊢
      obtain ⟨its, e, hl, i1, i2⟩ := ih fuel (items ++ [v]) (fun q hq => hp q (by simp [hq])) ht
      refine ⟨v :: its, by rw [e]; simp, by simp [hl], ?_, ?_⟩
      · intro q hq
        rcases List.mem_cons.1 hq with rfl | hq
        · exact ⟨v, by simp, hva⟩
        · obtain ⟨w, hw, h⟩ := i1 q hq
          exact ⟨w, by simp [hw], h⟩
      · intro w hw
        rcases List.mem_cons.1 hw with rfl | hw
        · exact ⟨p, by simp, hva⟩
        · obtain ⟨q, hq, h⟩ := i2 w hw
          exact ⟨q, by simp [hq], h⟩

theorem group_star (fuel : Nat) (pre post : List (List Char)) (items : List Item)
    (hp : ∀ p ∈ pre, PlainText p ∧ p ≠ ['*'] ∧ Readable p)
    (ht : newGroup fuel ((pre ++ ['*'] :: post).map utf8) items ≠ .timeout) :
    newGroup fuel ((pre ++ ['*'] :: post).map utf8) items = .ok (.ok (some (.star 0))) := by
  induction pre generalizing fuel items with
  | nil =>
    cases fuel with
    | zero => exact absurd rfl ht
    | succ fuel =>
      have e : (([] ++ ['*'] :: post).map utf8) = [42] :: post.map utf8 := rfl
      rw [e, newGroup, if_pos (by decide), if_pos rfl]
  | cons p pre ih =>
    cases fuel with
    | zero => exact absurd rfl ht
    | succ fuel =>
      obtain ⟨h1, h2, h3⟩ := hp p (by simp)
      rw [List.cons_append, List.map_cons] at ht ⊢
      obtain ⟨v, hv, _⟩ := group_step fuel _ items h1 h2 h3 ht
      rw [hv] at ht ⊢
      exact ih fuel (items ++ [v]) (fun q hq => hp q (by simp [hq])) ht

theorem group_inv (fuel : Nat) (pre post : List (List Char)) (items : List Item)
    (hp : ∀ p ∈ pre, PlainText p ∧ '}' ∉ p ∧ p ≠ ['*']) {x : Option Item}
    (h : newGroup fuel ((pre ++ post).map utf8) items = .ok (.ok x)) : ∀ p ∈ pre, Readable p := by
  induction pre generalizing fuel items with
  | nil => simp
  | cons p pre ih =>
    cases fuel with
    | zero => cases h
    | succ fuel =>
      obtain ⟨h1, h2, h3⟩ := hp p (by simp)
      rw [List.cons_append, List.map_cons] at h
      have hr := group_err fuel _ items h1 h2 h3 h
      obtain ⟨v, hv, _⟩ := group_step fuel _ items h1 h3 hr (by rw [h]; simp)
      rw [hv] at h
      intro q hq
      rcases List.mem_cons.1 hq with rfl | hq
      · exact hr
      · exact ih fuel _ (fun q hq => hp q (by simp [hq])) h q hq

/-! ## Parts -/

theorem utf8_joinComma (parts : List (List Char)) :
    utf8 (joinComma parts) = joinByte 44 (parts.map utf8) := by
  match parts with
  | [] => rfl
  | [a] => rfl
  | a :: b :: l =>
    rw [List.map_cons, List.map_cons, joinByte_cons_cons, joinComma, utf8_append,
      utf8_ascii_cons (by decide), utf8_joinComma (b :: l)]
    rfl

theorem joinComma_mem {c : Char} (parts : List (List Char)) (h : c ∈ joinComma parts) :
    c = ',' ∨ ∃ a ∈ parts, c ∈ a := by
  match parts with
  | [] => cases h
  | [a] => exact .inr ⟨a, by simp, h⟩
  | a :: b :: l =>
    rw [joinComma] at h
    rcases List.mem_append.1 h with h | h
    · exact .inr ⟨a, by simp, h⟩
    · rcases List.mem_cons.1 h with h | h
      · exact .inl h
      · rcases joinComma_mem (b :: l) h with h | ⟨x, hx, h⟩
        · exact .inl h
        · exact .inr ⟨x, List.mem_cons_of_mem _ hx, h⟩

theorem mem_joinComma {c : Char} (parts : List (List Char)) {a : List Char} (ha : a ∈ parts)
    (h : c ∈ a) : c ∈ joinComma parts := by
  match parts with
  | [] => cases ha
  | [b] => rw [List.mem_singleton.1 ha] at h; exact h
  | a' :: b :: l =>
    rw [joinComma]
    rcases List.mem_cons.1 ha with rfl | ha
    · exact List.mem_append_left _ h
    · exact List.mem_append_right _ (List.mem_cons_of_mem _ (mem_joinComma (b :: l) ha h))

theorem split_comma (body : List Char) : ∃ parts, parts ≠ [] ∧ joinComma parts = body ∧
    ∀ a ∈ parts, ',' ∉ a := by
  induction body with
  | nil => exact ⟨[[]], by simp, rfl, by simp⟩
  | cons c body ih =>
    obtain ⟨parts, hne, e, h⟩ := ih
    cases parts with
    | nil => exact absurd rfl hne
    | cons a l =>
      by_cases hc : c = ','
      · refine ⟨[] :: a :: l, by simp, by rw [joinComma, e, hc]; rfl, ?_⟩
        intro b hb
        rcases List.mem_cons.1 hb with rfl | hb
        · simp
        · exact h b hb
      · refine ⟨(c :: a) :: l, by simp, ?_, ?_⟩
        · cases l with
          | nil => rw [← e]; rfl
          | cons b l => rw [← e]; rfl
        · intro b hb
          rcases List.mem_cons.1 hb with rfl | hb
          · simp only [List.mem_cons, not_or]
            exact ⟨fun e => hc e.symm, h a (by simp)⟩
          · exact h b (by simp [hb])

theorem split_brace {t : List Char} (h : '}' ∈ t) : ∃ p parts r, '{' :: t = p ++ r ∧
    BraceText p parts := by
  rcases span_byte '}' t with h' | ⟨body, r, rfl, hb⟩
  · exact absurd h h'
  · obtain ⟨parts, hne, e, hc⟩ := split_comma body
    refine ⟨'{' :: joinComma parts ++ ['}'], parts, r, by simp [e], rfl, hne, ?_⟩
    intro a ha
    exact ⟨hc a ha, fun hm => hb (by rw [← e]; exact mem_joinComma parts ha hm)⟩

/-- What `NewItemList` makes of the values (stringlist.go:219-284). -/
def listCore (fuel : Nat) (vals : List Str) : R (Except GErr (Option Item)) :=
  match listItem vals with
  | .inl x => do
    let i ← x
    .ok (.ok i)
  | .inr _ => newGroup fuel vals []

theorem brace_step {p : List Char} {parts : List (List Char)} (h : BraceText p parts) :
    (parts = [[]] ∧ ∀ fuel r, nextItem (fuel + 1) (utf8 (p ++ r)) = .ok (.ok (none, utf8 r))) ∨
    ∃ ps : List (List Char), (∀ a, a ∈ ps ↔ a ∈ parts) ∧
      (ps.map utf8).Pairwise (fun a b => strLt a b = true) ∧
      ∀ fuel r, nextItem (fuel + 1) (utf8 (p ++ r)) = (do
        let x ← listCore fuel (ps.map utf8)
        match x with
        | .error e => .ok (.error e)
        | .ok item => .ok (.ok (item, utf8 r))) := by
  obtain ⟨rfl, hne, hb⟩ := h
  have hnoc : ∀ v ∈ parts.map utf8, (44 : UInt8) ∉ v := by
    intro v hv
    obtain ⟨a, ha, rfl⟩ := List.mem_map.1 hv
    exact not_mem_utf8 (x := ',') (by decide) (by decide) (hb a ha).1
  have hnob : (125 : UInt8) ∉ utf8 (joinComma parts) := by
    apply not_mem_utf8 (x := '}') (by decide) (by decide)
    intro hm
    rcases joinComma_mem parts hm with h | ⟨a, ha, h⟩
    · exact absurd h (by decide)
    · exact (hb a ha).2 h
  have hu : ∀ r, utf8 (('{' :: joinComma parts ++ ['}']) ++ r) =
      (123 :: utf8 (joinComma parts)) ++ 125 :: utf8 r := by
    intro r
    rw [utf8_append, utf8_append, utf8_ascii_cons (by decide)]
    simp only [List.append_assoc]
    rfl
  have hnot : (125 : UInt8) ∉ (123 :: utf8 (joinComma parts)) := by
    intro hm
    rcases List.mem_cons.1 hm with h | h
    · exact absurd h (by decide)
    · exact hnob h
  have hle := listExpand_braces (utf8 (joinComma parts))
  rw [← List.cons_append] at hle
  by_cases hbody : utf8 (joinComma parts) = []
  · left
    constructor
    · rw [utf8_eq_nil] at hbody
      match parts, hne, hbody with
      | [a], _, hb => rw [show a = [] from hb]
      | a :: b :: l, _, hb => simp [joinComma] at hb
    · intro fuel r
      have hcut := cutAfter_byte (utf8 r) hnot
      rw [hu, List.cons_append]
      rw [List.cons_append] at hcut
      rw [nextItem]
      dsimp only
      rw [if_neg (by decide), if_pos rfl, hcut]
      simp only [R.bind_ok]
      rw [hle, if_pos hbody]
      rfl
  · right
    rw [if_neg hbody] at hle
    have hsorted := (listExpand_some hle).1
    have hsplit : splitByte (utf8 (joinComma parts)) 44 = parts.map utf8 := by
      rw [utf8_joinComma, splitByte_joinByte (by simpa using hne) hnoc]
    have hmem : ∀ v, v ∈ removeDuplicated (sortBy strLe (splitByte (utf8 (joinComma parts)) 44)) ↔
        ∃ a ∈ parts, v = utf8 a := by
      intro v
      have hne2 : sortBy strLe (splitByte (utf8 (joinComma parts)) 44) ≠ [] := by
        intro h0
        have := (sortBy_perm strLe (splitByte (utf8 (joinComma parts)) 44)).length_eq
        rw [h0] at this
        exact splitByte_ne_nil _ 44 (List.length_eq_zero_iff.mp this.symm)
      obtain ⟨b, hb1, _, hb3⟩ := removeDuplicated_spec _ hne2
      rw [hb1, mem_dedupAdj, hb3, mem_sortBy, hsplit, List.mem_map]
      constructor
      · rintro ⟨a, ha, rfl⟩; exact ⟨a, ha, rfl⟩
      · rintro ⟨a, ha, rfl⟩; exact ⟨a, ha, rfl⟩
    obtain ⟨ps, has1, has2⟩ := exists_preimages utf8 parts _ (fun v hv => (hmem v).1 hv)
    refine ⟨ps, ?_, by rw [has1]; exact hsorted, ?_⟩
    · intro a
      refine ⟨has2 a, fun ha => ?_⟩
      have := (hmem _).2 ⟨a, ha, rfl⟩
      rw [← has1, List.mem_map] at this
      obtain ⟨a', ha', e⟩ := this
      rw [← utf8_inj e]
      exact ha'
    · intro fuel r
      have hcut := cutAfter_byte (utf8 r) hnot
      rw [hu, List.cons_append]
      rw [List.cons_append] at hcut
      rw [nextItem]
      dsimp only
      rw [if_neg (by decide), if_pos rfl, hcut]
      simp only [R.bind_ok]
      rw [hle, has1]
      dsimp only
      unfold listCore
      cases hl : listItem (removeDuplicated (sortBy strLe (splitByte (utf8 (joinComma parts)) 44))) with
      | inl x =>
        dsimp only
        cases x <;> rfl
      | inr u => rfl

/-! ## Results -/

theorem BraceText.parts_plain {p : List Char} {parts : List (List Char)} (h : BraceText p parts)
    (hp : PlainText p) : ∀ a ∈ parts, PlainText a := by
  obtain ⟨rfl, _, _⟩ := h
  intro a ha c hc
  exact hp c (by simp [mem_joinComma parts ha hc])

theorem one_of_same {ps parts : List (List Char)} {a : List Char} (hm : ∀ x, x ∈ ps ↔ x ∈ parts)
    (hs : (ps.map utf8).Pairwise (fun a b => strLt a b = true)) (hne : parts ≠ [])
    (ha : ∀ b ∈ parts, b = a) : ps = [a] := by
  have h1 : ∀ x ∈ ps, x = a := fun x hx => ha x ((hm x).1 hx)
  obtain ⟨b, hb⟩ := List.exists_mem_of_ne_nil _ hne
  have hb' := (hm b).2 hb
  match ps, hs, h1, hb' with
  | [], _, _, hb' => cases hb'
  | [x], _, h1, _ => rw [h1 x (by simp)]
  | x :: y :: l, hs, h1, _ =>
    rw [List.map_cons, List.map_cons] at hs
    have := (List.pairwise_cons.1 hs).1 (utf8 y) (by simp)
    rw [h1 x (by simp), h1 y (by simp), strLt_irrefl] at this
    cases this

theorem two_of_diff {ps parts : List (List Char)} {a b : List Char}
    (hm : ∀ x, x ∈ ps ↔ x ∈ parts) (ha : a ∈ parts) (hb : b ∈ parts) (hab : a ≠ b) :
    ∃ x y l, ps = x :: y :: l := by
  have ha' := (hm a).2 ha
  have hb' := (hm b).2 hb
  match ps, ha', hb' with
  | [], ha', _ => cases ha'
  | [x], ha', hb' =>
    exact absurd ((List.mem_singleton.1 ha').trans (List.mem_singleton.1 hb').symm) hab
  | x :: y :: l, _, _ => exact ⟨x, y, l, rfl⟩

theorem brace_same (fuel : Nat) {p a : List Char} {parts : List (List Char)} (r : List Char)
    (h : BraceText p parts) (hp : PlainText p) (ha : ∀ b ∈ parts, b = a) :
    ∃ x, AltRes [a.map .lit] x ∧
      nextItem (fuel + 1) (utf8 (p ++ r)) = .ok (.ok (x, utf8 r)) := by
  have hpa : PlainText a := by
    obtain ⟨b, hb⟩ := List.exists_mem_of_ne_nil _ h.2.1
    rw [← ha b hb]
    exact h.parts_plain hp b hb
  rcases brace_step h with ⟨rfl, hn⟩ | ⟨ps, hm, hs, hn⟩
  · refine ⟨none, .none ?_, hn fuel r⟩
    rw [← ha [] (by simp)]
    simp
  · rw [hn, one_of_same hm hs h.2.1 ha]
    unfold listCore
    rw [List.map_cons, List.map_nil, listItem]
    by_cases hv : a = []
    · subst hv
      exact ⟨none, .none (by simp), rfl⟩
    · rw [if_neg (by rw [utf8_eq_nil]; exact hv)]
      refine ⟨some (literalItem (utf8 a)), .lit hv (by simp) ?_, rfl⟩
      apply literalItem_isLit hv
      intro c hc
      simp [isFF, (hpa c hc).1]

theorem listCore_group (fuel : Nat) {x y : List Char} {l : List (List Char)}
    (h : ∃ p ∈ x :: y :: l, ∃ c ∈ p, isSpecial c = true) :
    listCore fuel ((x :: y :: l).map utf8) = newGroup fuel ((x :: y :: l).map utf8) [] := by
  have hstar : (listScan {} ((x :: y :: l).map utf8)).hasStar = true := by
    rw [listScan_hasStar, Bool.or_eq_true, List.any_eq_true]
    right
    obtain ⟨p, hp, hc⟩ := h
    refine ⟨utf8 p, List.mem_map.2 ⟨p, hp, rfl⟩, ?_⟩
    rw [hasWildcard_utf8, List.any_eq_true]
    exact hc
  unfold listCore
  have : listItem ((x :: y :: l).map utf8) = .inr () := by
    unfold listItem
    simp only [List.map_cons] at hstar ⊢
    rw [if_pos hstar]
  rw [this]

theorem before_star {p : List Char} : strLt (utf8 p) [42] = true ↔
    p = [] ∨ ∃ c, p.head? = some c ∧ c.toNat < 42 := by
  cases p with
  | nil => simp [strLt, strLe, utf8]
  | cons c t =>
    simp only [reduceCtorEq, List.head?_cons, Option.some.injEq, false_or]
    by_cases hc : c.toNat < 128
    · rw [utf8_ascii_cons hc]
      have e : (UInt8.ofNat c.toNat).toNat = c.toNat := by simp; omega
      have key : strLt (UInt8.ofNat c.toNat :: utf8 t) [42] = true ↔ c.toNat < 42 := by
        unfold strLt
        rw [strLe]
        by_cases h1 : (42 : UInt8) < UInt8.ofNat c.toNat
        · rw [if_pos h1]
          rw [UInt8.lt_iff_toNat_lt, e] at h1
          have : (42 : UInt8).toNat = 42 := rfl
          simp
          omega
        · rw [if_neg h1]
          rw [UInt8.lt_iff_toNat_lt, e] at h1
          have h42 : (42 : UInt8).toNat = 42 := rfl
          by_cases h2 : (42 : UInt8) = UInt8.ofNat c.toNat
          · rw [if_pos h2]
            have : c.toNat = 42 := by rw [← e, ← h2]; rfl
            simp [strLe]
            omega
          · rw [if_neg h2]
            have : c.toNat ≠ 42 := by
              intro h
              apply h2
              rw [h]; rfl
            simp
            omega
      rw [key]
      constructor
      · intro h; exact ⟨c, rfl, h⟩
      · rintro ⟨d, rfl, h⟩; exact h
    · constructor
      · intro h
        exfalso
        have hb : ∀ b ∈ (utf8 [c]), 128 ≤ b.toNat := by
          intro b hb
          apply Classical.byContradiction
          intro hlt
          obtain ⟨d, hd, e⟩ := (mem_utf8_ascii (by omega) [c]).1 hb
          rw [List.mem_singleton.1 hd] at e
          omega
        have hu : utf8 (c :: t) = utf8 [c] ++ utf8 t := utf8_append [c] t
        cases hx : utf8 [c] with
        | nil => exact utf8_cons_ne_nil _ _ hx
        | cons b bs =>
          have := hb b (by rw [hx]; simp)
          rw [hu, hx, List.cons_append] at h
          unfold strLt at h
          rw [strLe, if_pos] at h
          · cases h
          · rw [UInt8.lt_iff_toNat_lt]
            have : (42 : UInt8).toNat = 42 := rfl
            omega
      · rintro ⟨d, rfl, h⟩; omega

theorem brace_star_split {ps : List (List Char)} (hm : ['*'] ∈ ps)
    (hs : (ps.map utf8).Pairwise (fun a b => strLt a b = true)) :
    ∃ pre post, ps = pre ++ ['*'] :: post ∧
      ∀ p, p ∈ pre ↔ p ∈ ps ∧ (p = [] ∨ ∃ c, p.head? = some c ∧ c.toNat < 42) := by
  obtain ⟨pre, post, rfl⟩ := List.append_of_mem hm
  refine ⟨pre, post, rfl, ?_⟩
  rw [List.map_append, List.map_cons, List.pairwise_append] at hs
  obtain ⟨_, h2, h3⟩ := hs
  have e42 : utf8 ['*'] = [42] := rfl
  rw [e42] at h2 h3
  intro p
  rw [← before_star]
  constructor
  · intro hp
    exact ⟨by simp [hp], h3 (utf8 p) (List.mem_map.2 ⟨p, hp, rfl⟩) [42] (by simp)⟩
  · rintro ⟨hp, hlt⟩
    rcases List.mem_append.1 hp with h | h
    · exact h
    · rcases List.mem_cons.1 h with rfl | h
      · rw [e42, strLt_irrefl] at hlt; cases hlt
      · have := (List.pairwise_cons.1 h2).1 (utf8 p) (List.mem_map.2 ⟨p, h, rfl⟩)
        rw [strLt_asymm this] at hlt
        cases hlt

theorem brace_star (fuel : Nat) {p : List Char} {parts : List (List Char)} (r : List Char)
    (h : BraceText p parts) (hp : PlainText p) (hs : ['*'] ∈ parts) (hd : ∃ a ∈ parts, a ≠ ['*'])
    (hb : ∀ a ∈ parts, (∃ c, a.head? = some c ∧ c.toNat < 42) → Readable a)
    (ht : nextItem (fuel + 1) (utf8 (p ++ r)) ≠ .timeout) :
    nextItem (fuel + 1) (utf8 (p ++ r)) = .ok (.ok (some (.star 0), utf8 r)) := by
  rcases brace_step h with ⟨rfl, hn⟩ | ⟨ps, hm, hsr, hn⟩
  · simp at hs
  · obtain ⟨a, ha, hab⟩ := hd
    obtain ⟨x, y, l, e⟩ := two_of_diff hm ha hs hab
    have hcore : listCore fuel (ps.map utf8) = newGroup fuel (ps.map utf8) [] := by
      rw [e]
      apply listCore_group
      rw [← e]
      exact ⟨_, (hm _).2 hs, '*', by simp, by decide⟩
    obtain ⟨pre, post, e', hpre⟩ := brace_star_split ((hm _).2 hs) hsr
    rw [hn, hcore] at ht ⊢
    have htg : newGroup fuel (ps.map utf8) [] ≠ .timeout := by
      intro e
      rw [e] at ht
      exact ht rfl
    rw [e'] at htg
    have := group_star fuel pre post [] (by
      intro q hq
      obtain ⟨h1, h2⟩ := (hpre q).1 hq
      refine ⟨h.parts_plain hp q ((hm q).1 h1), ?_, ?_⟩
      · rintro rfl
        rcases h2 with h2 | ⟨c, hc, h2⟩
        · cases h2
        · simp only [List.head?_cons, Option.some.injEq] at hc
          rw [← hc] at h2
          exact absurd h2 (by decide)
      · rcases h2 with rfl | h2
        · exact ⟨[], .nil⟩
        · exact hb q ((hm q).1 h1) h2) htg
    rw [e', this]
    rfl

theorem SubTexts.mem_left {loose : Bool} {ps : List (List Char)} {alts : List (List Sub)}
    (h : SubTexts loose ps alts) : ∀ p ∈ ps, ∃ a ∈ alts, SubText p a ∧
      (loose = false → (a = [] → p = []) ∧ (a = [.star] → p = ['*'])) := by
  induction h with
  | nil => simp
  | cons h hl _ ih =>
    intro q hq
    rcases List.mem_cons.1 hq with rfl | hq
    · exact ⟨_, List.mem_cons_self, h, hl⟩
    · obtain ⟨a, ha, h'⟩ := ih q hq
      exact ⟨a, List.mem_cons_of_mem _ ha, h'⟩

theorem SubTexts.mem_right {loose : Bool} {ps : List (List Char)} {alts : List (List Sub)}
    (h : SubTexts loose ps alts) : ∀ a ∈ alts, ∃ p ∈ ps, SubText p a ∧
      (loose = false → (a = [] → p = []) ∧ (a = [.star] → p = ['*'])) := by
  induction h with
  | nil => simp
  | cons h hl _ ih =>
    intro q hq
    rcases List.mem_cons.1 hq with rfl | hq
    · exact ⟨_, List.mem_cons_self, h, hl⟩
    · obtain ⟨a, ha, h'⟩ := ih q hq
      exact ⟨a, List.mem_cons_of_mem _ ha, h'⟩

theorem SubTexts.length {loose : Bool} {ps : List (List Char)} {alts : List (List Sub)}
    (h : SubTexts loose ps alts) : alts.length = ps.length := by
  induction h with
  | nil => rfl
  | cons _ _ _ ih => simp [ih]

theorem SubTexts.of_plain {loose : Bool} {ps : List (List Char)} {alts : List (List Sub)}
    (h : SubTexts loose ps alts) (hp : ∀ p ∈ ps, ∀ c ∈ p, isSpecial c = false) :
    alts = ps.map fun p => p.map .lit := by
  induction h with
  | nil => rfl
  | cons h _ _ ih =>
    rw [h.of_plain (hp _ List.mem_cons_self), ih (fun q hq => hp q (List.mem_cons_of_mem _ hq))]
    rfl

theorem subTexts_of_readable {ps : List (List Char)} (h : ∀ p ∈ ps, Readable p) :
    ∃ alts, SubTexts true ps alts := by
  induction ps with
  | nil => exact ⟨[], .nil⟩
  | cons p ps ih =>
    obtain ⟨ss, hs⟩ := h p (by simp)
    obtain ⟨alts, ha⟩ := ih (fun q hq => h q (by simp [hq]))
    exact ⟨ss :: alts, .cons hs (by simp) ha⟩

theorem renderAlts_lits (parts : List (List Char)) :
    renderAlts (parts.map fun p => p.map .lit) = joinComma parts := by
  match parts with
  | [] => rfl
  | [a] => exact renderSubs_lits a
  | a :: b :: l =>
    have ih := renderAlts_lits (b :: l)
    rw [List.map_cons] at ih
    rw [List.map_cons, List.map_cons, renderAlts, joinComma, renderSubs_lits, ih]

theorem brace_alts (fuel : Nat) {loose : Bool} {p : List Char} {parts : List (List Char)}
    {alts : List (List Sub)} (r : List Char)
    (h : BraceText p parts) (hp : PlainText p) (hs : ['*'] ∉ parts)
    (hd : ∃ a ∈ parts, ∃ b ∈ parts, a ≠ b) (ha : SubTexts loose parts alts)
    (ht : nextItem (fuel + 1) (utf8 (p ++ r)) ≠ .timeout) :
    ∃ x, (loose = false → AltRes alts x) ∧
      nextItem (fuel + 1) (utf8 (p ++ r)) = .ok (.ok (x, utf8 r)) := by
  rcases brace_step h with ⟨rfl, hn⟩ | ⟨ps, hm, hsr, hn⟩
  · simp at hd
  · obtain ⟨a, ha1, b, hb1, hab⟩ := hd
    obtain ⟨x, y, l, e⟩ := two_of_diff hm ha1 hb1 hab
    by_cases hpl : ∀ q ∈ parts, ∀ c ∈ q, isSpecial c = false
    · -- only literals: as for written tokens
      have halts := ha.of_plain hpl
      have hok : (Tok.alt alts).Ok := by
        rw [halts]
        refine ⟨by simpa using h.2.1, ?_, .inl ?_⟩
        · intro q hq s hs
          obtain ⟨q', hq', rfl⟩ := List.mem_map.1 hq
          obtain ⟨c, hc, rfl⟩ := List.mem_map.1 hs
          refine ⟨hpl q' hq' c hc, ?_, ?_⟩
          · simp [isFF, (h.parts_plain hp q' hq' c hc).1]
          · intro _
            rintro rfl
            exact (h.2.2 q' hq').1 hc
        · rw [plainAlts_iff]
          intro q hq
          obtain ⟨q', hq', rfl⟩ := List.mem_map.1 hq
          exact ⟨q', rfl⟩
      have hrender : renderGlob [.alt alts] = p := by
        rw [h.1]
        show ('{' :: renderAlts alts ++ ['}']) ++ [] = _
        rw [halts, renderAlts_lits, List.append_nil]
      have h0 := hn fuel []
      rw [hn] at ht
      have hc : listCore fuel (ps.map utf8) ≠ .timeout := by
        intro e
        rw [e] at ht
        exact ht rfl
      have ht0 : nextItem (fuel + 1) (utf8 (renderGlob [.alt alts])) ≠ .timeout := by
        rw [hrender, ← List.append_nil p, h0]
        intro e
        cases hx : listCore fuel (ps.map utf8) with
        | timeout => exact hc hx
        | panic => rw [hx] at e; cases e
        | ok z =>
          rw [hx] at e
          cases z <;> cases e
      obtain ⟨res, hres, hnx⟩ := nextItem_alt fuel alts [] hok ht0
      rw [hrender, ← List.append_nil p, h0] at hnx
      refine ⟨res, fun _ => hres.loose, ?_⟩
      rw [hn]
      cases hx : listCore fuel (ps.map utf8) with
      | timeout => exact absurd hx hc
      | panic => rw [hx] at hnx; cases hnx
      | ok z =>
        rw [hx] at hnx
        cases z with
        | error er => cases hnx
        | ok it =>
          simp only [R.bind_ok] at hnx ⊢
          injection hnx with hnx
          injection hnx with hnx
          injection hnx with hnx _
          rw [hnx]
    · have hsp : ∃ q ∈ parts, ∃ c ∈ q, isSpecial c = true := by
        apply Classical.byContradiction
        intro hno
        apply hpl
        intro q hq c hc
        cases hcs : isSpecial c with
        | false => rfl
        | true => exact absurd ⟨q, hq, c, hc, hcs⟩ hno
      have hcore : listCore fuel (ps.map utf8) = newGroup fuel (ps.map utf8) [] := by
        rw [e]
        apply listCore_group
        rw [← e]
        obtain ⟨q, hq, hc⟩ := hsp
        exact ⟨q, (hm q).2 hq, hc⟩
      rw [hn, hcore] at ht ⊢
      have htg : newGroup fuel (ps.map utf8) [] ≠ .timeout := by
        intro e
        rw [e] at ht
        exact ht rfl
      obtain ⟨its, h1, hlen, h2, h3⟩ := group_ok fuel ps [] (by
        intro q hq
        have hq' := (hm q).1 hq
        obtain ⟨s, _, hs', _⟩ := ha.mem_left q hq'
        refine ⟨h.parts_plain hp q hq', ?_, ⟨s, hs'⟩⟩
        rintro rfl
        exact hs hq') htg
      rw [h1]
      have hitsne : its ≠ [] := by
        rintro rfl
        rw [e] at hlen
        simp at hlen
      cases its with
      | nil => exact absurd rfl hitsne
      | cons z zs =>
        obtain ⟨s1, s2, s3, s4, s5⟩ := groupSizes_spec zs z.minLen z.maxLen
        refine ⟨some (.group (z :: zs) (groupSizes zs (z.minLen, z.maxLen)).1
          (groupSizes zs (z.minLen, z.maxLen)).2), ?_, rfl⟩
        rintro rfl
        have hp' : ¬ alts.length ≤ 1 := by
          intro hlen
          rw [ha.length] at hlen
          match parts, hlen, ha1, hb1 with
          | [z], _, ha1, hb1 => exact hab ((List.mem_singleton.1 ha1).trans (List.mem_singleton.1 hb1).symm)
          | _ :: _ :: _, hlen, _, _ => simp at hlen
        have hst : [.star] ∉ alts := by
          intro hm'
          obtain ⟨q, hq, _, hl'⟩ := ha.mem_right _ hm'
          rw [(hl' rfl).2 rfl] at hq
          exact hs hq
        refine AltResS.group hp' hst ?_ ?_ ?_ ?_ ?_ ?_ (fun h => nomatch h)
        · intro a' ha'
          obtain ⟨q, hq, hr', hl'⟩ := ha.mem_right a' ha'
          obtain ⟨v, hv, h'⟩ := h2 q ((hm q).2 hq)
          exact ⟨v, hv, h' a' hr' (hl' rfl).1⟩
        · intro v hv
          obtain ⟨q, hq, h'⟩ := h3 v hv
          obtain ⟨a', ha', hr', hl'⟩ := ha.mem_left q ((hm q).1 hq)
          exact ⟨a', ha', h' a' hr' (hl' rfl).1⟩
        · intro v hv
          rcases List.mem_cons.1 hv with rfl | hv
          · exact s1
          · exact s2 v hv
        · rcases s3 with h | ⟨y, hy, h⟩
          · exact ⟨z, by simp, h⟩
          · exact ⟨y, by simp [hy], h⟩
        · rintro ⟨v, hv, h⟩
          rcases List.mem_cons.1 hv with rfl | hv
          · exact s4 (Or.inl h)
          · exact s4 (Or.inr ⟨v, hv, h⟩)
        · intro hall
          obtain ⟨j1, j2⟩ := s5 (hall z (by simp)) (fun y hy => hall y (by simp [hy]))
          intro v hv
          rcases List.mem_cons.1 hv with rfl | hv
          · exact j1
          · exact j2 v hv

/-- Accepted braces fall under one of the rules. -/
theorem brace_inv (fuel : Nat) {p : List Char} {parts : List (List Char)} (r : List Char)
    (h : BraceText p parts) (hp : PlainText p) {x : Option Item × Str}
    (hx : nextItem (fuel + 1) (utf8 (p ++ r)) = .ok (.ok x)) :
    x.2 = utf8 r ∧
    ((∃ a, ∀ b ∈ parts, b = a) ∨
     (['*'] ∈ parts ∧ (∃ a ∈ parts, a ≠ ['*']) ∧
        ∀ a ∈ parts, (∃ c, a.head? = some c ∧ c.toNat < 42) → Readable a) ∨
     (['*'] ∉ parts ∧ (∃ a ∈ parts, ∃ b ∈ parts, a ≠ b) ∧ ∃ alts, SubTexts true parts alts)) := by
  rcases brace_step h with ⟨rfl, hn⟩ | ⟨ps, hm, hsr, hn⟩
  · rw [hn] at hx
    injection hx with hx
    injection hx with hx
    exact ⟨by rw [← hx], .inl ⟨[], by simp⟩⟩
  · rw [hn] at hx
    obtain ⟨it, hit, hx2⟩ : ∃ it, listCore fuel (ps.map utf8) = .ok (.ok it) ∧ x.2 = utf8 r := by
      cases hc : listCore fuel (ps.map utf8) with
      | timeout => rw [hc] at hx; cases hx
      | panic => rw [hc] at hx; cases hx
      | ok z =>
        rw [hc] at hx
        cases z with
        | error er => cases hx
        | ok it =>
          simp only [R.bind_ok] at hx
          injection hx with hx
          injection hx with hx
          exact ⟨it, rfl, by rw [← hx]⟩
    refine ⟨hx2, ?_⟩
    by_cases hd : ∃ a ∈ parts, ∃ b ∈ parts, a ≠ b
    · obtain ⟨a, ha1, b, hb1, hab⟩ := hd
      obtain ⟨y, z, l, e⟩ := two_of_diff hm ha1 hb1 hab
      have hinv : ∀ pre post, ps = pre ++ post → ['*'] ∉ pre → ∀ q ∈ pre, Readable q := by
        intro pre post e' hns q hq
        by_cases hsp : ∃ q ∈ ps, ∃ c ∈ q, isSpecial c = true
        · have hcore : listCore fuel (ps.map utf8) = newGroup fuel (ps.map utf8) [] := by
            rw [e]
            apply listCore_group
            rw [← e]
            exact hsp
          rw [hcore, e'] at hit
          refine group_inv fuel pre post [] ?_ hit q hq
          intro q' hq'
          have := (hm q').1 (by rw [e']; simp [hq'])
          refine ⟨h.parts_plain hp q' this, (h.2.2 q' this).2, ?_⟩
          rintro rfl
          exact hns hq'
        · refine ⟨_, SubText.plain ?_⟩
          intro c hc
          cases hcs : isSpecial c with
          | false => rfl
          | true => exact absurd ⟨q, by rw [e']; simp [hq], c, hc, hcs⟩ hsp
      by_cases hst : ['*'] ∈ parts
      · right; left
        refine ⟨hst, ?_, ?_⟩
        · by_cases h1 : a = ['*']
          · exact ⟨b, hb1, fun h2 => hab (h1.trans h2.symm)⟩
          · exact ⟨a, ha1, h1⟩
        · obtain ⟨pre, post, e', hpre⟩ := brace_star_split ((hm _).2 hst) hsr
          intro q hq hc
          refine hinv pre _ e' ?_ q ((hpre q).2 ⟨(hm q).2 hq, .inr hc⟩)
          intro hm'
          rcases ((hpre _).1 hm').2 with h2 | ⟨c, hc, h2⟩
          · cases h2
          · simp only [List.head?_cons, Option.some.injEq] at hc
            rw [← hc] at h2
            exact absurd h2 (by decide)
      · right; right
        refine ⟨hst, ⟨a, ha1, b, hb1, hab⟩, subTexts_of_readable ?_⟩
        intro q hq
        exact hinv ps [] (by simp) (fun h => hst ((hm _).1 h)) q ((hm q).2 hq)
    · left
      obtain ⟨a, ha⟩ := List.exists_mem_of_ne_nil _ h.2.1
      refine ⟨a, ?_⟩
      intro b hb
      apply Classical.byContradiction
      intro hne
      exact hd ⟨b, hb, a, ha, hne⟩

end GoMatcher
