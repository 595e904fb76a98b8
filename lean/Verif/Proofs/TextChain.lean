import Verif.Spec.GlobText
import Verif.Proofs.ClassText
import Verif.Proofs.ParseAlt

/-! # Parsing every text: tokens without braces -/

namespace GoMatcher

/-- No U+FFFD and no NUL. -/
def PlainText (g : List Char) : Prop := ∀ c ∈ g, c.toNat ≠ 0xFFFD ∧ c.toNat ≠ 0

theorem PlainText.left {a b : List Char} (h : PlainText (a ++ b)) : PlainText a :=
  fun c hc => h c (by simp [hc])

theorem PlainText.right {a b : List Char} (h : PlainText (a ++ b)) : PlainText b :=
  fun c hc => h c (by simp [hc])

theorem PlainText.tail {c : Char} {b : List Char} (h : PlainText (c :: b)) : PlainText b :=
  fun c hc => h c (by simp [hc])

/-! ## Runs -/

theorem span_lits (g : List Char) : ∃ l r, g = l ++ r ∧ (∀ c ∈ l, isSpecial c = false) ∧
    (r = [] ∨ ∃ c t, r = c :: t ∧ isSpecial c = true) := by
  induction g with
  | nil => exact ⟨[], [], rfl, by simp, .inl rfl⟩
  | cons c g ih =>
    cases hc : isSpecial c with
    | true => exact ⟨[], c :: g, rfl, by simp, .inr ⟨c, g, rfl, hc⟩⟩
    | false =>
      obtain ⟨l, r, rfl, h1, h2⟩ := ih
      refine ⟨c :: l, r, rfl, ?_, h2⟩
      intro d hd
      rcases List.mem_cons.1 hd with rfl | hd
      · exact hc
      · exact h1 d hd

theorem span_stars (g : List Char) : ∃ k r, g = List.replicate k '*' ++ r ∧ ∀ t, r ≠ '*' :: t := by
  induction g with
  | nil => exact ⟨0, [], rfl, by simp⟩
  | cons c g ih =>
    by_cases hc : c = '*'
    · obtain ⟨k, r, rfl, h⟩ := ih
      exact ⟨k + 1, r, by rw [hc, List.replicate_succ]; rfl, h⟩
    · exact ⟨0, c :: g, rfl, by intro t e; injection e with e _; exact hc e⟩

theorem span_byte (x : Char) (g : List Char) : x ∉ g ∨ ∃ a b, g = a ++ x :: b ∧ x ∉ a := by
  induction g with
  | nil => exact .inl (by simp)
  | cons c g ih =>
    by_cases hc : c = x
    · exact .inr ⟨[], g, by simp [hc], by simp⟩
    · rcases ih with h | ⟨a, b, rfl, h⟩
      · refine .inl ?_
        simp only [List.mem_cons, not_or]
        exact ⟨fun e => hc e.symm, h⟩
      · refine .inr ⟨c :: a, b, rfl, ?_⟩
        simp only [List.mem_cons, not_or]
        exact ⟨fun e => hc e.symm, h⟩

/-! ## One step of the parser -/

theorem next_lit (fuel : Nat) {l r : List Char} (hne : l ≠ [])
    (hl : ∀ c ∈ l, isSpecial c = false ∧ isFF c = false)
    (hr : r = [] ∨ ∃ c t, r = c :: t ∧ isSpecial c = true) :
    ∃ it, IsLit it l ∧ nextItem (fuel + 1) (utf8 (l ++ r)) = .ok (.ok (some it, utf8 r)) := by
  have hnw := no_wild (cs := l) (fun d hd => (hl d hd).1)
  obtain ⟨b, t, hbt⟩ : ∃ b t, utf8 l = b :: t := by
    cases h : utf8 l with
    | nil => exact absurd ((utf8_eq_nil _).1 h) hne
    | cons b t => exact ⟨b, t, rfl⟩
  have hb : isWild b = false := hnw b (by rw [hbt]; simp)
  have hbs : b ≠ 91 ∧ b ≠ 123 ∧ b ≠ 42 ∧ b ≠ 63 ∧ ¬ (b = 93 || b = 125) = true := by
    refine ⟨?_, ?_, ?_, ?_, ?_⟩
    · rintro rfl; exact absurd hb (by decide)
    · rintro rfl; exact absurd hb (by decide)
    · rintro rfl; exact absurd hb (by decide)
    · rintro rfl; exact absurd hb (by decide)
    · intro h
      simp only [Bool.or_eq_true, decide_eq_true_eq] at h
      rcases h with rfl | rfl <;> exact absurd hb (by decide)
  have hu : utf8 (l ++ r) = b :: (t ++ utf8 r) := by
    rw [utf8_append, hbt]; rfl
  have hstep : nextItem (fuel + 1) (utf8 (l ++ r)) =
      match indexWildcard (utf8 (l ++ r)) with
      | none => .ok (.ok (some (.str (utf8 (l ++ r))), []))
      | some n => (do
        let v ← sliceTo (utf8 (l ++ r)) n
        let next ← sliceFrom (utf8 (l ++ r)) n
        .ok (.ok (some (literalItem v), next)) : R (Except GErr (Option Item × Str))) := by
    rw [hu, nextItem]
    dsimp only
    rw [if_neg hbs.1, if_neg hbs.2.1, if_neg hbs.2.2.1, if_neg hbs.2.2.2.1,
      if_neg hbs.2.2.2.2]
    rfl
  rw [hstep]
  rcases hr with rfl | ⟨d, r, rfl, hsp⟩
  · have hi : indexWildcard (utf8 (l ++ [])) = none := by
      unfold indexWildcard
      rw [indexP_none]
      simpa using hnw
    rw [hi]
    exact ⟨.str (utf8 l), rfl, by simp⟩
  · obtain ⟨b', hb', hw'⟩ := isWild_of_special hsp
    have hu2 : utf8 (l ++ d :: r) = utf8 l ++ b' :: utf8 r := by
      rw [utf8_append, show d :: r = [d] ++ r from rfl, utf8_append [d], hb']
      rfl
    have hi : indexWildcard (utf8 (l ++ d :: r)) = some (utf8 l).length := by
      rw [hu2]; exact indexP_append hnw hw'
    rw [hi]
    dsimp only
    rw [sliceTo, if_pos (by rw [utf8_append]; simp), sliceFrom,
      if_pos (by rw [utf8_append]; simp)]
    simp only [R.bind_ok]
    rw [utf8_append, List.take_left, List.drop_left]
    exact ⟨_, literalItem_isLit hne (fun d hd => (hl d hd).2), rfl⟩

theorem next_any (fuel : Nat) (r : List Char) :
    nextItem (fuel + 1) (utf8 ('?' :: r)) = .ok (.ok (some (.any 1), utf8 r)) := by
  have hu : utf8 ('?' :: r) = 63 :: utf8 r := rfl
  rw [hu, nextItem]
  rfl

theorem next_star (fuel k : Nat) (r : List Char) (hr : ∀ t, r ≠ '*' :: t) :
    nextItem (fuel + 1) (utf8 (List.replicate (k + 1) '*' ++ r)) =
      .ok (.ok (some (.star 0), utf8 r)) := by
  have hsk := skipStars_run (k + 1) r hr
  have hu : utf8 (List.replicate (k + 1) '*' ++ r) = 42 :: utf8 (List.replicate k '*' ++ r) := rfl
  rw [hu] at hsk ⊢
  rw [nextItem]
  dsimp only
  rw [if_neg (by decide), if_neg (by decide), if_pos rfl, hsk]
  rfl

theorem next_close (fuel : Nat) {c : Char} (r : List Char) (h : c = ']' ∨ c = '}') :
    nextItem (fuel + 1) (utf8 (c :: r)) = .ok (.error (.unclosed (utf8 (c :: r)))) := by
  rcases h with rfl | rfl
  · have hu : utf8 (']' :: r) = 93 :: utf8 r := rfl
    rw [hu, nextItem]; rfl
  · have hu : utf8 ('}' :: r) = 125 :: utf8 r := rfl
    rw [hu, nextItem]; rfl

/-! ## Classes -/

theorem not_mem_utf8 {x : Char} {b : UInt8} (hb : b.toNat < 128) (hx : x.toNat = b.toNat)
    {g : List Char} (h : x ∉ g) : b ∉ utf8 g := by
  intro hm
  obtain ⟨c, hc, e⟩ := (mem_utf8_ascii hb _).1 hm
  exact h (by rw [← Char.toNat_val_inj (c := c) (d := x) (by rw [e, hx])]; exact hc)

theorem next_cls (fuel : Nat) {body : List Char} (r : List Char) (hb : ']' ∉ body) :
    nextItem (fuel + 1) (utf8 ('[' :: body ++ ']' :: r)) =
      match RunesRanges.expand (0x5B :: utf8 body ++ [0x5D]) with
      | none => .ok (.error (.mismatch (b! "rune") (0x5B :: utf8 body ++ [0x5D])))
      | some runes => .ok (.ok (classItem runes, utf8 r)) := by
  have hu : utf8 ('[' :: body ++ ']' :: r) = (91 :: utf8 body) ++ 93 :: utf8 r := by
    rw [utf8_append]; rfl
  have hnot : (93 : UInt8) ∉ (91 :: utf8 body) := by
    intro hm
    rcases List.mem_cons.1 hm with h | h
    · exact absurd h (by decide)
    · exact not_mem_utf8 (x := ']') (by decide) (by decide) hb h
  have hcut := cutAfter_byte (utf8 r) hnot
  rw [hu]
  rw [List.cons_append] at hcut ⊢
  rw [nextItem]
  dsimp only
  rw [if_pos rfl, hcut]
  simp only [R.bind_ok]
  rfl

theorem next_cls_open (fuel : Nat) {g : List Char} (hb : ']' ∉ g) :
    nextItem (fuel + 1) (utf8 ('[' :: g)) = .ok (.error (.mismatch (b! "rune") (utf8 ('[' :: g)))) := by
  have hu : utf8 ('[' :: g) = 91 :: utf8 g := rfl
  have hno : (93 : UInt8) ∉ utf8 g := not_mem_utf8 (x := ']') (by decide) (by decide) hb
  have hcut : cutAfter (91 :: utf8 g) 93 = .ok (91 :: utf8 g, []) := by
    unfold cutAfter
    have : strIndex (91 :: utf8 g) [93] = none := by
      rw [strIndex_none]
      intro p q h
      have hm : (93 : UInt8) ∈ 91 :: utf8 g := by rw [h]; simp
      rcases List.mem_cons.1 hm with h | h
      · exact absurd h (by decide)
      · exact hno h
    rw [this]
  rw [hu, nextItem]
  dsimp only
  rw [if_pos rfl, hcut]
  simp only [R.bind_ok]
  have : RunesRanges.expand (91 :: utf8 g) = none := by
    have hn : ¬ (utf8 g).getLast? = some 0x5D := fun h => hno (List.mem_of_getLast? h)
    simp only [RunesRanges.expand, if_neg hn]
  rw [this]

theorem Reads.chars {cs : List Char} {es : List (Char × Char)} (h : Reads cs es) :
    ∀ e ∈ es, e.1 ∈ cs ∧ e.2 ∈ cs ∧ e.1 ≠ '-' ∧ e.2 ≠ '-' := by
  induction h with
  | nil => simp
  | skip hr _ ih =>
    intro e he
    obtain ⟨h1, h2, h3⟩ := ih e he
    exact ⟨List.mem_cons_of_mem _ h1, List.mem_cons_of_mem _ h2, h3⟩
  | single h1 h2 h3 _ ih =>
    intro e he
    rcases List.mem_cons.1 he with rfl | he
    · exact ⟨List.mem_cons_self, List.mem_cons_self, h1, h1⟩
    · obtain ⟨h1, h2, h3⟩ := ih e he
      exact ⟨List.mem_cons_of_mem _ h1, List.mem_cons_of_mem _ h2, h3⟩
  | trailing k h1 h2 =>
    intro e he
    rw [List.mem_singleton.1 he]
    exact ⟨List.mem_cons_self, List.mem_cons_self, h1, h1⟩
  | range k h1 h2 h3 _ ih =>
    intro e he
    rcases List.mem_cons.1 he with rfl | he
    · exact ⟨List.mem_cons_self, by simp, h1, h3⟩
    · obtain ⟨h1, h2, h3⟩ := ih e he
      exact ⟨by simp [h1], by simp [h2], h3⟩

theorem rangeStr_snd (cs : List Char) :
    (rangeStr (utf8 cs)).map Prod.snd = cs.map fun c => c.toNat := by
  exact rangeStr_utf8 cs

theorem classItem_none {rs : RunesRanges} (h : RunesRanges.ClassSem rs (RunesRanges.ReadMem [])) :
    classItem rs = none := by
  have hno : ∀ c, ¬ RunesRanges.ReadMem [] c := by
    rintro c ⟨e, he, _⟩
    cases he
  have hr : rs.ranges = [] := by
    cases hr : rs.ranges with
    | nil => rfl
    | cons r l =>
      have h1 := h.wf r (by rw [hr]; simp)
      have h2 := h.sorted.1 r (by rw [hr]; simp)
      have hc : rs.contains r.first = true := by
        rw [RunesRanges.contains_of_ge rs (by omega)]
        exact (RunesRanges.containsUnicode_spec h.sorted _).2 ⟨r, by rw [hr]; simp, Nat.le_refl _, h2⟩
      exact absurd ((h.mem _).1 hc) (hno _)
  have hcnt : rs.ascii.count.1 = 0 := by
    rw [ASCIISet.count_eq]
    have : ASCIISet.codes.filter rs.ascii.contains = [] := by
      rw [List.filter_eq_nil_iff]
      intro b hb hcb
      have hb' := ((ASCIISet.mem_codes b).1 hb).2
      refine hno b.toNat ((h.mem _).1 ?_)
      rw [RunesRanges.contains_of_lt rs (by omega)]
      simpa using hcb
    rw [this]
    rfl
  unfold classItem
  dsimp only
  rw [if_pos ⟨hcnt, by rw [hr]; rfl⟩]

/-- What the parser makes of a closed class. -/
inductive ClsRes (body : List Char) : R (Except GErr (Option Item × Str)) → Str → Prop
  | bad {rest e} (h : ¬ ∃ es, ClassText body es) : ClsRes body (.ok (.error e)) rest
  | empty {rest} (h : ClassText body []) : ClsRes body (.ok (.ok (none, rest))) rest
  | cls {rest es it} (h : ClassText body es) (hne : es ≠ [])
      (hit : ClsItem (es.map fun e => .range e.1 e.2) it) :
      ClsRes body (.ok (.ok (some it, rest))) rest

theorem next_cls_res (fuel : Nat) {body : List Char} (r : List Char) (hb : ']' ∉ body)
    (hp : PlainText body) :
    ClsRes body (nextItem (fuel + 1) (utf8 ('[' :: body ++ ']' :: r))) (utf8 r) := by
  rw [next_cls fuel r hb]
  obtain ⟨es, hes⟩ := RunesRanges.reads_total body
  rcases RunesRanges.expand_reads (rangeStr_snd body) hes with ⟨hg, rs, hx, hsem⟩ | ⟨hg, hx⟩
  · rw [hx]
    dsimp only
    cases es with
    | nil =>
      rw [classItem_none hsem]
      exact .empty ⟨hb, hes, by simp⟩
    | cons e es =>
      have hok : ∀ x ∈ ((e :: es).map fun e => ClassElt.range e.1 e.2), x.Ok := by
        intro x hx
        obtain ⟨y, hy, rfl⟩ := List.mem_map.1 hx
        obtain ⟨h1, h2, h3, h4⟩ := hes.chars y hy
        exact ⟨h3, h4, (hp _ h1).1, (hp _ h2).1, (hg y hy).1, (hg y hy).2⟩
      have hiff : ∀ c, RunesRanges.ReadMem (e :: es) c ↔
          ClassMem ((e :: es).map fun e => ClassElt.range e.1 e.2) c := by
        intro c
        unfold ClassMem
        constructor
        · rintro ⟨y, hy, h⟩; exact ⟨_, List.mem_map.2 ⟨y, hy, rfl⟩, h⟩
        · rintro ⟨x, hx, h⟩
          obtain ⟨y, hy, rfl⟩ := List.mem_map.1 hx
          exact ⟨y, hy, h⟩
      have h0 : ¬ ClassMem ((e :: es).map fun e => ClassElt.range e.1 e.2) 0 := by
        rw [← hiff]
        rintro ⟨y, hy, h, _⟩
        have := (hp _ (hes.chars y hy).1).2
        omega
      obtain ⟨it, hit, hcls⟩ := classItem_spec (by simp) hok h0 (hsem.congr hiff)
        (expand_needMerge hx)
      rw [hit]
      exact .cls ⟨hb, hes, hg⟩ (by simp) hcls
  · rw [hx]
    refine .bad ?_
    rintro ⟨es', h1, h2, h3⟩
    rw [RunesRanges.reads_unique hes es' h2] at h3
    exact hg h3

theorem next_brace_open (fuel : Nat) {g : List Char} (hb : '}' ∉ g) :
    nextItem (fuel + 1) (utf8 ('{' :: g)) = .ok (.error (.mismatch (b! "list") (utf8 ('{' :: g)))) := by
  have hu : utf8 ('{' :: g) = 123 :: utf8 g := rfl
  have hno : (125 : UInt8) ∉ utf8 g := not_mem_utf8 (x := '}') (by decide) (by decide) hb
  have hcut : cutAfter (123 :: utf8 g) 125 = .ok (123 :: utf8 g, []) := by
    unfold cutAfter
    have : strIndex (123 :: utf8 g) [125] = none := by
      rw [strIndex_none]
      intro p q h
      have hm : (125 : UInt8) ∈ 123 :: utf8 g := by rw [h]; simp
      rcases List.mem_cons.1 hm with h | h
      · exact absurd h (by decide)
      · exact hno h
    rw [this]
  rw [hu, nextItem]
  dsimp only
  rw [if_neg (by decide), if_pos rfl, hcut]
  simp only [R.bind_ok]
  have : listExpand (123 :: utf8 g) = none := by
    unfold listExpand
    rw [if_neg]
    rintro ⟨_, _, h⟩
    rcases List.mem_cons.1 (List.mem_of_getLast? h) with h | h
    · exact absurd h (by decide)
    · exact hno h
  rw [this]

/-! ## Readings -/

theorem SubTok.ne_nil {p : List Char} {s : Sub} (h : SubTok p s) : p ≠ [] := by
  cases h <;> simp

/-- The first character tells the kind of token. -/
theorem SubTok.head {p : List Char} {s : Sub} (h : SubTok p s) : ∃ c t, p = c :: t ∧
    ((isSpecial c = false ∧ t = [] ∧ s = .lit c) ∨ (c = '?' ∧ t = [] ∧ s = .any) ∨
     (c = '*' ∧ t = [] ∧ s = .star) ∨
     (c = '[' ∧ ∃ body es, t = body ++ [']'] ∧ ClassText body es ∧ es ≠ [] ∧
        s = .cls (es.map fun e => .range e.1 e.2))) := by
  cases h with
  | @lit c h => exact ⟨c, [], rfl, .inl ⟨h, rfl, rfl⟩⟩
  | any => exact ⟨_, [], rfl, .inr (.inl ⟨rfl, rfl, rfl⟩)⟩
  | star => exact ⟨_, [], rfl, .inr (.inr (.inl ⟨rfl, rfl, rfl⟩))⟩
  | @cls body es h hne => exact ⟨'[', _, rfl, .inr (.inr (.inr ⟨rfl, body, es, rfl, h, hne, rfl⟩))⟩

theorem SubText.nil_inv {ss : List Sub} (h : SubText [] ss) : ss = [] := by
  generalize hx : ([] : List Char) = x at h
  cases h with
  | nil => rfl
  | cons h hr =>
    have := h.ne_nil
    simp_all
  | empty h hr =>
    obtain ⟨body, rfl, _⟩ := h
    simp at hx

theorem SubText.lit_inv {c : Char} {g : List Char} {ss : List Sub}
    (hc : isSpecial c = false) (h : SubText (c :: g) ss) :
    ∃ ss', ss = .lit c :: ss' ∧ SubText g ss' := by
  generalize hx : c :: g = x at h
  cases h with
  | nil => cases hx
  | @cons p g' s ss' h hr =>
    obtain ⟨d, t, hpd, hk⟩ := h.head
    subst hpd
    simp only [List.cons_append, List.cons.injEq] at hx
    obtain ⟨rfl, hx⟩ := hx
    clear h
    rcases hk with ⟨_, rfl, rfl⟩ | ⟨rfl, _⟩ | ⟨rfl, _⟩ | ⟨rfl, _⟩
    · exact ⟨ss', rfl, by simpa [hx] using hr⟩
    · exact absurd hc (by decide)
    · exact absurd hc (by decide)
    · exact absurd hc (by decide)
  | empty h hr =>
    obtain ⟨body, rfl, _⟩ := h
    simp only [List.cons_append, List.cons.injEq] at hx
    rw [hx.1] at hc
    exact absurd hc (by decide)

theorem SubText.any_inv {g : List Char} {ss : List Sub}
    (h : SubText ('?' :: g) ss) :
    ∃ ss', ss = .any :: ss' ∧ SubText g ss' := by
  generalize hx : '?' :: g = x at h
  cases h with
  | nil => cases hx
  | @cons p g' s ss' h hr =>
    obtain ⟨d, t, hpd, hk⟩ := h.head
    subst hpd
    simp only [List.cons_append, List.cons.injEq] at hx
    obtain ⟨rfl, hx⟩ := hx
    clear h
    rcases hk with ⟨h, _⟩ | ⟨_, rfl, rfl⟩ | ⟨h, _⟩ | ⟨h, _⟩
    · exact absurd h (by decide)
    · exact ⟨ss', rfl, by simpa [hx] using hr⟩
    · exact absurd h (by decide)
    · exact absurd h (by decide)
  | empty h hr =>
    obtain ⟨body, rfl, _⟩ := h
    simp only [List.cons_append, List.cons.injEq] at hx
    exact absurd hx.1 (by decide)

theorem SubText.star_inv {g : List Char} {ss : List Sub}
    (h : SubText ('*' :: g) ss) :
    ∃ ss', ss = .star :: ss' ∧ SubText g ss' := by
  generalize hx : '*' :: g = x at h
  cases h with
  | nil => cases hx
  | @cons p g' s ss' h hr =>
    obtain ⟨d, t, hpd, hk⟩ := h.head
    subst hpd
    simp only [List.cons_append, List.cons.injEq] at hx
    obtain ⟨rfl, hx⟩ := hx
    clear h
    rcases hk with ⟨h, _⟩ | ⟨h, _⟩ | ⟨_, rfl, rfl⟩ | ⟨h, _⟩
    · exact absurd h (by decide)
    · exact absurd h (by decide)
    · exact ⟨ss', rfl, by simpa [hx] using hr⟩
    · exact absurd h (by decide)
  | empty h hr =>
    obtain ⟨body, rfl, _⟩ := h
    simp only [List.cons_append, List.cons.injEq] at hx
    exact absurd hx.1 (by decide)

theorem SubText.cls_inv {g : List Char} {ss : List Sub}
    (h : SubText ('[' :: g) ss) :
    ∃ body g', g = body ++ ']' :: g' ∧
      ((∃ es ss', ClassText body es ∧ es ≠ [] ∧
          ss = .cls (es.map fun e => .range e.1 e.2) :: ss' ∧ SubText g' ss') ∨
       (ClassText body [] ∧ SubText g' ss)) := by
  generalize hx : '[' :: g = x at h
  cases h with
  | nil => cases hx
  | @cons p g' s ss' h hr =>
    obtain ⟨d, t, hpd, hk⟩ := h.head
    subst hpd
    simp only [List.cons_append, List.cons.injEq] at hx
    obtain ⟨rfl, hx⟩ := hx
    clear h
    rcases hk with ⟨h, _⟩ | ⟨h, _⟩ | ⟨h, _⟩ | ⟨_, body, es, rfl, h1, h2, h3⟩
    · exact absurd h (by decide)
    · exact absurd h (by decide)
    · exact absurd h (by decide)
    · refine ⟨body, g', by simp [hx], .inl ⟨es, ss', h1, h2, by rw [h3], hr⟩⟩
  | @empty p g' ss h hr =>
    obtain ⟨body, rfl, h⟩ := h
    simp only [List.cons_append, List.cons.injEq] at hx
    exact ⟨body, g', by simp [hx.2], .inr ⟨h, hr⟩⟩

theorem SubText.bad_head {c : Char} {g : List Char} {ss : List Sub}
    (hc : c = ']' ∨ c = '}' ∨ c = '{') (h : SubText (c :: g) ss) : False := by
  generalize hx : c :: g = x at h
  cases h with
  | nil => cases hx
  | @cons p g' s ss' h hr =>
    obtain ⟨d, t, hpd, hk⟩ := h.head
    subst hpd
    simp only [List.cons_append, List.cons.injEq] at hx
    rw [← hx.1] at hk
    clear h
    rcases hc with rfl | rfl | rfl <;> rcases hk with ⟨h, _⟩ | ⟨h, _⟩ | ⟨h, _⟩ | ⟨h, _⟩ <;>
      revert h <;> decide
  | empty h hr =>
    obtain ⟨body, rfl, _⟩ := h
    simp only [List.cons_append, List.cons.injEq] at hx
    rcases hc with rfl | rfl | rfl <;> revert hx <;> simp

theorem SubText.lits_inv {l g : List Char} {ss : List Sub}
    (hl : ∀ c ∈ l, isSpecial c = false) (h : SubText (l ++ g) ss) :
    ∃ ss', ss = l.map .lit ++ ss' ∧ SubText g ss' := by
  induction l generalizing ss with
  | nil => exact ⟨ss, rfl, h⟩
  | cons c l ih =>
    obtain ⟨s1, rfl, h1⟩ := h.lit_inv (hl c (by simp))
    obtain ⟨s2, rfl, h2⟩ := ih (fun d hd => hl d (by simp [hd])) h1
    exact ⟨s2, rfl, h2⟩

theorem SubText.stars_inv {k : Nat} {g : List Char} {ss : List Sub}
    (h : SubText (List.replicate k '*' ++ g) ss) :
    ∃ ss', ss = List.replicate k .star ++ ss' ∧ SubText g ss' := by
  induction k generalizing ss with
  | zero => exact ⟨ss, rfl, h⟩
  | succ k ih =>
    rw [List.replicate_succ, List.cons_append] at h
    obtain ⟨s1, rfl, h1⟩ := h.star_inv
    obtain ⟨s2, rfl, h2⟩ := ih h1
    exact ⟨s2, by rw [List.replicate_succ]; rfl, h2⟩

theorem SubText.lits {l g : List Char} {ss : List Sub}
    (hl : ∀ c ∈ l, isSpecial c = false) (h : SubText g ss) :
    SubText (l ++ g) (l.map .lit ++ ss) := by
  induction l with
  | nil => exact h
  | cons c l ih =>
    exact SubText.cons (p := [c]) (.lit (hl c (by simp))) (ih fun d hd => hl d (by simp [hd]))

theorem SubText.stars {k : Nat} {g : List Char} {ss : List Sub}
    (h : SubText g ss) :
    SubText (List.replicate k '*' ++ g) (List.replicate k .star ++ ss) := by
  induction k with
  | zero => exact h
  | succ k ih =>
    rw [List.replicate_succ, List.replicate_succ]
    exact SubText.cons (p := ['*']) .star ih

/-- How a text starts. -/
inductive TextHead : List Char → Prop
  | nil : TextHead []
  | lits {l r : List Char} (hne : l ≠ []) (hl : ∀ c ∈ l, isSpecial c = false)
      (hr : r = [] ∨ ∃ c t, r = c :: t ∧ isSpecial c = true) : TextHead (l ++ r)
  | any (r : List Char) : TextHead ('?' :: r)
  | stars (k : Nat) {r : List Char} (hr : ∀ t, r ≠ '*' :: t) :
      TextHead (List.replicate (k + 1) '*' ++ r)
  | cls {body : List Char} (r : List Char) (hb : ']' ∉ body) : TextHead ('[' :: body ++ ']' :: r)
  | open {t : List Char} (ht : ']' ∉ t) : TextHead ('[' :: t)
  | close {c : Char} (r : List Char) (hc : c = ']' ∨ c = '}') : TextHead (c :: r)
  | brace (t : List Char) : TextHead ('{' :: t)

theorem textHead (g : List Char) : TextHead g := by
  cases g with
  | nil => exact .nil
  | cons c t =>
    cases hc : isSpecial c with
    | false =>
      obtain ⟨l, r, e, hl, hr⟩ := span_lits (c :: t)
      rw [e]
      refine .lits ?_ hl hr
      rintro rfl
      rcases hr with rfl | ⟨d, t', rfl, hd⟩
      · cases e
      · simp only [List.nil_append, List.cons.injEq] at e
        rw [← e.1, hc] at hd
        cases hd
    | true =>
      simp only [isSpecial, Bool.or_eq_true, decide_eq_true_eq] at hc
      rcases hc with ((((rfl | rfl) | rfl) | rfl) | rfl) | rfl
      · rcases span_byte ']' t with h | ⟨a, b, rfl, h⟩
        · exact .open h
        · exact TextHead.cls (body := a) b h
      · exact .close t (.inl rfl)
      · exact .brace t
      · exact .close t (.inr rfl)
      · obtain ⟨k, r, e, hr⟩ := span_stars t
        rw [e]
        exact TextHead.stars k hr
      · exact .any t

theorem PlainText.lits {l : List Char} (h : PlainText l) (hl : ∀ c ∈ l, isSpecial c = false) :
    ∀ c ∈ l, isSpecial c = false ∧ isFF c = false := by
  intro c hc
  refine ⟨hl c hc, ?_⟩
  have := (h c hc).1
  simp [isFF, this]

theorem classText_unique {body : List Char} {es es' : List (Char × Char)} (h : ClassText body es)
    (h' : ClassText body es') : es' = es := RunesRanges.reads_unique h.2.1 es' h'.2.1

theorem chain_ok (fuel : Nat) (p : List Char) (ss : List Sub) (c : ChainSt)
    (hp : PlainText p) (h : SubText p ss)
    (ht : chainLoop fuel (utf8 p) c ≠ .timeout) :
    ∃ raws, RawSubs ss raws ∧
      chainLoop fuel (utf8 p) c = .ok (.ok (raws.foldl ChainSt.append c)) := by
  induction fuel generalizing p ss c with
  | zero => exact absurd rfl ht
  | succ fuel ih =>
    -- one item
    have step : ∀ {ch : List Sub} {it : Item} {r : List Char} {ss' : List Sub}, utf8 p ≠ [] →
        nextItem fuel (utf8 p) = .ok (.ok (some it, utf8 r)) → Chunk ch it → PlainText r →
        SubText r ss' → ss = ch ++ ss' → ∃ raws, RawSubs ss raws ∧
          chainLoop (fuel + 1) (utf8 p) c = .ok (.ok (raws.foldl ChainSt.append c)) := by
      intro ch it r ss' hne hn hch hr hs e
      cases hu : utf8 p with
      | nil => exact absurd hu hne
      | cons b t =>
        rw [hu] at ht hn
        rw [chainLoop] at ht ⊢
        rw [hn] at ht ⊢
        simp only [R.bind_ok] at ht ⊢
        obtain ⟨raws, h1, h2⟩ := ih r ss' (c.append it) hr hs ht
        exact ⟨it :: raws, by rw [e]; exact .cons hch h1, by rw [h2]; rfl⟩
    have hfuel : utf8 p ≠ [] → ∃ f, fuel = f + 1 := by
      intro hne
      cases fuel with
      | zero =>
        cases hu : utf8 p with
        | nil => exact absurd hu hne
        | cons b t =>
          rw [hu] at ht
          exact absurd rfl ht
      | succ f => exact ⟨f, rfl⟩
    have ne : p ≠ [] → utf8 p ≠ [] := fun h e => h ((utf8_eq_nil _).1 e)
    cases textHead p with
    | nil =>
      rw [h.nil_inv]
      exact ⟨[], .nil, rfl⟩
    | @lits l r hne hl hr =>
      have hne' := ne (by simp [hne])
      obtain ⟨f, rfl⟩ := hfuel hne'
      obtain ⟨ss', e, h1⟩ := h.lits_inv hl
      obtain ⟨it, hit, hn⟩ := next_lit f hne (hp.left.lits hl) hr
      exact step hne' hn (.lits hne hit) hp.right h1 e
    | any r =>
      have hne' := ne (by simp)
      obtain ⟨f, rfl⟩ := hfuel hne'
      obtain ⟨ss', e, h1⟩ := h.any_inv
      exact step hne' (next_any f r) .any hp.tail h1 e
    | @stars k r hr =>
      have hne' := ne (by simp [List.replicate_succ])
      obtain ⟨f, rfl⟩ := hfuel hne'
      obtain ⟨ss', e, h1⟩ := h.stars_inv
      exact step hne' (next_star f k r hr) (.stars k) hp.right h1 e
    | @cls body r hb =>
      have hne' := ne (by simp)
      obtain ⟨f, rfl⟩ := hfuel hne'
      obtain ⟨body', g', e, hcase⟩ := SubText.cls_inv (g := body ++ ']' :: r) h
      have hb' : ']' ∉ body' := by
        rcases hcase with ⟨es, _, h, _⟩ | ⟨h, _⟩ <;> exact h.1
      obtain ⟨rfl, rfl⟩ := append_sep_inj hb hb' e
      have hpb : PlainText body := fun c hc => hp c (by simp [hc])
      have hpr : PlainText r := fun c hc => hp c (by simp [hc])
      have hn := next_cls_res f r hb hpb
      rcases hcase with ⟨es, ss', h1, h2, h3, h4⟩ | ⟨h1, h2⟩
      · generalize hx : nextItem (f + 1) (utf8 ('[' :: body ++ ']' :: r)) = x at hn
        cases hn with
        | bad h => exact absurd ⟨es, h1⟩ h
        | empty h => exact absurd (classText_unique h h1) h2
        | cls h hne hit =>
          rw [classText_unique h1 h] at hit
          exact step hne' hx (.cls hit) hpr h4 h3
      · generalize hx : nextItem (f + 1) (utf8 ('[' :: body ++ ']' :: r)) = x at hn
        cases hn with
        | bad h => exact absurd ⟨[], h1⟩ h
        | cls h hne hit => exact absurd (classText_unique h1 h) hne
        | empty h =>
          cases hu : utf8 ('[' :: body ++ ']' :: r) with
          | nil => exact absurd hu hne'
          | cons b t =>
            rw [hu] at ht hx
            rw [chainLoop] at ht ⊢
            rw [hx] at ht ⊢
            simp only [R.bind_ok] at ht ⊢
            exact ih r ss c hpr h2 ht
    | @«open» t hb =>
      obtain ⟨body', g', rfl, _⟩ := h.cls_inv
      exact absurd (by simp) hb
    | close r hc => exact (h.bad_head (by rcases hc with h | h <;> simp [h])).elim
    | brace t => exact (h.bad_head (by simp)).elim

theorem chain_inv (fuel : Nat) (p : List Char) (c c' : ChainSt) (hp : PlainText p)
    (hb : '}' ∉ p) (h : chainLoop fuel (utf8 p) c = .ok (.ok c')) : ∃ ss, SubText p ss := by
  induction fuel generalizing p c with
  | zero => cases h
  | succ fuel ih =>
    have ne : p ≠ [] → ∃ f, fuel = f + 1 ∧ utf8 p ≠ [] := by
      intro h'
      have hne : utf8 p ≠ [] := fun e => h' ((utf8_eq_nil _).1 e)
      cases fuel with
      | succ f => exact ⟨f, rfl, hne⟩
      | zero =>
        cases hu : utf8 p with
        | nil => exact absurd hu hne
        | cons b t =>
          rw [hu] at h
          cases h
    have err : ∀ e, utf8 p ≠ [] → nextItem fuel (utf8 p) = .ok (.error e) → False := by
      intro e hne hn
      cases hu : utf8 p with
      | nil => exact hne hu
      | cons b t =>
        rw [hu] at h hn
        rw [chainLoop, hn] at h
        cases h
    have next : ∀ {x : Option Item} {r : List Char}, utf8 p ≠ [] →
        nextItem fuel (utf8 p) = .ok (.ok (x, utf8 r)) → PlainText r → '}' ∉ r →
        ∃ ss, SubText r ss := by
      intro x r hne hn hr hbr
      cases hu : utf8 p with
      | nil => exact absurd hu hne
      | cons b t =>
        rw [hu] at h hn
        rw [chainLoop, hn] at h
        simp only [R.bind_ok] at h
        cases x with
        | none => exact ih r c hr hbr h
        | some it => exact ih r (c.append it) hr hbr h
    cases textHead p with
    | nil => exact ⟨[], .nil⟩
    | @lits l r hne hl hr =>
      obtain ⟨f, rfl, hne'⟩ := ne (by simp [hne])
      obtain ⟨it, hit, hn⟩ := next_lit f hne (hp.left.lits hl) hr
      obtain ⟨ss, hs⟩ := next hne' hn hp.right (fun h => hb (by simp [h]))
      exact ⟨_, hs.lits hl⟩
    | any r =>
      obtain ⟨f, rfl, hne'⟩ := ne (by simp)
      obtain ⟨ss, hs⟩ := next hne' (next_any f r) hp.tail (fun h => hb (by simp [h]))
      exact ⟨_, SubText.cons (p := ['?']) .any hs⟩
    | @stars k r hr =>
      obtain ⟨f, rfl, hne'⟩ := ne (by simp [List.replicate_succ])
      obtain ⟨ss, hs⟩ := next hne' (next_star f k r hr) hp.right (fun h => hb (by simp [h]))
      exact ⟨_, hs.stars⟩
    | @cls body r hbb =>
      obtain ⟨f, rfl, hne'⟩ := ne (by simp)
      have hpb : PlainText body := fun c hc => hp c (by simp [hc])
      have hpr : PlainText r := fun c hc => hp c (by simp [hc])
      have hn := next_cls_res f r hbb hpb
      have hbr : '}' ∉ r := fun h => hb (by simp [h])
      have e : '[' :: body ++ ']' :: r = ('[' :: body ++ [']']) ++ r := by simp
      generalize hx : nextItem (f + 1) (utf8 ('[' :: body ++ ']' :: r)) = x at hn
      cases hn with
      | bad _ => exact (err _ hne' hx).elim
      | empty hc =>
        obtain ⟨ss, hs⟩ := next hne' hx hpr hbr
        rw [e]
        exact ⟨_, SubText.empty ⟨body, rfl, hc⟩ hs⟩
      | cls hc hne hit =>
        obtain ⟨ss, hs⟩ := next hne' hx hpr hbr
        rw [e]
        exact ⟨_, SubText.cons (.cls hc hne) hs⟩
    | @«open» t hbt =>
      obtain ⟨f, rfl, hne'⟩ := ne (by simp)
      exact (err _ hne' (next_cls_open f hbt)).elim
    | close r hc =>
      obtain ⟨f, rfl, hne'⟩ := ne (by simp)
      exact (err _ hne' (next_close f r hc)).elim
    | brace t =>
      obtain ⟨f, rfl, hne'⟩ := ne (by simp)
      exact (err _ hne' (next_brace_open f (fun h => hb (by simp [h])))).elim

end GoMatcher
