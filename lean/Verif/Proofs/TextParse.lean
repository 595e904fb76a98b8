import Verif.Proofs.TextBraces
import Verif.Proofs.ParseGlob

/-! # Parsing every text: the whole glob -/

namespace GoMatcher

/-! ## Readings of globs -/

theorem EmptyClass.head {p : List Char} (h : EmptyClass p) : ∃ t, p = '[' :: t := by
  obtain ⟨body, rfl, _⟩ := h
  exact ⟨_, rfl⟩

theorem BraceText.head {p : List Char} {parts : List (List Char)} (h : BraceText p parts) :
    ∃ t, p = '{' :: t := by
  obtain ⟨rfl, _⟩ := h
  exact ⟨_, rfl⟩

/-- The rules for braces. -/
inductive BraceRule (loose : Bool) (parts : List (List Char)) : List (List Sub) → Prop
  | same {a : List Char} (ha : ∀ b ∈ parts, b = a) : BraceRule loose parts [a.map .lit]
  | star (hs : ['*'] ∈ parts) (hd : ∃ a ∈ parts, a ≠ ['*'])
      (hb : ∀ a ∈ parts, (∃ c, a.head? = some c ∧ c.toNat < 42) → ∃ ss, SubText a ss) :
      BraceRule loose parts [[.star]]
  | alts {alts : List (List Sub)} (hs : ['*'] ∉ parts) (hd : ∃ a ∈ parts, ∃ b ∈ parts, a ≠ b)
      (ha : SubTexts loose parts alts) : BraceRule loose parts alts

/-- How a reading starts. -/
theorem GlobText.start {loose : Bool} {c : Char} {g : List Char} {ts : List Tok}
    (h : GlobText loose (c :: g) ts) :
    (isSpecial c = false ∧ ∃ ts', ts = .sub (.lit c) :: ts' ∧ GlobText loose g ts') ∨
    (c = '?' ∧ ∃ ts', ts = .sub .any :: ts' ∧ GlobText loose g ts') ∨
    (c = '*' ∧ ∃ ts', ts = .sub .star :: ts' ∧ GlobText loose g ts') ∨
    (c = '[' ∧ ∃ body r ts', g = body ++ ']' :: r ∧ GlobText loose r ts' ∧
      ((∃ es, ClassText body es ∧ es ≠ [] ∧
          ts = .sub (.cls (es.map fun e => .range e.1 e.2)) :: ts') ∨
       (ClassText body [] ∧ ts = .alt [[]] :: ts'))) ∨
    (c = '{' ∧ ∃ p parts r alts ts', c :: g = p ++ r ∧ BraceText p parts ∧
      BraceRule loose parts alts ∧ ts = .alt alts :: ts' ∧ GlobText loose r ts') := by
  generalize hx : c :: g = x at h
  have br : ∀ {p parts r}, BraceText p parts → c :: g = p ++ r → c = '{' := by
    intro p parts r hp e
    obtain ⟨t, rfl⟩ := hp.head
    simp only [List.cons_append, List.cons.injEq] at e
    exact e.1
  cases h with
  | nil => cases hx
  | @sub p g' s ts' h hr =>
    obtain ⟨d, t, hpd, hk⟩ := h.head
    subst hpd
    clear h
    simp only [List.cons_append, List.cons.injEq] at hx
    obtain ⟨rfl, hx⟩ := hx
    rcases hk with ⟨h1, rfl, rfl⟩ | ⟨h1, rfl, rfl⟩ | ⟨h1, rfl, rfl⟩ | ⟨h1, body, es, rfl, h2, h3, h4⟩
    · exact .inl ⟨h1, ts', rfl, by simpa [hx] using hr⟩
    · exact .inr (.inl ⟨h1, ts', rfl, by simpa [hx] using hr⟩)
    · exact .inr (.inr (.inl ⟨h1, ts', rfl, by simpa [hx] using hr⟩))
    · exact .inr (.inr (.inr (.inl ⟨h1, body, g', ts', by simp [hx], hr, .inl ⟨es, h2, h3, by rw [h4]⟩⟩)))
  | @empty p g' ts' h hr =>
    obtain ⟨body, rfl, h⟩ := h
    simp only [List.cons_append, List.cons.injEq] at hx
    exact .inr (.inr (.inr (.inl ⟨hx.1, body, g', ts', by simp [hx.2], hr, .inr ⟨h, rfl⟩⟩)))
  | @same p g' a parts ts' h ha hr =>
    exact .inr (.inr (.inr (.inr ⟨br h hx, p, parts, g', _, ts', hx ▸ rfl, h, .same ha, rfl, hr⟩)))
  | @star p g' parts ts' h hs hd hb hr =>
    exact .inr (.inr (.inr (.inr ⟨br h hx, p, parts, g', _, ts', hx ▸ rfl, h, .star hs hd hb, rfl, hr⟩)))
  | @alts p g' parts alts ts' h hs hd ha hr =>
    exact .inr (.inr (.inr (.inr ⟨br h hx, p, parts, g', _, ts', hx ▸ rfl, h, .alts hs hd ha, rfl, hr⟩)))

theorem GlobText.brace {loose : Bool} {p r : List Char} {parts : List (List Char)}
    {alts : List (List Sub)} {ts : List Tok} (h : BraceText p parts)
    (ha : BraceRule loose parts alts) (hr : GlobText loose r ts) :
    GlobText loose (p ++ r) (.alt alts :: ts) := by
  cases ha with
  | same ha => exact .same h ha hr
  | star hs hd hb => exact .star h hs hd hb hr
  | alts hs hd ha => exact .alts h hs hd ha hr

theorem GlobText.nil_inv {loose : Bool} {ts : List Tok} (h : GlobText loose [] ts) : ts = [] := by
  generalize hx : ([] : List Char) = x at h
  cases h with
  | nil => rfl
  | sub h hr =>
    have := h.ne_nil
    simp_all
  | empty h hr =>
    obtain ⟨t, rfl⟩ := h.head
    cases hx
  | same h | star h | alts h =>
    obtain ⟨t, rfl⟩ := h.head
    cases hx

theorem GlobText.nil_of_nil {loose : Bool} {g : List Char} (h : GlobText loose g []) : g = [] := by
  cases h; rfl

theorem GlobText.lits_inv {loose : Bool} {l g : List Char} {ts : List Tok}
    (hl : ∀ c ∈ l, isSpecial c = false) (h : GlobText loose (l ++ g) ts) :
    ∃ ts', ts = litToks l ++ ts' ∧ GlobText loose g ts' := by
  induction l generalizing ts with
  | nil => exact ⟨ts, rfl, h⟩
  | cons c l ih =>
    have hc := hl c (by simp)
    rcases h.start with ⟨_, ts', rfl, h'⟩ | ⟨rfl, _⟩ | ⟨rfl, _⟩ | ⟨rfl, _⟩ | ⟨rfl, _⟩
    · obtain ⟨ts2, rfl, h2⟩ := ih (fun d hd => hl d (by simp [hd])) h'
      exact ⟨ts2, rfl, h2⟩
    all_goals exact absurd hc (by decide)

theorem GlobText.stars_inv {loose : Bool} {k : Nat} {g : List Char} {ts : List Tok}
    (h : GlobText loose (List.replicate k '*' ++ g) ts) :
    ∃ ts', ts = (List.replicate k Sub.star).map Tok.sub ++ ts' ∧ GlobText loose g ts' := by
  induction k generalizing ts with
  | zero => exact ⟨ts, rfl, h⟩
  | succ k ih =>
    rw [List.replicate_succ, List.cons_append] at h
    rcases h.start with ⟨hc, _⟩ | ⟨hc, _⟩ | ⟨_, ts', rfl, h'⟩ | ⟨hc, _⟩ | ⟨hc, _⟩
    · exact absurd hc (by decide)
    · exact absurd hc (by decide)
    · obtain ⟨ts2, rfl, h2⟩ := ih h'
      exact ⟨ts2, by rw [List.replicate_succ]; rfl, h2⟩
    · exact absurd hc (by decide)
    · exact absurd hc (by decide)

theorem GlobText.append {loose : Bool} {a b : List Char} {ta tb : List Tok}
    (ha : GlobText loose a ta) (hb : GlobText loose b tb) : GlobText loose (a ++ b) (ta ++ tb) := by
  induction ha with
  | nil => exact hb
  | sub h _ ih => rw [List.append_assoc]; exact .sub h ih
  | empty h _ ih => rw [List.append_assoc]; exact .empty h ih
  | same h ha _ ih => rw [List.append_assoc]; exact .same h ha ih
  | star h hs hd hb' _ ih => rw [List.append_assoc]; exact .star h hs hd hb' ih
  | alts h hs hd ha _ ih => rw [List.append_assoc]; exact .alts h hs hd ha ih

theorem GlobText.lits (loose : Bool) {l : List Char} (hl : ∀ c ∈ l, isSpecial c = false) :
    GlobText loose l (litToks l) := by
  induction l with
  | nil => exact .nil
  | cons c l ih =>
    exact GlobText.sub (p := [c]) (.lit (hl c (by simp))) (ih fun d hd => hl d (by simp [hd]))

theorem GlobText.stars (loose : Bool) (k : Nat) :
    GlobText loose (List.replicate k '*') ((List.replicate k Sub.star).map Tok.sub) := by
  induction k with
  | zero => exact .nil
  | succ k ih =>
    rw [List.replicate_succ, List.replicate_succ]
    exact GlobText.sub (p := ['*']) .star ih

/-! ## The loop -/

theorem loop_ok (fuel : Nat) {loose : Bool} (g : List Char) (ts : List Tok) (st : ParseSt)
    (hp : PlainText g) (h : GlobText loose g ts)
    (ht : parseLoop fuel (utf8 g) st ≠ .timeout) :
    ∃ raws, (loose = false → RawToks ts raws) ∧
      parseLoop fuel (utf8 g) st = .ok (.ok (raws.foldl ParseSt.step st)) := by
  induction fuel generalizing g ts st with
  | zero => exact absurd rfl ht
  | succ fuel ih =>
    have hfuel : g ≠ [] → ∃ f, fuel = f + 1 ∧ utf8 g ≠ [] := by
      intro hne
      have hne' : utf8 g ≠ [] := fun e => hne ((utf8_eq_nil _).1 e)
      cases fuel with
      | zero =>
        cases hu : utf8 g with
        | nil => exact absurd hu hne'
        | cons b t =>
          rw [hu] at ht
          exact absurd rfl ht
      | succ f => exact ⟨f, rfl, hne'⟩
    have hnt : g ≠ [] → nextItem fuel (utf8 g) ≠ .timeout := by
      intro hne e
      cases hu : utf8 g with
      | nil => exact hne ((utf8_eq_nil _).1 hu)
      | cons b t =>
        rw [hu] at ht e
        rw [parseLoop, e] at ht
        exact ht rfl
    have step : ∀ {x : Option Item} {r : List Char} {ts' : List Tok}, utf8 g ≠ [] →
        nextItem fuel (utf8 g) = .ok (.ok (x, utf8 r)) → PlainText r →
        GlobText loose r ts' → (loose = false → ∀ raws, RawToks ts' raws →
          RawToks ts (x.toList ++ raws)) → ∃ raws, (loose = false → RawToks ts raws) ∧
          parseLoop (fuel + 1) (utf8 g) st = .ok (.ok (raws.foldl ParseSt.step st)) := by
      intro x r ts' hne hn hr hs hraw
      cases hu : utf8 g with
      | nil => exact absurd hu hne
      | cons b t =>
        rw [hu] at ht hn
        rw [parseLoop] at ht ⊢
        rw [hn] at ht ⊢
        simp only [R.bind_ok] at ht ⊢
        cases x with
        | none =>
          obtain ⟨raws, h1, h2⟩ := ih r ts' st hr hs ht
          exact ⟨raws, fun e => hraw e raws (h1 e), h2⟩
        | some it =>
          obtain ⟨raws, h1, h2⟩ := ih r ts' (st.step it) hr hs ht
          exact ⟨it :: raws, fun e => hraw e raws (h1 e), h2⟩
    cases textHead g with
    | nil =>
      rw [h.nil_inv]
      exact ⟨[], fun _ => .nil, rfl⟩
    | @lits l r hne hl hr =>
      obtain ⟨f, rfl, hne'⟩ := hfuel (by simp [hne])
      obtain ⟨ts', e, h1⟩ := h.lits_inv hl
      obtain ⟨it, hit, hn⟩ := next_lit f hne (hp.left.lits hl) hr
      exact step hne' hn hp.right h1 (fun _ raws hr => by rw [e]; exact .chunk (.lits hne hit) hr)
    | any r =>
      obtain ⟨f, rfl, hne'⟩ := hfuel (by simp)
      rcases h.start with ⟨hc, _⟩ | ⟨_, ts', rfl, h'⟩ | ⟨hc, _⟩ | ⟨hc, _⟩ | ⟨hc, _⟩
      · exact absurd hc (by decide)
      · exact step hne' (next_any f r) hp.tail h' (fun _ raws hr => .chunk .any hr)
      · exact absurd hc (by decide)
      · exact absurd hc (by decide)
      · exact absurd hc (by decide)
    | @stars k r hr =>
      obtain ⟨f, rfl, hne'⟩ := hfuel (by simp [List.replicate_succ])
      obtain ⟨ts', e, h1⟩ := h.stars_inv
      exact step hne' (next_star f k r hr) hp.right h1
        (fun _ raws hr => by rw [e]; exact .chunk (.stars k) hr)
    | @cls body r hb =>
      obtain ⟨f, rfl, hne'⟩ := hfuel (by simp)
      rcases GlobText.start (g := body ++ ']' :: r) h with ⟨hc, _⟩ | ⟨hc, _⟩ | ⟨hc, _⟩ |
        ⟨_, body', r', ts', e, hr', hcase⟩ | ⟨hc, _⟩
      · exact absurd hc (by decide)
      · exact absurd hc (by decide)
      · exact absurd hc (by decide)
      · have hb' : ']' ∉ body' := by
          rcases hcase with ⟨es, h, _⟩ | ⟨h, _⟩ <;> exact h.1
        obtain ⟨rfl, rfl⟩ := append_sep_inj hb hb' e
        have hpb : PlainText body := fun c hc => hp c (by simp [hc])
        have hpr : PlainText r := fun c hc => hp c (by simp [hc])
        have hn := next_cls_res f r hb hpb
        generalize hx : nextItem (f + 1) (utf8 ('[' :: body ++ ']' :: r)) = x at hn
        rcases hcase with ⟨es, h1, h2, h3⟩ | ⟨h1, h3⟩
        · cases hn with
          | bad h => exact absurd ⟨es, h1⟩ h
          | empty h => exact absurd (classText_unique h h1) h2
          | cls h hne hit =>
            rw [classText_unique h1 h] at hit
            exact step hne' hx hpr hr' (fun _ raws hr => by rw [h3]; exact .chunk (.cls hit) hr)
        · cases hn with
          | bad h => exact absurd ⟨[], h1⟩ h
          | cls h hne hit => exact absurd (classText_unique h1 h) hne
          | empty h =>
            exact step hne' hx hpr hr' (fun _ raws hr => by
              rw [h3]; exact .skip (by simp) (by simp) hr)
      · exact absurd hc (by decide)
    | @«open» t hb =>
      rcases h.start with ⟨hc, _⟩ | ⟨hc, _⟩ | ⟨hc, _⟩ | ⟨_, body', r', ts', rfl, _⟩ | ⟨hc, _⟩
      · exact absurd hc (by decide)
      · exact absurd hc (by decide)
      · exact absurd hc (by decide)
      · exact absurd (by simp) hb
      · exact absurd hc (by decide)
    | @close c r hc =>
      rcases hc with rfl | rfl <;>
        rcases h.start with ⟨hc, _⟩ | ⟨hc, _⟩ | ⟨hc, _⟩ | ⟨hc, _⟩ | ⟨hc, _⟩ <;> exact absurd hc (by decide)
    | brace t =>
      have hnt' := hnt (by simp)
      obtain ⟨f, rfl, hne'⟩ := hfuel (by simp)
      rcases h.start with ⟨hc, _⟩ | ⟨hc, _⟩ | ⟨hc, _⟩ | ⟨hc, _⟩ |
        ⟨_, p, parts, r, alts, ts', e, hbt, hrule, rfl, hr'⟩
      · exact absurd hc (by decide)
      · exact absurd hc (by decide)
      · exact absurd hc (by decide)
      · exact absurd hc (by decide)
      · rw [e] at hp hnt'
        have fin : ∀ x, (loose = false → AltRes alts x) → alts ≠ [] →
            nextItem (f + 1) (utf8 (p ++ r)) = .ok (.ok (x, utf8 r)) →
            ∃ raws, (loose = false → RawToks (.alt alts :: ts') raws) ∧
              parseLoop (f + 1 + 1) (utf8 ('{' :: t)) st = .ok (.ok (raws.foldl ParseSt.step st)) := by
          intro x hx hne hn
          rw [← e] at hn
          refine step hne' hn hp.right hr' (fun el raws hr => ?_)
          have hx := hx el
          cases x with
          | none =>
            cases hx with
            | none h => exact .skip hne h hr
          | some it => exact .alt hne hx hr
        cases hrule with
        | same ha =>
          obtain ⟨x, h1, h2⟩ := brace_same f r hbt hp.left ha
          exact fin x (fun _ => h1) (by simp) h2
        | star hs hd hb =>
          exact fin _ (fun _ => .star (by decide) (by simp)) (by simp)
            (brace_star f r hbt hp.left hs hd hb hnt')
        | alts hs hd ha =>
          obtain ⟨x, h1, h2⟩ := brace_alts f r hbt hp.left hs hd ha hnt'
          refine fin x h1 ?_ h2
          rintro rfl
          cases ha
          exact hbt.2.1 rfl

theorem loop_inv (fuel : Nat) (g : List Char) (st st' : ParseSt) (hp : PlainText g)
    (h : parseLoop fuel (utf8 g) st = .ok (.ok st')) : ∃ ts, GlobText true g ts := by
  induction fuel generalizing g st with
  | zero => cases h
  | succ fuel ih =>
    have ne : g ≠ [] → ∃ f, fuel = f + 1 ∧ utf8 g ≠ [] := by
      intro h'
      have hne : utf8 g ≠ [] := fun e => h' ((utf8_eq_nil _).1 e)
      cases fuel with
      | succ f => exact ⟨f, rfl, hne⟩
      | zero =>
        cases hu : utf8 g with
        | nil => exact absurd hu hne
        | cons b t =>
          rw [hu] at h
          cases h
    have res : utf8 g ≠ [] → ∃ x, nextItem fuel (utf8 g) = .ok (.ok x) := by
      intro hne
      cases hu : utf8 g with
      | nil => exact absurd hu hne
      | cons b t =>
        rw [hu, parseLoop] at h
        cases hx : nextItem fuel (b :: t) with
        | timeout => rw [hx] at h; cases h
        | panic => rw [hx] at h; cases h
        | ok z =>
          rw [hx] at h
          cases z with
          | error e => cases h
          | ok x => exact ⟨x, rfl⟩
    have next : ∀ {x : Option Item} {r : List Char}, utf8 g ≠ [] →
        nextItem fuel (utf8 g) = .ok (.ok (x, utf8 r)) → PlainText r →
        ∃ ts, GlobText true r ts := by
      intro x r hne hn hr
      cases hu : utf8 g with
      | nil => exact absurd hu hne
      | cons b t =>
        rw [hu] at h hn
        rw [parseLoop, hn] at h
        simp only [R.bind_ok] at h
        cases x with
        | none => exact ih r st hr h
        | some it => exact ih r (st.step it) hr h
    have err : ∀ e, utf8 g ≠ [] → nextItem fuel (utf8 g) = .ok (.error e) → False := by
      intro e hne hn
      obtain ⟨x, hx⟩ := res hne
      rw [hn] at hx
      cases hx
    cases textHead g with
    | nil => exact ⟨[], .nil⟩
    | @lits l r hne hl hr =>
      obtain ⟨f, rfl, hne'⟩ := ne (by simp [hne])
      obtain ⟨it, hit, hn⟩ := next_lit f hne (hp.left.lits hl) hr
      obtain ⟨ss, hs⟩ := next hne' hn hp.right
      exact ⟨_, (GlobText.lits true hl).append hs⟩
    | any r =>
      obtain ⟨f, rfl, hne'⟩ := ne (by simp)
      obtain ⟨ss, hs⟩ := next hne' (next_any f r) hp.tail
      exact ⟨_, GlobText.sub (p := ['?']) .any hs⟩
    | @stars k r hr =>
      obtain ⟨f, rfl, hne'⟩ := ne (by simp [List.replicate_succ])
      obtain ⟨ss, hs⟩ := next hne' (next_star f k r hr) hp.right
      exact ⟨_, (GlobText.stars true (k + 1)).append hs⟩
    | @cls body r hbb =>
      obtain ⟨f, rfl, hne'⟩ := ne (by simp)
      have hpb : PlainText body := fun c hc => hp c (by simp [hc])
      have hpr : PlainText r := fun c hc => hp c (by simp [hc])
      have hn := next_cls_res f r hbb hpb
      have e : '[' :: body ++ ']' :: r = ('[' :: body ++ [']']) ++ r := by simp
      generalize hx : nextItem (f + 1) (utf8 ('[' :: body ++ ']' :: r)) = x at hn
      cases hn with
      | bad _ => exact (err _ hne' hx).elim
      | empty hc =>
        obtain ⟨ss, hs⟩ := next hne' hx hpr
        rw [e]
        exact ⟨_, GlobText.empty ⟨body, rfl, hc⟩ hs⟩
      | cls hc hne hit =>
        obtain ⟨ss, hs⟩ := next hne' hx hpr
        rw [e]
        exact ⟨_, GlobText.sub (.cls hc hne) hs⟩
    | @«open» t hbt =>
      obtain ⟨f, rfl, hne'⟩ := ne (by simp)
      exact (err _ hne' (next_cls_open f hbt)).elim
    | close r hc =>
      obtain ⟨f, rfl, hne'⟩ := ne (by simp)
      exact (err _ hne' (next_close f r hc)).elim
    | brace t =>
      obtain ⟨f, rfl, hne'⟩ := ne (by simp)
      by_cases hb : '}' ∈ t
      · obtain ⟨p, parts, r, e, hbt⟩ := split_brace hb
        obtain ⟨x, hx⟩ := res hne'
        have hx' := hx
        rw [e] at hx' hp
        obtain ⟨hx2, hcase⟩ := brace_inv f r hbt hp.left hx'
        obtain ⟨x1, x2⟩ := x
        dsimp only at hx2
        subst hx2
        obtain ⟨ts, hs⟩ := next hne' hx hp.right
        rw [e]
        rcases hcase with ⟨a, ha⟩ | ⟨h1, h2, h3⟩ | ⟨h1, h2, alts, h3⟩
        · exact ⟨_, .same hbt ha hs⟩
        · exact ⟨_, .star hbt h1 h2 h3 hs⟩
        · exact ⟨_, .alts hbt h1 h2 h3 hs⟩
      · exact (err _ hne' (next_brace_open f hb)).elim

/-! ## Literal ends -/

theorem split_end (r : List Char) {c : Char} {t : List Char} (e : r = c :: t)
    (hc : isSpecial c = true) : ∃ m l d i, r = m ++ l ∧ (∃ t', m = c :: t') ∧ m = i ++ [d] ∧
      isSpecial d = true ∧ ∀ x ∈ l, isSpecial x = false := by
  obtain ⟨l, s, h1, h2, h3⟩ := span_lits r.reverse
  have hr : r = s.reverse ++ l.reverse := by
    rw [← List.reverse_append, ← h1, List.reverse_reverse]
  rcases h3 with rfl | ⟨d, s', rfl, hd⟩
  · exfalso
    have hm : c ∈ l := by
      have : c ∈ r.reverse := by rw [e]; simp
      rw [h1] at this
      simpa using this
    rw [h2 c hm] at hc
    cases hc
  · refine ⟨(d :: s').reverse, l.reverse, d, s'.reverse, hr, ?_, by simp, hd, by simpa using h2⟩
    cases hm : (d :: s').reverse with
    | nil => simp at hm
    | cons x t' =>
      rw [hm, e] at hr
      injection hr with hx _
      exact ⟨t', by rw [hx]⟩

/-- What is known about the text of one token. -/
def Piece (p : List Char) (t : Tok) : Prop :=
  (∃ c, p = [c] ∧ isSpecial c = false ∧ t = .sub (.lit c)) ∨
  ((∃ i d, p = i ++ [d] ∧ isSpecial d = true) ∧ ∀ c, t ≠ .sub (.lit c))

theorem SubTok.piece {p : List Char} {s : Sub} (h : SubTok p s) : Piece p (.sub s) := by
  cases h with
  | @lit c h => exact .inl ⟨c, rfl, h, rfl⟩
  | any => exact .inr ⟨⟨[], '?', rfl, by decide⟩, by simp⟩
  | star => exact .inr ⟨⟨[], '*', rfl, by decide⟩, by simp⟩
  | cls h hne => exact .inr ⟨⟨_, ']', rfl, by decide⟩, by simp⟩

theorem EmptyClass.piece {p : List Char} (h : EmptyClass p) (alts : List (List Sub)) :
    Piece p (.alt alts) := by
  obtain ⟨body, rfl, _⟩ := h
  exact .inr ⟨⟨_, ']', rfl, by decide⟩, by simp⟩

theorem BraceText.piece {p : List Char} {parts : List (List Char)} (h : BraceText p parts)
    (alts : List (List Sub)) : Piece p (.alt alts) := by
  obtain ⟨rfl, _⟩ := h
  exact .inr ⟨⟨_, '}', rfl, by decide⟩, by simp⟩

theorem GlobText.split_last {loose : Bool} {m l i : List Char} {d : Char} {ts : List Tok}
    (hm : m = i ++ [d]) (hd : isSpecial d = true) (hl : ∀ c ∈ l, isSpecial c = false)
    (h : GlobText loose (m ++ l) ts) : ∃ tm, ts = tm ++ litToks l ∧ GlobText loose m tm ∧
      ∀ init c, tm ≠ init ++ [.sub (.lit c)] := by
  generalize hx : m ++ l = x at h
  have key : ∀ {p g' : List Char} {t : Tok} {ts' : List Tok} {m i : List Char}, m = i ++ [d] →
      m ++ l = p ++ g' → Piece p t → GlobText loose g' ts' →
      (∀ {tm}, ∀ {m'}, GlobText loose m' tm → GlobText loose (p ++ m') (t :: tm)) →
      (∀ {m i}, m = i ++ [d] → m ++ l = g' → ∃ tm, ts' = tm ++ litToks l ∧ GlobText loose m tm ∧
        ∀ init c, tm ≠ init ++ [.sub (.lit c)]) →
      ∃ tm, t :: ts' = tm ++ litToks l ∧ GlobText loose m tm ∧
        ∀ init c, tm ≠ init ++ [.sub (.lit c)] := by
    intro p g' t ts' m i hm e hp hr hcons ih
    rcases List.append_eq_append_iff.1 e with ⟨q, hq1, hq2⟩ | ⟨m', hm1, hm2⟩
    · by_cases hq : q = []
      · subst hq
        rw [List.append_nil] at hq1
        rw [List.nil_append] at hq2
        rw [← hq2, ← List.append_nil l] at hr
        obtain ⟨tn, rfl, hn⟩ := hr.lits_inv hl
        rw [hn.nil_inv]
        refine ⟨[t], by simp, ?_, ?_⟩
        · have := hcons (m' := []) .nil
          rw [List.append_nil, hq1] at this
          exact this
        · intro init c e'
          have : t = .sub (.lit c) := by
            cases init with
            | nil => injection e'
            | cons y init => injection e' with _ e'; simp at e'
          rcases hp with ⟨c', hp1, hp2, _⟩ | ⟨_, hp⟩
          · rw [← hq1, hp1] at hm
            have : c' = d := by
              cases i with
              | nil => injection hm
              | cons y i => injection hm with _ hm; simp at hm
            rw [this, hd] at hp2
            cases hp2
          · exact hp c this
      · exfalso
        rcases hp with ⟨c', hp1, _, _⟩ | ⟨⟨j, z, hz, hz'⟩, _⟩
        · have h1 : m.length + q.length = 1 := by
            rw [← List.length_append, ← hq1, hp1]; rfl
          have h2 : 0 < q.length := by
            cases q with
            | nil => exact absurd rfl hq
            | cons _ _ => simp
          have h3 : 0 < m.length := by rw [hm]; simp
          omega
        · have : z ∈ q := by
            have : q.getLast? = some z := by
              have h4 : (m ++ q).getLast? = some z := by rw [← hq1, hz]; simp
              rw [List.getLast?_append] at h4
              cases hg : q.getLast? with
              | none => exact absurd (List.getLast?_eq_none_iff.1 hg) hq
              | some y => rw [hg] at h4; simpa using h4
            exact List.mem_of_getLast? this
          have := hl z (by rw [hq2]; simp [this])
          rw [this] at hz'
          cases hz'
    · by_cases hq : m' = []
      · subst hq
        rw [List.append_nil] at hm1
        rw [List.nil_append] at hm2
        rw [hm2, ← List.append_nil l] at hr
        obtain ⟨tn, rfl, hn⟩ := hr.lits_inv hl
        rw [hn.nil_inv]
        refine ⟨[t], by simp, ?_, ?_⟩
        · have := hcons (m' := []) .nil
          rw [List.append_nil, ← hm1] at this
          exact this
        · intro init c e'
          have : t = .sub (.lit c) := by
            cases init with
            | nil => injection e'
            | cons y init => injection e' with _ e'; simp at e'
          rcases hp with ⟨c', hp1, hp2, _⟩ | ⟨_, hp⟩
          · rw [hm1, hp1] at hm
            have : c' = d := by
              cases i with
              | nil => injection hm
              | cons y i => injection hm with _ hm; simp at hm
            rw [this, hd] at hp2
            cases hp2
          · exact hp c this
      · obtain ⟨i', hm'⟩ : ∃ i', m' = i' ++ [d] := by
          rcases List.eq_nil_or_concat m' with h | ⟨i', y, h⟩
          · exact absurd h hq
          · rw [List.concat_eq_append] at h
            have h4 : (p ++ m').getLast? = some d := by rw [← hm1, hm]; simp
            rw [h, ← List.append_assoc] at h4
            have hy : y = d := by simpa using h4
            exact ⟨i', by rw [h, hy]⟩
        obtain ⟨tm, h1, h2, h3⟩ := ih hm' hm2.symm
        refine ⟨t :: tm, by rw [h1]; rfl, ?_, ?_⟩
        · rw [hm1]; exact hcons h2
        · intro init c e'
          cases init with
          | nil =>
            injection e' with _ e'
            subst e'
            have h5 := h2.nil_of_nil
            exact hq h5
          | cons y init =>
            injection e' with _ e'
            exact h3 init c e'
  induction h generalizing m i with
  | nil =>
    exfalso
    rw [hm] at hx
    simp at hx
  | sub h hr ih => exact key hm hx h.piece hr (fun h' => .sub h h') ih
  | empty h hr ih => exact key hm hx (h.piece _) hr (fun h' => .empty h h') ih
  | same h ha hr ih => exact key hm hx (h.piece _) hr (fun h' => .same h ha h') ih
  | star h hs hd' hb hr ih => exact key hm hx (h.piece _) hr (fun h' => .star h hs hd' hb h') ih
  | alts h hs hd' ha hr ih => exact key hm hx (h.piece _) hr (fun h' => .alts h hs hd' ha h') ih

/-! ## Parse -/

theorem parse_wild {l0 m l1 t i : List Char} {c0 cn : Char} (hl0 : ∀ c ∈ l0, isSpecial c = false)
    (hl1 : ∀ c ∈ l1, isSpecial c = false) (hm0 : m = c0 :: t) (hc0 : isSpecial c0 = true)
    (hmn : m = i ++ [cn]) (hcn : isSpecial cn = true) {r : Except GErr ParseSt}
    (hr : parseLoop (parseFuel (utf8 m).length) (utf8 m)
      { minLen := (utf8 l0).length + (utf8 l1).length,
        maxLen := (utf8 l0).length + (utf8 l1).length, pref := utf8 l0 } = .ok r) :
    ∃ r', parseGlob (utf8 (l0 ++ (m ++ l1))) = .ok r' ∧
      (∀ e, r = .error e → ∃ e', r' = .error e') ∧
      ∀ st, r = .ok st → r' = .ok (finishGlob
        { glob := utf8 (l0 ++ (m ++ l1)), minLen := st.minLen, maxLen := st.maxLen, pref := st.pref,
          items := (takeSuffix st.inners (utf8 l1)).1,
          suff := (takeSuffix st.inners (utf8 l1)).2 }) := by
  obtain ⟨b0, hb0, hw0⟩ := isWild_of_special hc0
  obtain ⟨bn, hbn, hwn⟩ := isWild_of_special hcn
  have hM0 : utf8 m = b0 :: utf8 t := by
    rw [hm0, show c0 :: t = [c0] ++ t from rfl, utf8_append, hb0]
    rfl
  have hMn : utf8 m = utf8 i ++ [bn] := by rw [hmn, utf8_append, hbn]
  generalize hgs : utf8 (l0 ++ (m ++ l1)) = gs
  have eb : gs = utf8 l0 ++ (utf8 m ++ utf8 l1) := by rw [← hgs, utf8_append, utf8_append]
  have hidx : indexWildcard gs = some (utf8 l0).length := by
    rw [eb, hM0]
    exact indexP_append (no_wild hl0) hw0
  have hlast : indexLastWildcard (utf8 m ++ utf8 l1) = some (utf8 i).length := by
    rw [hMn, List.append_assoc]
    exact lastIndexP_append _ hwn (no_wild hl1)
  have hlenM : (utf8 m).length = (utf8 i).length + 1 := by
    rw [hMn, List.length_append]; rfl
  have hto : sliceTo gs (utf8 l0).length = .ok (utf8 l0) := by
    unfold sliceTo
    rw [if_pos (by rw [eb]; simp), eb, List.take_left]
  have hfrom : sliceFrom gs (utf8 l0).length = .ok (utf8 m ++ utf8 l1) := by
    unfold sliceFrom
    rw [if_pos (by rw [eb]; simp), eb, List.drop_left]
  have hcut : (if ((utf8 i).length : Int) < ((utf8 m ++ utf8 l1).length : Int) - 1 then
      (do
        let suff ← sliceFrom (utf8 m ++ utf8 l1) ((utf8 i).length + 1)
        let body ← sliceTo (utf8 m ++ utf8 l1) ((utf8 i).length + 1)
        R.ok (body, suff) : R (Str × Str))
      else .ok (utf8 m ++ utf8 l1, [])) = .ok (utf8 m, utf8 l1) := by
    split
    · rw [← hlenM]
      unfold sliceFrom sliceTo
      rw [if_pos (by simp), if_pos (by simp), List.drop_left]
      simp only [R.bind_ok]
      rw [List.take_left]
    · rename_i h
      have : utf8 l1 = [] := by
        rw [← List.length_eq_zero_iff]
        rw [List.length_append, hlenM] at h
        omega
      rw [this]
      simp
  rw [parseGlob, hidx]
  simp only [hto, hfrom, R.bind_ok, hlast]
  cases hbody : utf8 m ++ utf8 l1 with
  | nil => rw [hM0] at hbody; simp at hbody
  | cons b s =>
    have hbb : b = b0 := by
      rw [hM0, List.cons_append] at hbody
      injection hbody with h _
      exact h.symm
    dsimp only
    by_cases hone : (utf8 i).length = 0 ∧ b ≠ 63 ∧ b ≠ 42
    · rw [if_pos hone]
      refine ⟨_, rfl, fun e _ => ⟨_, rfl⟩, ?_⟩
      rintro st rfl
      exfalso
      have hi : i = [] := (utf8_eq_nil _).1 (List.length_eq_zero_iff.1 hone.1)
      have hm1 : m = [c0] := by
        rw [hi, List.nil_append] at hmn
        rw [hm0] at hmn
        injection hmn with _ h
        rw [hm0, h]
      have hnt : ∀ e, nextItem (parseFuel (utf8 m).length - 1) (utf8 m) = .ok (.error e) → False := by
        intro e he
        have hf : parseFuel (utf8 m).length = (parseFuel (utf8 m).length - 1) + 1 := by
          unfold parseFuel; omega
        rw [hf] at hr
        cases hu : utf8 m with
        | nil => rw [hu] at hM0; cases hM0
        | cons x y =>
          rw [hu] at hr he
          rw [parseLoop, he] at hr
          cases hr
      have hf : parseFuel (utf8 m).length - 1 = (parseFuel (utf8 m).length - 2) + 1 := by
        unfold parseFuel; omega
      have hcases : c0 = '[' ∨ c0 = ']' ∨ c0 = '{' ∨ c0 = '}' ∨ c0 = '*' ∨ c0 = '?' := by
        simp only [isSpecial, Bool.or_eq_true, decide_eq_true_eq] at hc0
        rcases hc0 with ((((h | h) | h) | h) | h) | h <;> simp [h]
      rw [hf, hm1] at hnt
      rcases hcases with rfl | rfl | rfl | rfl | rfl | rfl
      · exact hnt _ (next_cls_open _ (by simp))
      · exact hnt _ (next_close _ [] (.inl rfl))
      · exact hnt _ (next_brace_open _ (by simp))
      · exact hnt _ (next_close _ [] (.inr rfl))
      · have : b0 = 42 := by
          have : utf8 ['*'] = [42] := by decide
          rw [this] at hb0
          injection hb0 with h
          exact h.symm
        exact hone.2.2 (by rw [hbb, this])
      · have : b0 = 63 := by
          have : utf8 ['?'] = [63] := by decide
          rw [this] at hb0
          injection hb0 with h
          exact h.symm
        exact hone.2.1 (by rw [hbb, this])
    · rw [if_neg hone, ← hbody, hcut]
      simp only [R.bind_ok]
      by_cases hs : utf8 m = [42]
      · rw [if_pos hs]
        rw [hs] at hr
        have hr' : parseLoop (parseFuel [(42 : UInt8)].length) [42]
          { minLen := (utf8 l0).length + (utf8 l1).length,
            maxLen := (utf8 l0).length + (utf8 l1).length, pref := utf8 l0 } = .ok (.ok (ParseSt.step
          { minLen := (utf8 l0).length + (utf8 l1).length,
            maxLen := (utf8 l0).length + (utf8 l1).length, pref := utf8 l0 } (.star 0))) := rfl
        rw [hr'] at hr
        injection hr with hr
        subst hr
        refine ⟨_, rfl, fun e h => (by cases h), ?_⟩
        rintro st h
        injection h with h
        subst h
        rfl
      · rw [if_neg hs]
        by_cases ha : utf8 m = [63]
        · rw [if_pos ha]
          rw [ha] at hr
          have hr' : parseLoop (parseFuel [(63 : UInt8)].length) [63]
            { minLen := (utf8 l0).length + (utf8 l1).length,
              maxLen := (utf8 l0).length + (utf8 l1).length, pref := utf8 l0 } = .ok (.ok (ParseSt.step
            { minLen := (utf8 l0).length + (utf8 l1).length,
              maxLen := (utf8 l0).length + (utf8 l1).length, pref := utf8 l0 } (.any 1))) := rfl
          rw [hr'] at hr
          injection hr with hr
          subst hr
          refine ⟨_, rfl, fun e h => (by cases h), ?_⟩
          rintro st h
          injection h with h
          subst h
          rfl
        · rw [if_neg ha, hr]
          simp only [R.bind_ok]
          cases r with
          | error e => exact ⟨_, rfl, fun e _ => ⟨_, rfl⟩, fun st h => by cases h⟩
          | ok st =>
            refine ⟨_, rfl, fun e h => (by cases h), ?_⟩
            rintro st' h
            injection h with h
            subst h
            rfl

theorem parse_plain {g : List Char} (h : ∀ c ∈ g, isSpecial c = false) :
    parseGlob (utf8 g) = .ok (.ok
      { glob := utf8 g, node := utf8 g, minLen := (utf8 g).length,
        maxLen := (utf8 g).length }) := by
  rw [parseGlob, show indexWildcard (utf8 g) = none from indexP_none.2 (no_wild h)]

/-- A text with a reading is accepted. -/
theorem parse_raw {loose : Bool} {g : List Char} {ts : List Tok} (hp : PlainText g)
    (h : GlobText loose g ts) :
    (ts = litToks g ∧ (∀ c ∈ g, isSpecial c = false)) ∨
    ∃ l0 tm l1 raws, ts = litToks l0 ++ (tm ++ litToks l1) ∧
      (∀ init c, tm ≠ init ++ [.sub (.lit c)]) ∧ (loose = false → RawToks tm raws) ∧
      ∀ st, st = raws.foldl ParseSt.step
        { minLen := (utf8 l0).length + (utf8 l1).length,
          maxLen := (utf8 l0).length + (utf8 l1).length, pref := utf8 l0 } →
      parseGlob (utf8 g) = .ok (.ok (finishGlob
        { glob := utf8 g, minLen := st.minLen, maxLen := st.maxLen, pref := st.pref,
          items := (takeSuffix st.inners (utf8 l1)).1,
          suff := (takeSuffix st.inners (utf8 l1)).2 })) := by
  obtain ⟨l0, r, rfl, hl0, hr⟩ := span_lits g
  obtain ⟨ts1, e, h1⟩ := h.lits_inv hl0
  rcases hr with rfl | ⟨c, t, hr, hc⟩
  · left
    rw [h1.nil_inv, List.append_nil] at e
    rw [List.append_nil]
    exact ⟨e, hl0⟩
  · right
    obtain ⟨m, l1, d, i, rfl, ⟨t', hm0⟩, hmn, hd, hl1⟩ := split_end r hr hc
    obtain ⟨tm, rfl, h2, h3⟩ := h1.split_last hmn hd hl1
    obtain ⟨x, hx⟩ := parseLoop_total (parseFuel (utf8 m).length) (utf8 m)
      { minLen := (utf8 l0).length + (utf8 l1).length,
        maxLen := (utf8 l0).length + (utf8 l1).length, pref := utf8 l0 }
      (by unfold parseFuel; omega)
    obtain ⟨raws, h4, h5⟩ := loop_ok _ m tm _ hp.right.left h2 (by
      rw [hx]; exact fun h => nomatch h)
    obtain ⟨r', h6, _, h7⟩ := parse_wild hl0 hl1 hm0 hc hmn hd h5
    refine ⟨l0, tm, l1, raws, e, h3, h4, ?_⟩
    rintro st rfl
    rw [h6, h7 _ rfl]

theorem parse_inv {g : List Char} {gl : Glob} (hp : PlainText g)
    (h : parseGlob (utf8 g) = .ok (.ok gl)) : ∃ ts, GlobText true g ts := by
  obtain ⟨l0, r, rfl, hl0, hr⟩ := span_lits g
  rcases hr with rfl | ⟨c, t, hr, hc⟩
  · exact ⟨_, (GlobText.lits true hl0).append .nil⟩
  · obtain ⟨m, l1, d, i, rfl, ⟨t', hm0⟩, hmn, hd, hl1⟩ := split_end r hr hc
    obtain ⟨x, hx⟩ := parseLoop_total (parseFuel (utf8 m).length) (utf8 m)
      { minLen := (utf8 l0).length + (utf8 l1).length,
        maxLen := (utf8 l0).length + (utf8 l1).length, pref := utf8 l0 }
      (by unfold parseFuel; omega)
    obtain ⟨r', h6, h7, _⟩ := parse_wild hl0 hl1 hm0 hc hmn hd hx
    cases x with
    | error e =>
      obtain ⟨e', rfl⟩ := h7 e rfl
      rw [h6] at h
      cases h
    | ok st =>
      obtain ⟨tm, hm⟩ := loop_inv _ m _ _ hp.right.left hx
      exact ⟨_, (GlobText.lits true hl0).append (hm.append (GlobText.lits true hl1))⟩

theorem globOk_lits {gs : Str} {g : List Char} :
    GlobOk (litToks g)
      { glob := gs, node := utf8 g, minLen := (utf8 g).length,
        maxLen := (utf8 g).length } := by
  have hfit : ∀ cs, Fits (litToks g) cs ↔ cs = g := by
    intro cs; rw [litToks, fits_lits]
  constructor
  · intro _; exact ⟨g, rfl, hfit⟩
  · intro h; exact absurd rfl h
  · exact Or.inl rfl
  · intro cs h; rw [(hfit cs).1 h]; exact Int.le_refl _
  · intro _; right; intro cs h; rw [(hfit cs).1 h]; exact Int.le_refl _
  · intro x hx; cases hx
  · intro x hx; cases hx
  · exact ⟨[], [], [], by simp, .nil, by simp, fun x hx => by cases hx⟩
  · exact ⟨g, [], [], [], [], [], [], [], [], by simp [litToks], .nil, rfl, .nil, rfl, .nil, fun h => absurd rfl h, fun _ => by simp⟩
  · intro _ x hx; cases hx
  · intro _ x hx; cases hx
  · intro _; exact ⟨rfl, rfl⟩
  · intro ex _; exact ⟨.nil _, .nil _⟩
  · intro hok _
    refine ⟨litToks g, ?_, ?_, fun _ => Iff.rfl, fun _ => hok, ?_⟩
    · intro t ht
      have h := hok t ht
      cases t with
      | sub s => exact h
      | alt alts => exact ⟨h.1, h.2.1⟩
    · rw [litToks, renderGlob_subs, renderSubs_lits]
    · intro nb t ht
      cases t with
      | sub s => exact ⟨s, rfl⟩
      | alt alts => exact absurd ⟨alts, ht⟩ nb

/-- What `Parse` makes of a text with a strict reading. -/
theorem parse_text {g : List Char} {ts : List Tok} (hp : PlainText g) (h : GlobText false g ts) :
    ∃ gl, parseGlob (utf8 g) = .ok (.ok gl) ∧ GlobOk ts gl := by
  rcases parse_raw hp h with ⟨rfl, hl⟩ | ⟨l0, tm, l1, raws, e, h1, h2, h3⟩
  · exact ⟨_, parse_plain hl, globOk_lits⟩
  · exact ⟨_, h3 _ rfl, (globOk_of_raw e (.inl h1) (h2 rfl) rfl).1⟩

/-! ## Texts without braces -/

/-- Without the skipped classes. -/
inductive Dropped : List Sub → List Tok → Prop
  | nil : Dropped [] []
  | sub {s : Sub} {ss : List Sub} {ts : List Tok} (h : Dropped ss ts) :
      Dropped (s :: ss) (.sub s :: ts)
  | empty {ss : List Sub} {ts : List Tok} (h : Dropped ss ts) : Dropped ss (.alt [[]] :: ts)

theorem SubText.glob {g : List Char} {ss : List Sub} (h : SubText g ss) :
    ∃ ts, GlobText false g ts ∧ Dropped ss ts := by
  induction h with
  | nil => exact ⟨[], .nil, .nil⟩
  | cons h _ ih =>
    obtain ⟨ts, h1, h2⟩ := ih
    exact ⟨_, .sub h h1, .sub h2⟩
  | empty h _ ih =>
    obtain ⟨ts, h1, h2⟩ := ih
    exact ⟨_, .empty h h1, .empty h2⟩

theorem GlobText.subs {g : List Char} {ts : List Tok} (h : GlobText true g ts) (hb : '{' ∉ g) :
    ∃ ss, SubText g ss := by
  induction h with
  | nil => exact ⟨[], .nil⟩
  | sub h _ ih =>
    obtain ⟨ss, hs⟩ := ih (fun hm => hb (by simp [hm]))
    exact ⟨_, .cons h hs⟩
  | empty h _ ih =>
    obtain ⟨ss, hs⟩ := ih (fun hm => hb (by simp [hm]))
    exact ⟨_, .empty h hs⟩
  | same h | star h | alts h =>
    obtain ⟨t, rfl⟩ := h.head
    simp at hb

theorem Dropped.append_inv {c : List Sub} {ts : List Tok} {ss : List Sub}
    (h : Dropped ss (c.map Tok.sub ++ ts)) : ∃ ss', ss = c ++ ss' ∧ Dropped ss' ts := by
  induction c generalizing ss with
  | nil => exact ⟨ss, rfl, h⟩
  | cons s c ih =>
    cases h with
    | sub h =>
      obtain ⟨ss', rfl, h'⟩ := ih h
      exact ⟨ss', rfl, h'⟩

theorem Dropped.split {a b : List Tok} {ss : List Sub} (h : Dropped ss (a ++ b)) :
    ∃ x y, ss = x ++ y ∧ Dropped x a ∧ Dropped y b := by
  induction a generalizing ss with
  | nil => exact ⟨[], ss, rfl, .nil, h⟩
  | cons t a ih =>
    cases h with
    | sub h =>
      obtain ⟨x, y, rfl, h1, h2⟩ := ih h
      exact ⟨_ :: x, y, rfl, .sub h1, h2⟩
    | empty h =>
      obtain ⟨x, y, rfl, h1, h2⟩ := ih h
      exact ⟨x, y, rfl, .empty h1, h2⟩

theorem Dropped.nil_inv {ss : List Sub} (h : Dropped ss []) : ss = [] := by
  cases h; rfl

theorem Dropped.lits_inv {l : List Char} {ss : List Sub} (h : Dropped ss (litToks l)) :
    ss = l.map Sub.lit := by
  rw [litToks, ← List.append_nil (List.map Tok.sub _)] at h
  obtain ⟨ss', rfl, h'⟩ := h.append_inv
  rw [h'.nil_inv, List.append_nil]

theorem Dropped.raws {ts : List Tok} {raws : List Item} (hr : RawToks ts raws) {ss : List Sub}
    (h : Dropped ss ts) : RawToks (ss.map Tok.sub) raws := by
  induction hr generalizing ss with
  | nil => rw [h.nil_inv]; exact .nil
  | chunk hc _ ih =>
    obtain ⟨ss', rfl, h'⟩ := h.append_inv
    rw [List.map_append]
    exact .chunk hc (ih h')
  | skip _ _ _ ih =>
    cases h with
    | empty h => exact ih h
  | alt _ ha _ ih =>
    cases h with
    | empty h =>
      exfalso
      cases ha with
      | lit hne h _ =>
        have := h [] (by simp)
        exact hne (List.map_eq_nil_iff.1 this.symm)
      | list _ _ _ _ _ _ _ h2 _ => exact h2 (by simp)
      | star hp _ => exact absurd hp (by decide)
      | group hp => exact hp (by simp)

/-- What `Parse` makes of a text without braces. -/
theorem parse_noBraces {g : List Char} {ss : List Sub} (hp : PlainText g)
    (h : SubText g ss) : ∃ gl, parseGlob (utf8 g) = .ok (.ok gl) ∧ GlobOk (ss.map Tok.sub) gl := by
  obtain ⟨ts, h1, h2⟩ := h.glob
  rcases parse_raw hp h1 with ⟨rfl, hl⟩ | ⟨l0, tm, l1, raws, rfl, _, h4, h5⟩
  · rw [h2.lits_inv]
    exact ⟨_, parse_plain hl, globOk_lits⟩
  · obtain ⟨x, y, rfl, hx, hy⟩ := h2.split
    obtain ⟨y, z, rfl, hy, hz⟩ := hy.split
    refine ⟨_, h5 _ rfl, (globOk_of_raw ?_ (.inr ?_) (hy.raws (h4 rfl)) rfl).1⟩
    · rw [hx.lits_inv, hz.lits_inv, List.map_append, List.map_append]
      rfl
    · intro t ht
      obtain ⟨s, _, rfl⟩ := List.mem_map.1 ht
      exact ⟨s, rfl⟩

/-! ## A text has only one reading -/

theorem SubTexts.loosen {ps : List (List Char)} {alts : List (List Sub)}
    (h : SubTexts false ps alts) : SubTexts true ps alts := by
  induction h with
  | nil => exact .nil
  | cons h _ _ ih => exact .cons h (by simp) ih

theorem GlobText.loosen {g : List Char} {ts : List Tok} (h : GlobText false g ts) :
    GlobText true g ts := by
  induction h with
  | nil => exact .nil
  | sub h _ ih => exact .sub h ih
  | empty h _ ih => exact .empty h ih
  | same h ha _ ih => exact .same h ha ih
  | star h hs hd hb _ ih => exact .star h hs hd hb ih
  | alts h hs hd ha _ ih => exact .alts h hs hd ha.loosen ih

theorem joinComma_inj {a b : List (List Char)} (ha : a ≠ []) (hb : b ≠ [])
    (hac : ∀ x ∈ a, ',' ∉ x) (hbc : ∀ x ∈ b, ',' ∉ x) (h : joinComma a = joinComma b) : a = b := by
  induction a generalizing b with
  | nil => exact absurd rfl ha
  | cons x a ih =>
    have hx := hac x (by simp)
    match b with
    | [] => exact absurd rfl hb
    | y :: b =>
      have hy := hbc y (by simp)
      match a, b with
      | [], [] => exact congrArg (fun z => [z]) h
      | [], z :: b =>
        rw [show joinComma [x] = x from rfl, joinComma] at h
        rw [h] at hx
        simp at hx
      | z :: a, [] =>
        rw [show joinComma [y] = y from rfl, joinComma] at h
        rw [← h] at hy
        simp at hy
      | z :: a, w :: b =>
        rw [joinComma, joinComma] at h
        obtain ⟨rfl, e⟩ := append_sep_inj hx hy h
        rw [ih (by simp) (by simp) (fun v hv => hac v (by simp [hv]))
          (fun v hv => hbc v (by simp [hv])) e]

theorem BraceText.unique {p p' r r' : List Char} {a b : List (List Char)} (h : BraceText p a)
    (h' : BraceText p' b) (e : p ++ r = p' ++ r') : a = b ∧ r = r' := by
  obtain ⟨rfl, h1, h2⟩ := h
  obtain ⟨rfl, h3, h4⟩ := h'
  have nb : ∀ {l : List (List Char)}, (∀ x ∈ l, ',' ∉ x ∧ '}' ∉ x) → '}' ∉ joinComma l := by
    intro l hl hm
    rcases joinComma_mem _ hm with h | ⟨a, ha, hc⟩
    · exact absurd h (by decide)
    · exact (hl a ha).2 hc
  have e' : joinComma a ++ '}' :: r = joinComma b ++ '}' :: r' := by
    simpa using e
  obtain ⟨e1, e2⟩ := append_sep_inj (nb h2) (nb h4) e'
  exact ⟨joinComma_inj h1 h3 (fun x hx => (h2 x hx).1) (fun x hx => (h4 x hx).1) e1, e2⟩

theorem SubText.unique {g : List Char} {ss ss' : List Sub}
    (h : SubText g ss) (h' : SubText g ss') : ss = ss' := by
  induction h generalizing ss' with
  | nil => exact h'.nil_inv.symm
  | @cons p g s ss hp _ ih =>
    cases hp with
    | lit hc =>
      obtain ⟨ss2, rfl, h2⟩ := h'.lit_inv hc
      rw [ih h2]
    | any =>
      obtain ⟨ss2, rfl, h2⟩ := SubText.any_inv h'
      rw [ih h2]
    | star =>
      obtain ⟨ss2, rfl, h2⟩ := SubText.star_inv h'
      rw [ih h2]
    | @cls body es hc hne =>
      obtain ⟨body', g', e, hcase⟩ := SubText.cls_inv (g := body ++ [']'] ++ g) h'
      have e' : body ++ ']' :: g = body' ++ ']' :: g' := by simpa using e
      rcases hcase with ⟨es', ss2, h1, h2, rfl, h3⟩ | ⟨h1, h3⟩
      · obtain ⟨rfl, rfl⟩ := append_sep_inj hc.1 h1.1 e'
        rw [ih h3, classText_unique hc h1]
      · obtain ⟨rfl, rfl⟩ := append_sep_inj hc.1 h1.1 e'
        exact absurd (classText_unique h1 hc) hne
  | @empty p g ss hp _ ih =>
    obtain ⟨body, rfl, hc⟩ := hp
    obtain ⟨body', g', e, hcase⟩ := SubText.cls_inv (g := body ++ [']'] ++ g) h'
    have e' : body ++ ']' :: g = body' ++ ']' :: g' := by simpa using e
    rcases hcase with ⟨es', ss2, h1, h2, rfl, h3⟩ | ⟨h1, h3⟩
    · obtain ⟨rfl, rfl⟩ := append_sep_inj hc.1 h1.1 e'
      exact absurd (classText_unique hc h1) h2
    · obtain ⟨rfl, rfl⟩ := append_sep_inj hc.1 h1.1 e'
      exact ih h3

theorem SubTexts.unique {loose : Bool} {ps : List (List Char)} {a b : List (List Sub)}
    (h : SubTexts loose ps a) (h' : SubTexts loose ps b) : a = b := by
  induction h generalizing b with
  | nil => cases h'; rfl
  | cons h _ _ ih =>
    cases h' with
    | cons h2 _ hr2 => rw [h.unique h2, ih hr2]

theorem BraceRule.unique {loose : Bool} {parts : List (List Char)} {a b : List (List Sub)}
    (hne : parts ≠ []) (h : BraceRule loose parts a) (h' : BraceRule loose parts b) : a = b := by
  obtain ⟨x, hx⟩ := List.exists_mem_of_ne_nil _ hne
  cases h with
  | same ha =>
    cases h' with
    | same hb => rw [← ha x hx, ← hb x hx]
    | star hs hd _ =>
      obtain ⟨y, hy, hy'⟩ := hd
      exact absurd ((ha y hy).trans (ha _ hs).symm) hy'
    | alts _ hd _ =>
      obtain ⟨y, hy, z, hz, hyz⟩ := hd
      exact absurd ((ha y hy).trans (ha z hz).symm) hyz
  | star hs hd _ =>
    cases h' with
    | same ha =>
      obtain ⟨y, hy, hy'⟩ := hd
      exact absurd ((ha y hy).trans (ha _ hs).symm) hy'
    | star => rfl
    | alts hs' _ _ => exact absurd hs hs'
  | alts hs hd ha =>
    cases h' with
    | same ha =>
      obtain ⟨y, hy, z, hz, hyz⟩ := hd
      exact absurd ((ha y hy).trans (ha z hz).symm) hyz
    | star hs' _ _ => exact absurd hs' hs
    | alts _ _ hb => exact ha.unique hb

theorem GlobText.unique {loose : Bool} {g : List Char} {ts ts' : List Tok}
    (h : GlobText loose g ts) (h' : GlobText loose g ts') : ts = ts' := by
  have br : ∀ {p g : List Char} {parts : List (List Char)} {alts : List (List Sub)}
      {ts ts' : List Tok}, BraceText p parts → BraceRule loose parts alts →
      (∀ {ts'}, GlobText loose g ts' → ts = ts') → GlobText loose (p ++ g) ts' →
      .alt alts :: ts = ts' := by
    intro p g parts alts ts ts' hb hr ih h'
    obtain ⟨t, ht⟩ := hb.head
    have e : p ++ g = '{' :: (t ++ g) := by rw [ht]; rfl
    rw [e] at h'
    rcases h'.start with ⟨hc, _⟩ | ⟨hc, _⟩ | ⟨hc, _⟩ | ⟨hc, _⟩ |
      ⟨_, p', parts', r, alts', ts2, e2, hb', hr', rfl, h2⟩
    · exact absurd hc (by decide)
    · exact absurd hc (by decide)
    · exact absurd hc (by decide)
    · exact absurd hc (by decide)
    · obtain ⟨rfl, rfl⟩ := hb.unique hb' (e.trans e2)
      rw [hr.unique hb.2.1 hr', ih h2]
  induction h generalizing ts' with
  | nil => exact h'.nil_inv.symm
  | @sub p g s ts hp _ ih =>
    cases hp with
    | @lit c hc =>
      obtain ⟨ts2, rfl, h2⟩ := GlobText.lits_inv (l := [c]) (by simpa using hc) h'
      rw [ih h2]
      rfl
    | any =>
      rcases GlobText.start h' with ⟨hc, _⟩ | ⟨_, ts2, rfl, h2⟩ | ⟨hc, _⟩ | ⟨hc, _⟩ | ⟨hc, _⟩
      · exact absurd hc (by decide)
      · rw [ih h2]
      · exact absurd hc (by decide)
      · exact absurd hc (by decide)
      · exact absurd hc (by decide)
    | star =>
      rcases GlobText.start h' with ⟨hc, _⟩ | ⟨hc, _⟩ | ⟨_, ts2, rfl, h2⟩ | ⟨hc, _⟩ | ⟨hc, _⟩
      · exact absurd hc (by decide)
      · exact absurd hc (by decide)
      · rw [ih h2]
      · exact absurd hc (by decide)
      · exact absurd hc (by decide)
    | @cls body es hc hne =>
      rcases GlobText.start (g := body ++ [']'] ++ g) h' with ⟨hk, _⟩ | ⟨hk, _⟩ | ⟨hk, _⟩ |
        ⟨_, body', r, ts2, e, h2, hcase⟩ | ⟨hk, _⟩
      · exact absurd hk (by decide)
      · exact absurd hk (by decide)
      · exact absurd hk (by decide)
      · have e' : body ++ ']' :: g = body' ++ ']' :: r := by simpa using e
        rcases hcase with ⟨es', h1, h3, rfl⟩ | ⟨h1, rfl⟩
        · obtain ⟨rfl, rfl⟩ := append_sep_inj hc.1 h1.1 e'
          rw [ih h2, classText_unique hc h1]
        · obtain ⟨rfl, rfl⟩ := append_sep_inj hc.1 h1.1 e'
          exact absurd (classText_unique h1 hc) hne
      · exact absurd hk (by decide)
  | @empty p g ts hp _ ih =>
    obtain ⟨body, rfl, hc⟩ := hp
    rcases GlobText.start (g := body ++ [']'] ++ g) h' with ⟨hk, _⟩ | ⟨hk, _⟩ | ⟨hk, _⟩ |
      ⟨_, body', r, ts2, e, h2, hcase⟩ | ⟨hk, _⟩
    · exact absurd hk (by decide)
    · exact absurd hk (by decide)
    · exact absurd hk (by decide)
    · have e' : body ++ ']' :: g = body' ++ ']' :: r := by simpa using e
      rcases hcase with ⟨es', h1, h3, rfl⟩ | ⟨h1, rfl⟩
      · obtain ⟨rfl, rfl⟩ := append_sep_inj hc.1 h1.1 e'
        exact absurd (classText_unique hc h1) h3
      · obtain ⟨rfl, rfl⟩ := append_sep_inj hc.1 h1.1 e'
        rw [ih h2]
    · exact absurd hk (by decide)
  | same h ha _ ih => exact br h (.same ha) ih h'
  | star h hs hd hb _ ih => exact br h (.star hs hd hb) ih h'
  | alts h hs hd ha _ ih => exact br h (.alts hs hd ha) ih h'

end GoMatcher
