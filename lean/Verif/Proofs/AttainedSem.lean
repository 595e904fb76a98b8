import Verif.Proofs.Attained
import Verif.Proofs.ParseGlob
import Verif.Spec.Stars

/-! # Shortest and longest texts of a glob -/

namespace GoMatcher

namespace Item

/-- The strings of the item are texts, and shorter than the largest `int`. -/
inductive Texts (N : Nat) : Item → Prop
  | str (ws : List Char) : Texts N (.str (utf8 ws))
  | byte (b : UInt8) : Texts N (.byte b)
  | rune (r : Nat) : Texts N (.rune r)
  | any (n : Nat) : Texts N (.any n)
  | star (n : Nat) : Texts N (.star n)
  | ranges (rs : RunesRanges) : Texts N (.ranges rs)
  | list {l : StringList} (hne : l.vals ≠ []) (h : ∀ v ∈ l.vals, (∃ ws, v = utf8 ws) ∧ v.length ≤ N) :
      Texts N (.list l)
  | group {vals : List Item} {mn mx : Int} (h : ∀ v ∈ vals, Texts N v) : Texts N (.group vals mn mx)
  | chain {items : List Item} {mn mx : Int} (h : ∀ v ∈ items, Texts N v) : Texts N (.chain items mn mx)

end Item

theorem char_of_runeOk {r : Nat} (h : RuneOk r) : ∃ c : Char, c.toNat = r := by
  have hv : r.isValidChar := by
    unfold RuneOk at h
    unfold Nat.isValidChar
    omega
  exact ⟨Char.ofNatAux r hv, by simp [Char.toNat, Char.ofNatAux]⟩

theorem seq_attained {xs : List Item} (f : Item → Int) (g : List Item → Int) (g0 : g [] = 0)
    (g1 : ∀ x xs, g (x :: xs) = f x + g xs)
    (h : ∀ x ∈ xs, ∃ cs, x.Sem cs ∧ ((utf8 cs).length : Int) = f x) :
    ∃ cs, SeqSem xs cs ∧ ((utf8 cs).length : Int) = g xs := by
  induction xs with
  | nil => exact ⟨[], rfl, by rw [g0]; rfl⟩
  | cons x xs ih =>
    obtain ⟨a, ha, la⟩ := h x (by simp)
    obtain ⟨b, hb, lb⟩ := ih (fun y hy => h y (by simp [hy]))
    refine ⟨a ++ b, ⟨a, b, rfl, ha, hb⟩, ?_⟩
    rw [g1, utf8_length_append]
    omega

/-- `c` repeated. -/
theorem utf8_replicate (c : Char) (n : Nat) :
    (utf8 (List.replicate n c)).length = n * (utf8 [c]).length := by
  induction n with
  | zero => simp [utf8]
  | succ n ih =>
    rw [List.replicate_succ, show c :: List.replicate n c = [c] ++ List.replicate n c from rfl,
      utf8_length_append, ih, Nat.succ_mul]
    omega

theorem item_min {N : Nat} (hN : N < 2 ^ 63 - 1) {x : Item} (h : x.Hit) (ht : x.Texts N) :
    ∃ cs, x.Sem cs ∧ ((utf8 cs).length : Int) = x.minLen := by
  induction h with
  | str s => cases ht with | str ws => exact ⟨ws, rfl, rfl⟩
  | byte hb => exact ⟨_, utf8_single_ascii hb, by rw [utf8_single_ascii hb]; rfl⟩
  | rune hr =>
    obtain ⟨c, hc⟩ := char_of_runeOk hr
    exact ⟨[c], ⟨c, rfl, hc⟩, by rw [utf8_single_length, hc]; rfl⟩
  | any n =>
    refine ⟨List.replicate n 'a', by simp [Item.Sem], ?_⟩
    rw [utf8_replicate]
    simp only [Item.minLen, show (utf8 ['a']).length = 1 from rfl]
    omega
  | star n =>
    refine ⟨List.replicate n 'a', by simp [Item.Sem], ?_⟩
    rw [utf8_replicate]
    simp only [Item.minLen, show (utf8 ['a']).length = 1 from rfl]
    omega
  | ranges h =>
    obtain ⟨⟨r, hr, hc, hl⟩, _⟩ := h
    obtain ⟨c, rfl⟩ := char_of_runeOk hr
    exact ⟨[c], ⟨c, rfl, hc⟩, by rw [utf8_single_length]; exact hl⟩
  | list h1 h2 =>
    cases ht with
    | list hne ht =>
      rcases h1 with h1 | ⟨v, hv, h1⟩ | h1
      · exact ⟨[], Or.inr ⟨h1, rfl⟩, h1.symm⟩
      · obtain ⟨⟨ws, rfl⟩, _⟩ := ht v hv
        exact ⟨ws, Or.inl hv, h1⟩
      · obtain ⟨v, vs, e⟩ := List.exists_cons_of_ne_nil hne
        have a := h1 v (by rw [e]; simp)
        have b := (ht v (by rw [e]; simp)).2
        omega
  | group _ hmn _ ih =>
    cases ht with
    | group ht =>
      obtain ⟨v, hv, rfl⟩ := hmn
      obtain ⟨cs, h1, h2⟩ := ih v hv (ht v hv)
      exact ⟨cs, (anySem_iff _ _).2 ⟨v, hv, h1⟩, h2⟩
  | chain _ hmn _ ih =>
    cases ht with
    | chain ht =>
      obtain ⟨cs, h1, h2⟩ := seq_attained Item.minLen Item.sumOf rfl (fun _ _ => rfl)
        (fun v hv => ih v hv (ht v hv))
      exact ⟨cs, h1, by rw [h2, hmn]; rfl⟩

theorem item_max {N : Nat} {x : Item} (h : x.Hit) (ht : x.Texts N) (hn : x.NoStar) :
    ∃ cs, x.Sem cs ∧ ((utf8 cs).length : Int) = x.maxLen := by
  induction h with
  | str s => cases ht with | str ws => exact ⟨ws, rfl, rfl⟩
  | byte hb => exact ⟨_, utf8_single_ascii hb, by rw [utf8_single_ascii hb]; rfl⟩
  | rune hr =>
    obtain ⟨c, hc⟩ := char_of_runeOk hr
    exact ⟨[c], ⟨c, rfl, hc⟩, by rw [utf8_single_length, hc]; rfl⟩
  | any n =>
    refine ⟨List.replicate n (Char.ofNat 0x10000), by simp [Item.Sem], ?_⟩
    rw [utf8_replicate]
    simp only [Item.maxLen, show (utf8 [Char.ofNat 0x10000]).length = 4 from by decide]
    omega
  | star n => cases hn
  | ranges h =>
    obtain ⟨_, ⟨r, hr, hc, hl⟩⟩ := h
    obtain ⟨c, rfl⟩ := char_of_runeOk hr
    exact ⟨[c], ⟨c, rfl, hc⟩, by rw [utf8_single_length]; exact hl⟩
  | list h1 h2 =>
    cases ht with
    | list hne ht =>
      obtain ⟨v, hv, h2⟩ := h2
      obtain ⟨⟨ws, rfl⟩, _⟩ := ht v hv
      exact ⟨ws, Or.inl hv, h2⟩
  | group _ _ hmx ih =>
    cases ht with
    | group ht =>
      cases hn with
      | group hn =>
        obtain ⟨v, hv, rfl⟩ := hmx hn
        obtain ⟨cs, h1, h2⟩ := ih v hv (ht v hv) (hn v hv)
        exact ⟨cs, (anySem_iff _ _).2 ⟨v, hv, h1⟩, h2⟩
  | chain _ _ hmx ih =>
    cases ht with
    | chain ht =>
      cases hn with
      | chain hn =>
        obtain ⟨cs, h1, h2⟩ := seq_attained Item.maxLen Item.topOf rfl (fun _ _ => rfl)
          (fun v hv => ih v hv (ht v hv) (hn v hv))
        exact ⟨cs, h1, by rw [h2, hmx hn]; rfl⟩

/-! ## Written globs -/

theorem IsLit.texts {it : Item} {ws : List Char} (h : IsLit it ws) (N : Nat) : it.Texts N := by
  cases it <;> first | exact h.elim | skip
  · simp only [IsLit] at h; rw [h]; exact .str _
  · exact .byte _
  · exact .rune _

theorem Chunk.texts {c : List Sub} {it : Item} (h : Chunk c it) (N : Nat) : it.Texts N := by
  cases h with
  | lits _ h => exact h.texts N
  | any => exact .any _
  | stars _ => exact .star _
  | cls h =>
    rcases h.kind with ⟨c, hc⟩ | ⟨rs, rfl, _⟩
    · exact hc.texts N
    · exact .ranges _

theorem RawSubs.texts {ss : List Sub} {raws : List Item} (h : RawSubs ss raws) (N : Nat) :
    ∀ x ∈ raws, x.Texts N := by
  induction h with
  | nil => simp
  | cons h _ ih =>
    intro x hx
    rcases List.mem_cons.1 hx with rfl | hx
    · exact h.texts N
    · exact ih x hx

theorem AltRaw.texts {a : List Sub} {raws : List Item} (h : AltRaw a raws) (N : Nat) :
    ∀ x ∈ raws, x.Texts N := by
  rcases h with ⟨h, _⟩ | ⟨rfl, rfl⟩
  · exact h.texts N
  · intro x hx
    rw [List.mem_singleton.1 hx]
    exact .str []

theorem norm_texts {N : Nat} {xs : List Item} (hx : ∀ x ∈ xs, x.Texts N) (hl : ∀ x ∈ xs, LitWF x) :
    ∀ x ∈ norm xs, x.Texts N := by
  have merge : ∀ {x y m : Item}, LitWF x → LitWF y → mergeItem x y = some m → LitWF m → m.Texts N := by
    intro x y m hx hy h hm
    rcases hm with hm | ⟨ws, hm⟩
    · cases x <;> cases y <;> simp only [mergeItem, Option.some.injEq, reduceCtorEq] at h <;> subst h
      all_goals first | (simp [NonLit, litBytes] at hm; done) | constructor
    · exact hm.texts N
  cases xs with
  | nil => simp [norm]
  | cons x xs =>
    show ∀ z ∈ normAux x xs, _
    induction xs generalizing x with
    | nil => intro z hz; rw [List.mem_singleton.1 hz]; exact hx x (by simp)
    | cons y ys ih =>
      intro z hz
      unfold normAux at hz
      have hy := hx y (by simp)
      have ly := hl y (by simp)
      have hys : ∀ w ∈ ys, w.Texts N := fun w hw => hx w (by simp [hw])
      have lys : ∀ w ∈ ys, LitWF w := fun w hw => hl w (by simp [hw])
      split at hz
      · rename_i m hm
        have lm := (mergeItem_sem (hl x (by simp)) ly hm).1
        refine ih m ?_ ?_ z hz
        · intro w hw
          rcases List.mem_cons.1 hw with rfl | hw
          · exact merge (hl x (by simp)) ly hm lm
          · exact hys w hw
        · intro w hw
          rcases List.mem_cons.1 hw with rfl | hw
          · exact lm
          · exact lys w hw
      · rcases List.mem_cons.1 hz with rfl | hz
        · exact hx _ (by simp)
        · refine ih y ?_ ?_ z hz
          · intro w hw
            rcases List.mem_cons.1 hw with rfl | hw
            · exact hy
            · exact hys w hw
          · intro w hw
            rcases List.mem_cons.1 hw with rfl | hw
            · exact ly
            · exact lys w hw

theorem AltItem.texts {a : List Sub} {v : Item} (h : AltItem a v) (N : Nat) : v.Texts N := by
  obtain ⟨raws, hr, hg⟩ := h.raw
  have hn := norm_texts (hr.texts N) hr.litWF
  rw [← hg] at hn
  cases v with
  | chain items mn mx => exact .chain hn
  | _ => exact hn _ (by simp [groupItems])

/-- The literal alternatives of the glob have at most `N` bytes. -/
def WordsLe (N : Nat) (ts : List Tok) : Prop :=
  ∀ alts, .alt alts ∈ ts → ∀ ws : List Char, ws.map Sub.lit ∈ alts → (utf8 ws).length ≤ N

theorem AltRes.texts {alts : List (List Sub)} {it : Item} (h : AltRes alts (some it)) {N : Nat}
    (hN : ∀ ws : List Char, ws.map Sub.lit ∈ alts → (utf8 ws).length ≤ N) : it.Texts N := by
  cases h with
  | lit _ _ hl => exact hl.texts N
  | list hp hw hsem _ _ _ _ _ hv =>
    refine .list hv fun v hvv => ?_
    obtain ⟨ws, rfl, _⟩ := hw.vals v hvv
    refine ⟨⟨ws, rfl⟩, ?_⟩
    obtain ⟨a, ha, hf⟩ := (hsem ws).1 (Or.inl hvv)
    obtain ⟨cs, rfl⟩ := (plainAlts_iff alts).1 hp a ha
    rw [(subsFit_lits _ _).1 hf]
    exact hN cs ha
  | star => exact .star _
  | group _ _ _ h2 =>
    refine .group fun v hv => ?_
    obtain ⟨a, _, hav⟩ := h2 v hv
    exact hav.texts N

theorem RawToks.texts {ts : List Tok} {raws : List Item} (h : RawToks ts raws) {N : Nat}
    (hN : WordsLe N ts) : ∀ x ∈ raws, x.Texts N := by
  induction h with
  | nil => simp
  | chunk h _ ih =>
    intro x hx
    rcases List.mem_cons.1 hx with rfl | hx
    · exact h.texts N
    · exact ih (fun alts ha => hN alts (by simp [ha])) x hx
  | skip _ _ _ ih => exact ih (fun alts ha => hN alts (by simp [ha]))
  | alt _ h _ ih =>
    intro x hx
    rcases List.mem_cons.1 hx with rfl | hx
    · exact h.texts (hN _ (by simp))
    · exact ih (fun alts ha => hN alts (by simp [ha])) x hx

theorem GlobOk.texts {ts : List Tok} {g : Glob} (h : GlobOk ts g) {N : Nat} (hN : WordsLe N ts) :
    ∀ x ∈ g.items, x.Texts N := by
  obtain ⟨mid, raws, rest, hm, hr, hrest, hi⟩ := h.origin
  have ht := hr.texts (N := N) (fun alts ha => hN alts (hm _ ha))
  intro x hx
  exact norm_texts (fun y hy => ht y (hrest y hy)) (fun y hy => hr.litWF y (hrest y hy)) x (hi x hx)

theorem GlobOk.noStar {ts : List Tok} {g : Glob} (h : GlobOk ts g) (hs : ¬ HasStar ts) :
    ∀ x ∈ g.items, x.NoStar := by
  intro x hx
  have h1 := h.nostar hs x hx
  have h2 := h.loc x hx
  have simple : ∀ y : Item, LocS y → (∀ n, y ≠ .star n) → y.NoStar := by
    intro y hy hn
    cases y <;> first | exact hy.elim | exact absurd rfl (hn _) | constructor
  cases x with
  | star n => exact h1.elim
  | group vals mn mx =>
    refine .group fun v hv => ?_
    have h3 : ∀ y ∈ groupItems v, y.NoStar := fun y hy => simple y (h2.2.2 v hv y hy) (h1 v hv y hy)
    cases v with
    | chain items a b => exact .chain h3
    | _ => exact h3 _ (by simp [groupItems])
  | chain _ _ _ => exact h2.elim
  | _ => constructor

/-! ## How long the words of a glob are -/

theorem renderAlts_le {alts : List (List Sub)} {a : List Sub} (h : a ∈ alts) :
    (utf8 (renderSubs a)).length ≤ (utf8 (renderAlts alts)).length := by
  match alts with
  | [] => cases h
  | [b] => rw [List.mem_singleton.1 h]; exact Nat.le_refl _
  | b :: c :: l =>
    rw [renderAlts, utf8_length_append]
    rcases List.mem_cons.1 h with rfl | h
    · omega
    · have := renderAlts_le h
      rw [show (',' :: renderAlts (c :: l)) = [','] ++ renderAlts (c :: l) from rfl, utf8_length_append]
      omega

theorem renderTok_le {ts : List Tok} {t : Tok} (h : t ∈ ts) :
    (utf8 t.render).length ≤ (utf8 (renderGlob ts)).length := by
  induction ts with
  | nil => cases h
  | cons x xs ih =>
    rw [renderGlob_cons, utf8_length_append]
    rcases List.mem_cons.1 h with rfl | h
    · omega
    · have := ih h
      omega

theorem wordsLe_render (ts : List Tok) : WordsLe (utf8 (renderGlob ts)).length ts := by
  intro alts ha ws hw
  have h1 := renderTok_le ha
  have h2 := renderAlts_le hw
  rw [renderSubs_lits] at h2
  have h3 : (utf8 (renderAlts alts)).length ≤ (utf8 (Tok.alt alts).render).length := by
    rw [Tok.render, show '{' :: renderAlts alts ++ ['}'] = ['{'] ++ renderAlts alts ++ ['}'] from rfl,
      utf8_length_append, utf8_length_append]
    omega
  omega

/-! ## Both bounds are attained -/

/-- A text of the glob has exactly `MinLen` bytes. -/
theorem min_attained {s : Str} {ts : List Tok} {g : Glob} (hg : parseGlob s = .ok (.ok g))
    (h : GlobOk ts g) {N : Nat} (hN : WordsLe N ts) (hlt : N < 2 ^ 63 - 1) :
    ∃ cs, Fits ts cs ∧ ((utf8 cs).length : Int) = g.minLen := by
  by_cases hi : g.items = []
  · obtain ⟨w, hw, hf⟩ := h.plain hi
    exact ⟨w, (hf w).2 rfl, by rw [((parseGlob_lens hg).2 hi).1, hw]⟩
  · obtain ⟨P, S, hP, hS, _, _, hf⟩ := h.wild hi
    have hh := (parseGlob_hit hg).1
    have ht := h.texts hN
    obtain ⟨m, h1, h2⟩ := seq_attained Item.minLen Item.sumOf rfl (fun _ _ => rfl)
      (fun x hx => item_min hlt (hh x hx) (ht x hx))
    refine ⟨P ++ m ++ S, (hf _).2 ⟨m, rfl, h1⟩, ?_⟩
    rw [(parseGlob_lens hg).1 hi, hP, hS, ← h2]
    simp only [utf8_length_append]
    omega

/-- Without a star a text of the glob has exactly `MaxLen` bytes. -/
theorem max_attained {s : Str} {ts : List Tok} {g : Glob} (hg : parseGlob s = .ok (.ok g))
    (h : GlobOk ts g) (hs : ¬ HasStar ts) :
    ∃ cs, Fits ts cs ∧ ((utf8 cs).length : Int) = g.maxLen := by
  by_cases hi : g.items = []
  · obtain ⟨w, hw, hf⟩ := h.plain hi
    exact ⟨w, (hf w).2 rfl, by rw [((parseGlob_lens hg).2 hi).2, hw]⟩
  · obtain ⟨P, S, hP, hS, _, _, hf⟩ := h.wild hi
    obtain ⟨hh, hm⟩ := parseGlob_hit hg
    have ht := h.texts (wordsLe_render ts)
    have hns := h.noStar hs
    obtain ⟨m, h1, h2⟩ := seq_attained Item.maxLen Item.topOf rfl (fun _ _ => rfl)
      (fun x hx => item_max (hh x hx) (ht x hx) (hns x hx))
    refine ⟨P ++ m ++ S, (hf _).2 ⟨m, rfl, h1⟩, ?_⟩
    rw [hm hi hns, hP, hS, ← h2]
    simp only [utf8_length_append]
    omega

end GoMatcher
