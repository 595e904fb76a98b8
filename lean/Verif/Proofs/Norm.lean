import Verif.Proofs.MatchComplete
import Verif.Proofs.MatchSafe
import Verif.Spec.GlobLang

/-! # Merging of adjacent items, and from written order to well-behaved sequences -/

namespace GoMatcher

/-- A literal item with its text. -/
def IsLit : Item → List Char → Prop
  | .str w, ws => w = utf8 ws
  | .byte b, ws => utf8 ws = [b] ∧ b.toNat < 128
  | .rune r, ws => ∃ c : Char, ws = [c] ∧ c.toNat = r ∧ r ≠ runeError
  | _, _ => False

/-- Bytes of a literal item. -/
def litBytes : Item → Option Str
  | .str w => some w
  | .byte b => some (stringOfByte b)
  | .rune r => some (encodeRune r)
  | _ => none

theorem stringOfByte_ascii {b : UInt8} (h : b.toNat < 128) : stringOfByte b = [b] := by
  unfold stringOfByte
  rw [encodeRune_ascii h]
  simp

theorem IsLit.bytes {it : Item} {ws : List Char} (h : IsLit it ws) :
    litBytes it = some (utf8 ws) := by
  cases it with
  | str w => simp only [IsLit] at h; simp [litBytes, h]
  | byte b => simp only [IsLit] at h; simp [litBytes, h.1, stringOfByte_ascii h.2]
  | rune r =>
    obtain ⟨c, rfl, rfl, _⟩ := h
    simp [litBytes, utf8]
  | _ => exact h.elim

theorem IsLit.sem {it : Item} {ws : List Char} (h : IsLit it ws) (cs : List Char) :
    it.Sem cs ↔ cs = ws := by
  cases it with
  | str w =>
    simp only [IsLit] at h
    simp only [Item.Sem, h]
    exact ⟨fun e => utf8_inj e, fun e => by rw [e]⟩
  | byte b =>
    simp only [IsLit] at h
    simp only [Item.Sem, ← h.1]
    exact ⟨fun e => utf8_inj e, fun e => by rw [e]⟩
  | rune r =>
    obtain ⟨c, rfl, rfl, _⟩ := h
    simp only [Item.Sem]
    constructor
    · rintro ⟨d, rfl, e⟩; rw [Char.toNat_val_inj e]
    · rintro rfl; exact ⟨c, rfl, rfl⟩
  | _ => exact h.elim

theorem IsLit.find {it : Item} {ws : List Char} (h : IsLit it ws) : ∃ w, FindItem it w := by
  cases it with
  | str w => simp only [IsLit] at h; rw [h]; exact ⟨_, findItem_str ws⟩
  | byte b => simp only [IsLit] at h; exact ⟨_, findItem_byte h.2⟩
  | rune r => obtain ⟨_, _, _, h⟩ := h; exact ⟨_, findItem_rune h⟩
  | _ => exact h.elim

theorem IsLit.safe {it : Item} {ws : List Char} (h : IsLit it ws) (a : Bool) : LitSafe a it := by
  cases it with
  | str w => trivial
  | byte b => trivial
  | rune r => obtain ⟨_, _, _, h⟩ := h; exact fun _ => h
  | _ => exact h.elim

theorem IsLit.lens {it : Item} {ws : List Char} (h : IsLit it ws) :
    it.minLen = (utf8 ws).length ∧ it.maxLen = (utf8 ws).length := by
  cases it with
  | str w => simp only [IsLit] at h; simp [Item.minLen, Item.maxLen, h]
  | byte b => simp only [IsLit] at h; simp [Item.minLen, Item.maxLen, h.1]
  | rune r =>
    obtain ⟨c, rfl, rfl, _⟩ := h
    have := encodeRune_length (Char.runeOk c)
    simp [Item.minLen, Item.maxLen, utf8, ← this]
  | _ => exact h.elim

/-- Both literal: merged. -/
theorem mergeItem_lit {x y : Item} {u v : List Char} (hx : IsLit x u) (hy : IsLit y v) :
    mergeItem x y = some (.str (utf8 (u ++ v))) := by
  have h1 := hx.bytes
  have h2 := hy.bytes
  cases x <;> first | exact hx.elim | skip
  all_goals cases y <;> first | exact hy.elim | skip
  all_goals
    simp only [litBytes, Option.some.injEq] at h1 h2
    simp [mergeItem, h1, h2]

/-- Kinds of items that never merge with a literal. -/
def NonLit (x : Item) : Prop := litBytes x = none

theorem mergeItem_lit_non {x y : Item} {u : List Char} (hx : IsLit x u) (hy : NonLit y) :
    mergeItem x y = none := by
  cases x <;> first | exact hx.elim | skip
  all_goals cases y <;> first | rfl | (simp [NonLit, litBytes] at hy)

theorem mergeItem_non_lit {x y : Item} {u : List Char} (hx : NonLit x) (hy : IsLit y u) :
    mergeItem x y = none := by
  cases y <;> first | exact hy.elim | skip
  all_goals cases x <;> first | rfl | (simp [NonLit, litBytes] at hx)

/-- The result of merging everything into the running last item. -/
def normAux (x : Item) : List Item → List Item
  | [] => [x]
  | y :: ys =>
    match mergeItem x y with
    | some m => normAux m ys
    | none => x :: normAux y ys

def norm : List Item → List Item
  | [] => []
  | x :: xs => normAux x xs

theorem foldl_append_normAux (pre : List Item) (x : Item) (ys : List Item) :
    ys.foldl appendItem (pre ++ [x]) = pre ++ normAux x ys := by
  induction ys generalizing pre x with
  | nil => rfl
  | cons y ys ih =>
    rw [List.foldl_cons, normAux]
    have e : appendItem (pre ++ [x]) y = match mergeItem x y with
        | some m => pre ++ [m]
        | none => (pre ++ [x]) ++ [y] := by
      unfold appendItem
      rw [List.getLast?_append]
      simp only [List.getLast?_singleton, List.dropLast_concat]
      rfl
    rw [e]
    cases mergeItem x y with
    | some m => exact ih pre m
    | none =>
      rw [ih (pre ++ [x]) y]
      simp

theorem foldl_append_norm (ys : List Item) : ys.foldl appendItem [] = norm ys := by
  cases ys with
  | nil => rfl
  | cons y ys =>
    rw [List.foldl_cons]
    exact foldl_append_normAux [] y ys

theorem normAux_ne_nil (x : Item) (ys : List Item) : normAux x ys ≠ [] := by
  induction ys generalizing x with
  | nil => simp [normAux]
  | cons y ys ih =>
    unfold normAux
    split
    · exact ih _
    · simp

/-! ## Meaning is kept -/

/-- Items whose literals are sane. -/
def LitWF (x : Item) : Prop := NonLit x ∨ ∃ ws, IsLit x ws

theorem mergeItem_sem {x y m : Item} (hx : LitWF x) (hy : LitWF y) (h : mergeItem x y = some m) :
    LitWF m ∧ ∀ cs, m.Sem cs ↔ ∃ a b, cs = a ++ b ∧ x.Sem a ∧ y.Sem b := by
  rcases hx with hx | ⟨u, hx⟩
  · rcases hy with hy | ⟨v, hy⟩
    · cases x <;> first | (simp [NonLit, litBytes] at hx; done) | skip
      all_goals cases y <;> first | (simp [NonLit, litBytes] at hy; done) | skip
      all_goals first | (simp [mergeItem] at h; done) | skip
      all_goals
        simp only [mergeItem, Option.some.injEq] at h
        subst h
        refine ⟨Or.inl rfl, fun cs => ?_⟩
        simp only [Item.Sem]
      · rename_i n m
        constructor
        · intro h; exact ⟨cs.take n, cs.drop n, by simp, by simp; omega, by simp; omega⟩
        · rintro ⟨a, b, rfl, h1, h2⟩; simp; omega
      · rename_i n m
        constructor
        · intro h; exact ⟨cs.take n, cs.drop n, by simp, by simp; omega, by simp; omega⟩
        · rintro ⟨a, b, rfl, h1, h2⟩; simp; omega
      · rename_i n m
        constructor
        · intro h; exact ⟨cs.take (cs.length - m), cs.drop (cs.length - m), by simp,
            by simp; omega, by simp; omega⟩
        · rintro ⟨a, b, rfl, h1, h2⟩; simp; omega
      · rename_i n m
        constructor
        · intro h; exact ⟨cs.take n, cs.drop n, by simp, by simp; omega, by simp; omega⟩
        · rintro ⟨a, b, rfl, h1, h2⟩; simp; omega
    · rw [mergeItem_non_lit hx hy] at h; cases h
  · rcases hy with hy | ⟨v, hy⟩
    · rw [mergeItem_lit_non hx hy] at h; cases h
    · rw [mergeItem_lit hx hy] at h
      cases h
      have hm : IsLit (.str (utf8 (u ++ v))) (u ++ v) := rfl
      refine ⟨Or.inr ⟨_, hm⟩, fun cs => ?_⟩
      rw [hm.sem]
      constructor
      · rintro rfl; exact ⟨u, v, rfl, (hx.sem u).2 rfl, (hy.sem v).2 rfl⟩
      · rintro ⟨a, b, rfl, h1, h2⟩; rw [(hx.sem a).1 h1, (hy.sem b).1 h2]

theorem normAux_sem (x : Item) (ys : List Item) (hx : LitWF x) (hy : ∀ y ∈ ys, LitWF y)
    (cs : List Char) : SeqSem (normAux x ys) cs ↔ SeqSem (x :: ys) cs := by
  induction ys generalizing x cs with
  | nil => rfl
  | cons y ys ih =>
    unfold normAux
    have hy1 := hy y (by simp)
    have hy2 : ∀ z ∈ ys, LitWF z := fun z hz => hy z (by simp [hz])
    cases hm : mergeItem x y with
    | none =>
      simp only [SeqSem]
      constructor
      · rintro ⟨a, b, rfl, h1, h2⟩
        exact ⟨a, b, rfl, h1, (ih y hy1 hy2 b).1 h2⟩
      · rintro ⟨a, b, rfl, h1, h2⟩
        exact ⟨a, b, rfl, h1, (ih y hy1 hy2 b).2 h2⟩
    | some m =>
      dsimp only
      obtain ⟨hm1, hm2⟩ := mergeItem_sem hx hy1 hm
      rw [ih m hm1 hy2]
      simp only [SeqSem]
      constructor
      · rintro ⟨a, b, rfl, h1, h2⟩
        obtain ⟨c, d, rfl, h3, h4⟩ := (hm2 a).1 h1
        exact ⟨c, d ++ b, by simp, h3, d, b, rfl, h4, h2⟩
      · rintro ⟨c, e, rfl, h3, d, b, rfl, h4, h2⟩
        exact ⟨c ++ d, b, by simp, (hm2 _).2 ⟨c, d, rfl, h3, h4⟩, h2⟩

theorem norm_sem (xs : List Item) (h : ∀ x ∈ xs, LitWF x) (cs : List Char) :
    SeqSem (norm xs) cs ↔ SeqSem xs cs := by
  cases xs with
  | nil => rfl
  | cons x xs => exact normAux_sem x xs (h x (by simp)) (fun y hy => h y (by simp [hy])) cs

/-! ## Well-behaved and panic free -/

def Fine (ex a : Bool) (P : List Item) : Prop := Good ex a P ∧ NoPan a P

theorem Fine.of_false {ex : Bool} {P : List Item} (h : Fine ex true P) : Fine ex false P :=
  ⟨h.1.of_false, h.2.of_false⟩

def Pos.flag : Pos → Bool
  | .plain => false
  | _ => true

theorem Pos.flag_cross (p : Pos) : p.cross.flag = p.flag := by cases p <;> rfl

/-- Class items: not literal, one character. -/
def IsRanges (it : Item) : Prop :=
  ∃ rs : RunesRanges, it = .ranges rs ∧
    ∀ c : Char, rs.contains c.toNat = true → rs.minSize ≤ runeLen c.toNat

/-- The first non-`any` item is a star. -/
def rawStar : List Item → Bool
  | .star _ :: _ => true
  | .any _ :: l => rawStar l
  | _ => false

/-- Unmerged item sequences that are well-behaved when followed by `R`. -/
inductive GoodRaw (ex : Bool) (R : List Item) : Pos → List Item → Prop
  | nil {p : Pos} (h : Fine ex p.flag R) : GoodRaw ex R p []
  | lit {p : Pos} {it : Item} {ws : List Char} {rest : List Item} (h : IsLit it ws)
      (hr : GoodRaw ex R .plain rest) : GoodRaw ex R p (it :: rest)
  | ranges {p : Pos} {it : Item} {rest : List Item} (h : IsRanges it)
      (hr : GoodRaw ex R .plain rest) : GoodRaw ex R p (it :: rest)
  | any {p : Pos} {n : Nat} {rest : List Item} (h : p ≠ .behind) (hr : GoodRaw ex R p rest) :
      GoodRaw ex R p (.any n :: rest)
  | star {p : Pos} {rest : List Item} (h : p = .behind → ex = false)
      (hr : GoodRaw ex R (if p = .behind then .behind else .after) rest) :
      GoodRaw ex R p (.star 0 :: rest)
  | list {p : Pos} {l : StringList} {rest : List Item} (hw : ListWF l)
      (hl : p.flag = true → ex = true →
        l.vals.length ≤ 1 ∨ (rest = [] ∧ R = []) ∨ rawStar rest = true)
      (hr : GoodRaw ex R .plain rest)
      (ho : p.flag = true → l.minSize = 0 → GoodRaw ex R .behind rest) :
      GoodRaw ex R p (.list l :: rest)
  | group {p : Pos} {vals : List Item} {mn mx : Int} {rest : List Item} (hw : GroupWF vals mn)
      (hne : ∀ v ∈ vals, groupItems v ≠ [])
      (hr : ∀ v ∈ vals, Fine ex p.flag (groupItems v ++ (norm rest ++ R)))
      (ho : mn = 0 → Fine ex p.flag (norm rest ++ R)) :
      GoodRaw ex R p (.group vals mn mx :: rest)

section
variable {ex : Bool} {R : List Item}

theorem fine_lit {a : Bool} {it : Item} {w : Nat} {rest : List Item} (h : FindItem it w)
    (hs : LitSafe a it) (hr : Fine ex false rest) : Fine ex a (it :: rest) :=
  ⟨.lit h hr.1, .lit hs hr.2⟩

theorem fine_any {n : Nat} {rest : List Item} (hr : Fine ex false rest) :
    Fine ex false (.any n :: rest) := ⟨.any hr.1, .any hr.2⟩

theorem fine_star {a : Bool} {n : Nat} {rest : List Item} (h : a = true → ex = false ∧ n = 0)
    (hr : Fine ex true rest) : Fine ex a (.star n :: rest) := ⟨.star h hr.1, .star hr.2⟩

theorem nonLit_any (n : Nat) : NonLit (.any n) := by unfold NonLit litBytes; rfl
theorem nonLit_star (n : Nat) : NonLit (.star n) := by unfold NonLit litBytes; rfl
theorem nonLit_ranges (rs : RunesRanges) : NonLit (.ranges rs) := by unfold NonLit litBytes; rfl
theorem nonLit_list (l : StringList) : NonLit (.list l) := by unfold NonLit litBytes; rfl
theorem nonLit_group (v : List Item) (a b : Int) : NonLit (.group v a b) := by
  unfold NonLit litBytes; rfl

/-- Items that never merge. -/
def Alone (x : Item) : Prop := ∀ y, mergeItem x y = none ∧ mergeItem y x = none

theorem alone_ranges (rs : RunesRanges) : Alone (.ranges rs) := by
  intro y; cases y <;> exact ⟨rfl, rfl⟩
theorem alone_list (l : StringList) : Alone (.list l) := by
  intro y; cases y <;> exact ⟨rfl, rfl⟩
theorem alone_group (v : List Item) (a b : Int) : Alone (.group v a b) := by
  intro y; cases y <;> exact ⟨rfl, rfl⟩

theorem normAux_alone {x : Item} (h : Alone x) (ys : List Item) : normAux x ys = x :: norm ys := by
  cases ys with
  | nil => rfl
  | cons y ys => simp [normAux, (h y).1, norm]

theorem normAux_none {x y : Item} (h : mergeItem x y = none) (ys : List Item) :
    normAux x (y :: ys) = x :: norm (y :: ys) := by simp [normAux, h, norm]

theorem normAux_some {x y m : Item} (h : mergeItem x y = some m) (ys : List Item) :
    normAux x (y :: ys) = normAux m ys := by simp [normAux, h]

theorem normAux_star (n : Nat) (ys : List Item) : ∃ m r, normAux (.star n) ys = .star m :: r := by
  induction ys generalizing n with
  | nil => exact ⟨n, [], rfl⟩
  | cons y ys ih =>
    cases y with
    | any k => rw [normAux_some rfl]; exact ih _
    | star k => rw [normAux_some rfl]; exact ih _
    | _ => rw [normAux_none rfl]; exact ⟨_, _, rfl⟩

theorem normAux_any_star (n : Nat) (ys : List Item) (h : rawStar ys = true) :
    ∃ m r, normAux (.any n) ys = .star m :: r := by
  induction ys generalizing n with
  | nil => simp [rawStar] at h
  | cons y ys ih =>
    cases y with
    | any k => rw [normAux_some rfl]; exact ih _ (by simpa [rawStar] using h)
    | star k => rw [normAux_some rfl]; exact normAux_star _ _
    | _ => simp [rawStar] at h

theorem norm_rawStar (ys : List Item) (h : rawStar ys = true) :
    ∃ m r, norm ys = .star m :: r := by
  cases ys with
  | nil => simp [rawStar] at h
  | cons y ys =>
    cases y with
    | any k => exact normAux_any_star _ _ (by simpa [rawStar] using h)
    | star k => exact normAux_star _ _
    | _ => simp [rawStar] at h

theorem goodRaw_norm (ys : List Item) :
    (∀ p, p ≠ .after → GoodRaw ex R p ys → Fine ex p.flag (norm ys ++ R)) ∧
    (∀ a x u, IsLit x u → GoodRaw ex R .plain ys → Fine ex a (normAux x ys ++ R)) ∧
    (∀ n, GoodRaw ex R .plain ys → Fine ex false (normAux (.any n) ys ++ R)) ∧
    (∀ n, GoodRaw ex R .after ys → Fine ex false (normAux (.star n) ys ++ R)) ∧
    (ex = false → GoodRaw ex R .behind ys → Fine ex true (normAux (.star 0) ys ++ R)) := by
  induction ys with
  | nil =>
    have aux : ∀ p, GoodRaw ex R p [] → Fine ex p.flag R := by
      intro p h; cases h; assumption
    refine ⟨?_, ?_, ?_, ?_, ?_⟩
    · intro p _ h; exact aux p h
    · intro a x u hx h
      obtain ⟨w, hf⟩ := hx.find
      exact fine_lit hf (hx.safe a) (aux _ h)
    · intro n h; exact fine_any (aux _ h)
    · intro n h; exact fine_star (by simp) (aux _ h)
    · intro he h; exact fine_star (fun _ => ⟨he, rfl⟩) (aux _ h)
  | cons y ys ih =>
    obtain ⟨ihA, ihB, ihC, ihD, ihE⟩ := ih
    have hA : ∀ p, p ≠ .after → GoodRaw ex R p (y :: ys) →
        Fine ex p.flag (norm (y :: ys) ++ R) := by
      intro p hp h
      show Fine ex p.flag (normAux y ys ++ R)
      cases h with
      | lit hl hr => exact ihB _ _ _ hl hr
      | ranges hl hr =>
        obtain ⟨rs, rfl, hm⟩ := hl
        rw [normAux_alone (alone_ranges rs)]
        exact fine_lit (findItem_ranges hm) trivial (ihA .plain (by decide) hr)
      | any h1 hr =>
        cases p with
        | plain => exact ihC _ hr
        | after => exact absurd rfl hp
        | behind => exact absurd rfl h1
      | star h1 hr =>
        cases p with
        | plain => exact ihD 0 hr
        | after => exact absurd rfl hp
        | behind => exact ihE (h1 rfl) hr
      | list hw hl hr ho =>
        rw [normAux_alone (alone_list _)]
        have h1 := ihA .plain (by decide) hr
        have h2 := fun a b => ihA .behind (by decide) (ho a b)
        refine ⟨.list hw ?_ h1.1 (fun a b => (h2 a b).1), .list h1.2 (fun a b => (h2 a b).2)⟩
        intro a b
        rcases hl a b with h | ⟨rfl, rfl⟩ | h
        · exact Or.inl h
        · exact Or.inr (Or.inl rfl)
        · obtain ⟨m, r, e⟩ := norm_rawStar _ h
          exact Or.inr (Or.inr ⟨m, r ++ R, by rw [e]; rfl⟩)
      | group hw hne hr ho =>
        rw [normAux_alone (alone_group _ _ _)]
        exact ⟨.group hw (fun _ _ => hne) (fun v hv => (hr v hv).1) (fun h => (ho h).1),
          .group (fun v hv => (hr v hv).2) (fun h => (ho h).2)⟩
    have toBehind : (∀ n, y ≠ .any n) → (∀ n, y ≠ .star n) → GoodRaw ex R .after (y :: ys) →
        GoodRaw ex R .behind (y :: ys) := by
      intro h1 h2 h
      cases h with
      | lit a b => exact .lit a b
      | ranges a b => exact .ranges a b
      | any => exact absurd rfl (h1 _)
      | star => exact absurd rfl (h2 _)
      | list a b c d => exact .list a b c d
      | group a b c d => exact .group a b c d
    refine ⟨hA, ?_, ?_, ?_, ?_⟩
    · intro a x u hx h
      have key : mergeItem x y = none → Fine ex a (normAux x (y :: ys) ++ R) := by
        intro hm
        rw [normAux_none hm]
        obtain ⟨w, hf⟩ := hx.find
        exact fine_lit hf (hx.safe a) (hA .plain (by decide) h)
      cases h with
      | lit hl hr =>
        rename_i ws
        rw [normAux_some (mergeItem_lit hx hl)]
        exact ihB a _ (u ++ ws) rfl hr
      | ranges hl hr => obtain ⟨rs, rfl, _⟩ := hl; exact key (alone_ranges rs x).2
      | any _ _ => exact key (mergeItem_lit_non hx (nonLit_any _))
      | star _ _ => exact key (mergeItem_lit_non hx (nonLit_star _))
      | list _ _ _ _ => exact key (alone_list _ x).2
      | group _ _ _ _ => exact key (alone_group _ _ _ x).2
    · intro n h
      have key : mergeItem (.any n) y = none → Fine ex false (normAux (.any n) (y :: ys) ++ R) := by
        intro hm
        rw [normAux_none hm]
        exact fine_any (hA .plain (by decide) h)
      cases h with
      | lit hl hr => exact key (mergeItem_non_lit (nonLit_any _) hl)
      | ranges hl hr => obtain ⟨rs, rfl, _⟩ := hl; exact key rfl
      | any _ hr => rw [normAux_some rfl]; exact ihC _ hr
      | star _ hr => rw [normAux_some rfl]; exact ihD _ hr
      | list _ _ _ _ => exact key rfl
      | group _ _ _ _ => exact key rfl
    · intro n h
      have key : mergeItem (.star n) y = none → GoodRaw ex R .behind (y :: ys) →
          Fine ex false (normAux (.star n) (y :: ys) ++ R) := by
        intro hm h
        rw [normAux_none hm]
        exact fine_star (by simp) (hA .behind (by decide) h)
      cases h with
      | lit hl hr => exact key (mergeItem_non_lit (nonLit_star _) hl) (.lit hl hr)
      | ranges hl hr =>
        have hl' := hl
        obtain ⟨rs, rfl, _⟩ := hl; exact key rfl (.ranges hl' hr)
      | any _ hr => rw [normAux_some rfl]; exact ihD _ hr
      | star _ hr => rw [normAux_some rfl]; exact ihD _ hr
      | list a b c d => exact key rfl (.list a b c d)
      | group a b c d => exact key rfl (.group a b c d)
    · intro he h
      have key : mergeItem (.star 0) y = none →
          Fine ex true (normAux (.star 0) (y :: ys) ++ R) := by
        intro hm
        rw [normAux_none hm]
        exact fine_star (fun _ => ⟨he, rfl⟩) (hA .behind (by decide) h)
      cases h with
      | lit hl hr => exact key (mergeItem_non_lit (nonLit_star _) hl)
      | ranges hl hr => obtain ⟨rs, rfl, _⟩ := hl; exact key rfl
      | any h1 hr => exact absurd rfl h1
      | star _ hr => rw [normAux_some rfl]; exact ihE he hr
      | list _ _ _ _ => exact key rfl
      | group _ _ _ _ => exact key rfl

/-- Unmerged sequences become well-behaved item lists. -/
theorem GoodRaw.fine {ys : List Item} (h : GoodRaw ex R .plain ys) :
    Fine ex false (norm ys ++ R) := (goodRaw_norm ys).1 .plain (by decide) h

theorem GoodRaw.fineP {p : Pos} {ys : List Item} (hp : p ≠ .after) (h : GoodRaw ex R p ys) :
    Fine ex p.flag (norm ys ++ R) := (goodRaw_norm ys).1 p hp h

end

end GoMatcher
