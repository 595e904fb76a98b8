import Verif.Spec.Skeleton
import Verif.Proofs.ParseGlob
import Verif.Proofs.AsciiSet

/-! # The normal form of a glob depends on its pieces only, if braces hold words -/

namespace GoMatcher

/-! ## Classes -/

theorem ranges_unique (a b : List RuneRange) (ha : SortedRanges a) (hb : SortedRanges b)
    (h : ∀ c, InRanges a c ↔ InRanges b c) : a = b := by
  induction a generalizing b with
  | nil =>
    cases b with
    | nil => rfl
    | cons y b =>
      have := hb.wf y (by simp)
      obtain ⟨_, h1, _⟩ := (h y.first).2 ⟨y, by simp, by omega, by omega⟩
      cases h1
  | cons x a ih =>
    cases b with
    | nil =>
      have := ha.wf x (by simp)
      obtain ⟨_, h1, _⟩ := (h x.first).1 ⟨x, by simp, by omega, by omega⟩
      cases h1
    | cons y b =>
      obtain ⟨xa, sa⟩ := List.pairwise_cons.1 ha.sep
      obtain ⟨yb, sb⟩ := List.pairwise_cons.1 hb.sep
      have wx := ha.wf x (by simp)
      have wy := hb.wf y (by simp)
      have lowA : ∀ c, InRanges a c → x.last + 1 < c := by
        rintro c ⟨r, hr, h1, h2⟩
        have := xa r hr
        omega
      have lowB : ∀ c, InRanges b c → y.last + 1 < c := by
        rintro c ⟨r, hr, h1, h2⟩
        have := yb r hr
        omega
      have inA : ∀ c, InRanges (x :: a) c ↔ (x.first ≤ c ∧ c ≤ x.last) ∨ InRanges a c := by
        intro c
        simp only [InRanges, List.mem_cons, exists_eq_or_imp]
      have inB : ∀ c, InRanges (y :: b) c ↔ (y.first ≤ c ∧ c ≤ y.last) ∨ InRanges b c := by
        intro c
        simp only [InRanges, List.mem_cons, exists_eq_or_imp]
      simp only [inA, inB] at h
      have e1 : x.first = y.first := by
        have h1 := (h x.first).1 (.inl ⟨by omega, by omega⟩)
        have h2 := (h y.first).2 (.inl ⟨by omega, by omega⟩)
        have := lowA y.first
        have := lowB x.first
        rcases h1 with h1 | h1 <;> rcases h2 with h2 | h2
        · omega
        · have := lowA _ h2; omega
        · have := lowB _ h1; omega
        · have := lowA _ h2; have := lowB _ h1; omega
      have e2 : x.last = y.last := by
        have h1 := (h x.last).1 (.inl ⟨by omega, by omega⟩)
        have h2 := (h y.last).2 (.inl ⟨by omega, by omega⟩)
        have h3 := h (x.last + 1)
        have h4 := h (y.last + 1)
        rcases h1 with h1 | h1
        · rcases h2 with h2 | h2
          · omega
          · have l2 := lowA _ h2
            rcases h3.2 (.inl ⟨by omega, by omega⟩) with h5 | h5
            · omega
            · have := lowA _ h5; omega
        · have l1 := lowB _ h1
          rcases h4.1 (.inl ⟨by omega, by omega⟩) with h5 | h5
          · omega
          · have := lowB _ h5; omega
      have exy : x = y := by
        cases x; cases y
        simp_all
      subst exy
      congr 1
      refine ih b ⟨fun r hr => ha.wf r (by simp [hr]), sa⟩ ⟨fun r hr => hb.wf r (by simp [hr]), sb⟩ fun c => ?_
      constructor
      · intro hc
        rcases (h c).1 (.inr hc) with h1 | h1
        · have := lowA c hc; omega
        · exact h1
      · intro hc
        rcases (h c).2 (.inr hc) with h1 | h1
        · have := lowB c hc; omega
        · exact h1

/-- What a parsed class looks like. -/
structure CanonClass (rs : RunesRanges) : Prop where
  sorted : SortedRanges rs.ranges
  wf : ∀ r ∈ rs.ranges, 127 < r.first

theorem ascii_writeLoop_congr (s t : ASCIISet) (l : List UInt8) (st : UInt8)
    (h : ∀ i ∈ l, s.contains i = t.contains i) : s.writeLoop l st = t.writeLoop l st := by
  induction l generalizing st with
  | nil => rfl
  | cons i l ih =>
    have h1 := fun st => ih st fun j hj => h j (by simp [hj])
    rw [ASCIISet.writeLoop, ASCIISet.writeLoop, h i (by simp)]
    simp only [h1]

theorem ascii_writeLoop_empty (s : ASCIISet) (l : List UInt8) (h : ∀ i ∈ l, s.contains i = false) :
    s.writeLoop l 0 = [] := by
  induction l with
  | nil => rfl
  | cons i l ih =>
    rw [ASCIISet.writeLoop, if_neg (by simp [h i]), if_neg (by simp)]
    exact ih fun j hj => h j (by simp [hj])

theorem ascii_write_loop (s : ASCIISet) : s.writeString = s.writeLoop ASCIISet.codes 0 := by
  unfold ASCIISet.writeString
  split
  · rename_i h
    exact (ascii_writeLoop_empty s _ fun i _ => by
      cases hc : s.contains i with
      | false => rfl
      | true => simp [ASCIISet.isEmpty_contains h i] at hc).symm
  · rfl

theorem class_unique (a b : RunesRanges) (ha : CanonClass a) (hb : CanonClass b)
    (h : ∀ c, a.contains c = b.contains c) : a.writeString = b.writeString := by
  have hr : a.ranges = b.ranges := by
    refine ranges_unique _ _ ha.sorted hb.sorted fun c => ?_
    by_cases hc : 128 ≤ c
    · rw [← RunesRanges.containsUnicode_spec ha.sorted, ← RunesRanges.containsUnicode_spec hb.sorted,
        ← RunesRanges.contains_of_ge a hc, ← RunesRanges.contains_of_ge b hc, h]
    · constructor
      · rintro ⟨r, hr, h1, _⟩
        have := ha.wf r hr
        omega
      · rintro ⟨r, hr, h1, _⟩
        have := hb.wf r hr
        omega
  have hs : a.ascii.writeString = b.ascii.writeString := by
    rw [ascii_write_loop, ascii_write_loop]
    refine ascii_writeLoop_congr _ _ _ _ fun i hi => ?_
    unfold ASCIISet.codes at hi
    obtain ⟨n, hn, rfl⟩ := List.mem_map.1 hi
    have hlt : n < 128 := by
      have := List.mem_range'.1 hn
      omega
    rw [← RunesRanges.contains_of_lt a hlt, ← RunesRanges.contains_of_lt b hlt, h]
  unfold RunesRanges.writeString
  rw [hr, hs]

/-- The written form of a class by its members. -/
noncomputable def classText (m : Nat → Bool) : Str :=
  open Classical in
  if h : ∃ rs : RunesRanges, CanonClass rs ∧ ∀ c, rs.contains c = m c then h.choose.writeString else []

theorem classText_eq (rs : RunesRanges) (h : CanonClass rs) : classText rs.contains = rs.writeString := by
  have he : ∃ r : RunesRanges, CanonClass r ∧ ∀ c, r.contains c = rs.contains c := ⟨rs, h, fun _ => rfl⟩
  unfold classText
  rw [dif_pos he]
  exact class_unique _ _ he.choose_spec.1 h he.choose_spec.2

/-! ## Sets of words -/

/-- The words of a set, in order. -/
structure WordList (m : List Char → Bool) (vals : List Str) : Prop where
  sorted : vals.Pairwise fun a b => strLt a b = true
  mem : ∀ v, v ∈ vals ↔ ∃ w, m w = true ∧ v = utf8 w

theorem strSorted_ext {a b : List Str} (ha : a.Pairwise fun a b => strLt a b = true)
    (hb : b.Pairwise fun a b => strLt a b = true) (h : ∀ v, v ∈ a ↔ v ∈ b) : a = b := by
  have irr : ∀ v : Str, strLt v v = false := fun v => by simp [strLt, strLe_refl]
  have asym : ∀ u v : Str, strLt u v = true → strLt v u = true → False := by
    intro u v h1 h2
    unfold strLt at h1 h2
    rcases strLe_total u v with h | h <;> simp_all
  induction a generalizing b with
  | nil =>
    cases b with
    | nil => rfl
    | cons y b => exact absurd ((h y).2 (by simp)) (by simp)
  | cons x a ih =>
    cases b with
    | nil => exact absurd ((h x).1 (by simp)) (by simp)
    | cons y b =>
      obtain ⟨xa, sa⟩ := List.pairwise_cons.1 ha
      obtain ⟨yb, sb⟩ := List.pairwise_cons.1 hb
      have e : x = y := by
        rcases List.mem_cons.1 ((h x).1 (by simp)) with h1 | h1
        · exact h1
        · rcases List.mem_cons.1 ((h y).2 (by simp)) with h2 | h2
          · exact h2.symm
          · exact (asym _ _ (yb x h1) (xa y h2)).elim
      subst e
      congr 1
      refine ih sa sb fun v => ⟨fun hv => ?_, fun hv => ?_⟩
      · rcases List.mem_cons.1 ((h v).1 (by simp [hv])) with h1 | h1
        · subst h1
          have := xa v hv
          rw [irr] at this
          cases this
        · exact h1
      · rcases List.mem_cons.1 ((h v).2 (by simp [hv])) with h1 | h1
        · subst h1
          have := yb v hv
          rw [irr] at this
          cases this
        · exact h1

/-- The text of a set of words. -/
noncomputable def wordsText (m : List Char → Bool) : Str :=
  open Classical in
  if h : ∃ vals, WordList m vals then [123] ++ joinByte 44 h.choose ++ [125] else []

theorem wordsText_eq {m : List Char → Bool} {vals : List Str} (h : WordList m vals) :
    wordsText m = [123] ++ joinByte 44 vals ++ [125] := by
  have he : ∃ vals, WordList m vals := ⟨vals, h⟩
  unfold wordsText
  rw [dif_pos he, strSorted_ext he.choose_spec.sorted h.sorted fun v => by
    rw [he.choose_spec.mem, h.mem]]

theorem writeVals_join (vals : List Str) : Item.writeVals false vals = joinByte 44 vals := by
  match vals with
  | [] => rfl
  | [v] => simp [Item.writeVals, joinByte]
  | u :: v :: l =>
    rw [joinByte_cons_cons, ← writeVals_join (v :: l)]
    simp [Item.writeVals]

theorem writeVals_empty (vals : List Str) (h : vals ≠ []) :
    Item.writeVals true vals = joinByte 44 ([] :: vals) := by
  cases vals with
  | nil => exact absurd rfl h
  | cons v l =>
    rw [joinByte_cons_cons, ← writeVals_join (v :: l)]
    simp [Item.writeVals]

/-! ## Pieces -/

/-- The written form of a piece. -/
noncomputable def GPiece.text : GPiece → Str
  | .ch c => utf8 [c]
  | .run s n => (if s then [42] else []) ++ List.replicate n 63
  | .set m => classText m
  | .words m => wordsText m

noncomputable def formText (l : List GPiece) : Str := l.flatMap GPiece.text

def GPiece.isRun : GPiece → Bool
  | .run _ _ => true
  | _ => false

theorem put_ne {p : GPiece} {r : List GPiece} (h : p.isRun = false ∨ ∀ q ∈ r.head?, q.isRun = false) :
    p.put r = p :: r := by
  cases p with
  | run s n =>
    cases r with
    | nil => rfl
    | cons q r =>
      rcases h with h | h
      · cases h
      · have := h q (by simp)
        cases q <;> first | rfl | cases this
  | _ => rfl

theorem put_put (s s' : Bool) (n n' : Nat) (r : List GPiece) :
    GPiece.put (.run s n) (GPiece.put (.run s' n') r) = GPiece.put (.run (s || s') (n + n')) r := by
  cases r with
  | nil => rfl
  | cons q r =>
    cases q with
    | run s2 n2 => simp [GPiece.put, Bool.or_assoc, Nat.add_assoc]
    | _ => rfl

theorem foldr_put_chars (w : List Char) (r : List GPiece) :
    (w.map GPiece.ch).foldr GPiece.put r = w.map GPiece.ch ++ r := by
  induction w with
  | nil => rfl
  | cons c w ih => rw [List.map_cons, List.foldr_cons, ih]; rfl

theorem put_append (p : GPiece) (a r : List GPiece) (h : ∀ q ∈ r.head?, q.isRun = false) :
    p.put (a ++ r) = p.put a ++ r := by
  cases a with
  | nil => rw [List.nil_append, put_ne (.inr h), put_ne (.inr (by simp))]; rfl
  | cons q a =>
    cases p <;> cases q <;> rfl

theorem foldr_put_append (l r : List GPiece) (h : ∀ q ∈ r.head?, q.isRun = false) :
    l.foldr GPiece.put r = l.foldr GPiece.put [] ++ r := by
  induction l with
  | nil => rfl
  | cons p l ih => rw [List.foldr_cons, ih, put_append _ _ _ h]; rfl

/-- Collecting twice is collecting once. -/
theorem foldr_put_twice (l r : List GPiece) :
    (l.foldr GPiece.put []).foldr GPiece.put r = l.foldr GPiece.put r := by
  induction l with
  | nil => rfl
  | cons p l ih =>
    rw [List.foldr_cons, List.foldr_cons, ← ih]
    generalize l.foldr GPiece.put [] = k
    cases k with
    | nil => rw [put_ne (.inr (by simp))]; rfl
    | cons q k =>
      cases p with
      | run s n =>
        cases q with
        | run s' n' =>
          show (GPiece.run (s || s') (n + n')).put _ = GPiece.put (.run s n) (GPiece.put (.run s' n') _)
          rw [put_put]
        | _ => rfl
      | _ => rfl

/-! ## Items -/

inductive IsPieces : Item → List GPiece → Prop
  | lit {x : Item} {w : List Char} (h : IsLit x w) (hne : w ≠ []) : IsPieces x (w.map .ch)
  | any (n : Nat) : IsPieces (.any (n + 1)) [.run false (n + 1)]
  | star (n : Nat) : IsPieces (.star n) [.run true n]
  | cls {rs : RunesRanges} (h : CanonClass rs) : IsPieces (.ranges rs) [.set rs.contains]
  | list {l : StringList} {m : List Char → Bool} (hne : l.vals ≠ [])
      (h : WordList m (if l.minSize = 0 then [] :: l.vals else l.vals)) : IsPieces (.list l) [.words m]

inductive ArePieces : List Item → List GPiece → Prop
  | nil : ArePieces [] []
  | cons {x : Item} {xs : List Item} {a b : List GPiece} (h : IsPieces x a) (hr : ArePieces xs b) :
      ArePieces (x :: xs) (a ++ b)

theorem IsPieces.text {x : Item} {a : List GPiece} (h : IsPieces x a) : x.writeString = formText a := by
  cases h with
  | @lit _ w h hne =>
    rw [isLit_write h]
    unfold formText
    clear h hne
    induction w with
    | nil => rfl
    | cons c w ih =>
      rw [List.map_cons, List.flatMap_cons, ← ih, ← List.singleton_append, utf8_append]
      rfl
  | any n => simp [formText, GPiece.text, Item.writeString]
  | star n => simp [formText, GPiece.text, Item.writeString]
  | @cls rs h => simp [formText, GPiece.text, Item.writeString, classText_eq rs h]
  | @list l m hne h =>
    simp only [formText, List.flatMap_cons, List.flatMap_nil, List.append_nil, GPiece.text,
      Item.writeString, wordsText_eq h]
    by_cases h0 : l.minSize = 0
    · simp only [h0, decide_true, if_true, writeVals_empty _ hne]
    · simp only [h0, decide_false, if_false, writeVals_join]

theorem ArePieces.text {xs : List Item} {l : List GPiece} (h : ArePieces xs l) :
    Item.writeItems xs = formText l := by
  induction h with
  | nil => rfl
  | cons h _ ih =>
    rw [Item.writeItems, ih, h.text]
    unfold formText
    rw [List.flatMap_append]

/-- The kind of the first piece. -/
def headRun (a : List GPiece) : Bool := (a.head?.map GPiece.isRun).getD false

theorem headRun_chars (w : List Char) : headRun (w.map .ch) = false := by cases w <;> rfl

theorem mergeItem_pieces {x y m : Item} {a b : List GPiece} (hx : IsPieces x a) (hy : IsPieces y b)
    (h : mergeItem x y = some m) :
    ∃ c, IsPieces m c ∧ (∀ r, c.foldr GPiece.put r = a.foldr GPiece.put (b.foldr GPiece.put r)) ∧
      headRun c = headRun a := by
  cases hx with
  | @lit _ u hu hne =>
    cases hy with
    | @lit _ v hv hne' =>
      rw [mergeItem_lit hu hv] at h
      cases h
      refine ⟨(u ++ v).map .ch, .lit rfl (by simp [hne]), fun r => ?_, by rw [headRun_chars, headRun_chars]⟩
      rw [List.map_append, List.foldr_append]
    | any n => rw [mergeItem_lit_non hu (nonLit_any _)] at h; cases h
    | star n => rw [mergeItem_lit_non hu (nonLit_star _)] at h; cases h
    | cls _ => rw [mergeItem_lit_non hu (nonLit_ranges _)] at h; cases h
    | list _ _ => rw [mergeItem_lit_non hu (nonLit_list _)] at h; cases h
  | any n =>
    cases hy with
    | lit hv hne' => rw [mergeItem_non_lit (nonLit_any _) hv] at h; cases h
    | any k =>
      simp only [mergeItem, Option.some.injEq] at h
      subst h
      refine ⟨_, .any (n + 1 + k), fun r => ?_, rfl⟩
      simp only [List.foldr_cons, List.foldr_nil, put_put]
      rfl
    | star k =>
      simp only [mergeItem, Option.some.injEq] at h
      subst h
      refine ⟨_, .star _, fun r => ?_, rfl⟩
      simp only [List.foldr_cons, List.foldr_nil, put_put, Bool.false_or, Nat.add_comm k]
    | cls _ => simp [mergeItem] at h
    | list _ _ => simp [mergeItem] at h
  | star n =>
    cases hy with
    | lit hv hne' => rw [mergeItem_non_lit (nonLit_star _) hv] at h; cases h
    | any k =>
      simp only [mergeItem, Option.some.injEq] at h
      subst h
      refine ⟨_, .star _, fun r => ?_, rfl⟩
      simp only [List.foldr_cons, List.foldr_nil, put_put, Bool.true_or]
    | star k =>
      simp only [mergeItem, Option.some.injEq] at h
      subst h
      refine ⟨_, .star _, fun r => ?_, rfl⟩
      simp only [List.foldr_cons, List.foldr_nil, put_put, Bool.true_or]
    | cls _ => simp [mergeItem] at h
    | list _ _ => simp [mergeItem] at h
  | cls _ =>
    cases hy with
    | lit hv hne' => rw [mergeItem_non_lit (nonLit_ranges _) hv] at h; cases h
    | any k => simp [mergeItem] at h
    | star k => simp [mergeItem] at h
    | cls _ => simp [mergeItem] at h
    | list _ _ => simp [mergeItem] at h
  | list _ _ =>
    cases hy with
    | lit hv hne' => rw [mergeItem_non_lit (nonLit_list _) hv] at h; cases h
    | any k => simp [mergeItem] at h
    | star k => simp [mergeItem] at h
    | cls _ => simp [mergeItem] at h
    | list _ _ => simp [mergeItem] at h

theorem mergeItem_none_run {x y : Item} {a b : List GPiece} (hx : IsPieces x a) (hy : IsPieces y b)
    (h : mergeItem x y = none) : headRun a = false ∨ headRun b = false := by
  cases hx with
  | lit => exact .inl (headRun_chars _)
  | cls => exact .inl rfl
  | list => exact .inl rfl
  | any n =>
    cases hy with
    | lit => exact .inr (headRun_chars _)
    | cls => exact .inr rfl
    | list => exact .inr rfl
    | _ => simp [mergeItem] at h
  | star n =>
    cases hy with
    | lit => exact .inr (headRun_chars _)
    | cls => exact .inr rfl
    | list => exact .inr rfl
    | _ => simp [mergeItem] at h

theorem IsPieces.foldr {x : Item} {a : List GPiece} (h : IsPieces x a) (r : List GPiece)
    (hr : headRun a = false ∨ headRun r = false) : a.foldr GPiece.put r = a ++ r := by
  cases h with
  | lit => exact foldr_put_chars _ _
  | cls => rfl
  | list => rfl
  | any n =>
    rcases hr with hr | hr
    · cases hr
    · cases r with
      | nil => rfl
      | cons q r => cases q <;> first | rfl | cases hr
  | star n =>
    rcases hr with hr | hr
    · cases hr
    · cases r with
      | nil => rfl
      | cons q r => cases q <;> first | rfl | cases hr

theorem IsPieces.headRun_append {x : Item} {a : List GPiece} (h : IsPieces x a) (r : List GPiece) :
    headRun (a ++ r) = headRun a := by
  cases h with
  | @lit _ w h hne =>
    cases w with
    | nil => exact absurd rfl hne
    | cons c w => rfl
  | _ => rfl

theorem normAux_pieces (x : Item) (ys : List Item) (a b : List GPiece) (hx : IsPieces x a)
    (hy : ArePieces ys b) : ∃ l, ArePieces (normAux x ys) l ∧ l.foldr GPiece.put [] = l ∧
      (∀ r, l.foldr GPiece.put r = a.foldr GPiece.put (b.foldr GPiece.put r)) ∧ headRun l = headRun a := by
  induction ys generalizing x a b with
  | nil =>
    cases hy
    refine ⟨a, ?_, ?_, fun r => rfl, rfl⟩
    · have := ArePieces.cons hx .nil
      rwa [List.append_nil] at this
    · rw [hx.foldr [] (.inr rfl), List.append_nil]
  | cons y ys ih =>
    cases hy with
    | @cons _ _ b1 b2 h1 h2 =>
    unfold normAux
    cases hm : mergeItem x y with
    | some m =>
      obtain ⟨c, hc, h3, h4⟩ := mergeItem_pieces hx h1 hm
      obtain ⟨l, l1, l2, l3, l4⟩ := ih m c b2 hc h2
      refine ⟨l, l1, l2, fun r => ?_, l4.trans h4⟩
      rw [l3, h3, List.foldr_append]
    | none =>
      obtain ⟨l, l1, l2, l3, l4⟩ := ih y b1 b2 h1 h2
      have hf : headRun a = false ∨ headRun l = false := by
        rw [l4]
        exact mergeItem_none_run hx h1 hm
      refine ⟨a ++ l, .cons hx l1, ?_, fun r => ?_, hx.headRun_append l⟩
      · rw [List.foldr_append, l2, hx.foldr l hf]
      · rw [List.foldr_append, l3, List.foldr_append]

theorem norm_pieces (xs : List Item) (a : List GPiece) (h : ArePieces xs a) :
    ArePieces (norm xs) (a.foldr GPiece.put []) := by
  cases h with
  | nil => exact .nil
  | @cons x xs a b h hr =>
    obtain ⟨l, l1, l2, l3, _⟩ := normAux_pieces x xs a b h hr
    rw [List.foldr_append, ← l3 [], l2]
    exact l1

/-! ## Tokens -/

theorem classOne_some {es : List ClassElt} {c : Char} (h : classOne es = some c) :
    es ≠ [] ∧ es.all (ClassElt.only c) = true := by
  match es with
  | [] => cases h
  | .one d :: es =>
    simp only [classOne] at h
    split at h
    · rename_i h1
      cases h
      simp [ClassElt.only, h1]
    · cases h
  | .range a b :: es =>
    simp only [classOne] at h
    split at h
    · rename_i h1
      cases h
      simp [ClassElt.only, h1.1.symm, h1.2]
    · cases h

theorem classOne_of_only {es : List ClassElt} {c : Char} (hne : es ≠ [])
    (h : es.all (ClassElt.only c) = true) : classOne es = some c := by
  match es with
  | [] => exact absurd rfl hne
  | .one d :: es =>
    simp only [List.all_cons, ClassElt.only, Bool.and_eq_true, Bool.or_eq_true, decide_eq_true_eq,
      ClassElt.one.injEq, reduceCtorEq, or_false] at h
    obtain ⟨rfl, h⟩ := h
    have h' : es.all (ClassElt.only d) = true := h
    simp only [classOne, h', if_true]
  | .range a b :: es =>
    simp only [List.all_cons, ClassElt.only, Bool.and_eq_true, Bool.or_eq_true, decide_eq_true_eq,
      ClassElt.range.injEq, reduceCtorEq, false_or] at h
    obtain ⟨⟨rfl, rfl⟩, h⟩ := h
    have h' : es.all (ClassElt.only b) = true := h
    simp only [classOne, h', true_and, if_true]

theorem mem_of_only {es : List ClassElt} {c : Char} (h : es.all (ClassElt.only c) = true) {d : Nat}
    (hd : ClassMem es d) : d = c.toNat := by
  obtain ⟨e, he, hm⟩ := hd
  have := List.all_eq_true.1 h e he
  unfold ClassElt.only at this
  simp only [Bool.or_eq_true, decide_eq_true_eq] at this
  rcases this with rfl | rfl
  · exact hm
  · simp only [ClassElt.Mem] at hm
    omega

theorem ClsItem.pieces {es : List ClassElt} {it : Item} (h : ClsItem es it) (hne : es ≠ [])
    (hok : ∀ e ∈ es, e.Ok) : IsPieces it [Sub.piece (.cls es)] := by
  rcases h.kind with ⟨c, hc⟩ | ⟨rs, rfl, _⟩
  · have hmem : ∀ d : Char, ClassMem es d.toNat → d = c := by
      intro d hd
      have h1 := (h.sem [d]).2 ⟨d, rfl, hd⟩
      rw [hc.sem] at h1
      simpa using h1
    have := classOne_of_only hne (only_of_single hok hmem)
    simp only [Sub.piece, this]
    exact .lit (w := [c]) hc (by simp)
  · obtain ⟨x, y, hxy, hx, hy⟩ := h.two rs rfl
    have : classOne es = none := by
      cases ho : classOne es with
      | none => rfl
      | some c =>
        have := (classOne_some ho).2
        exact absurd ((mem_of_only this hx).trans (mem_of_only this hy).symm) hxy
    have hs := h.cls rs rfl
    have he : (fun c => decide (ClassMem es c)) = rs.contains := by
      funext c
      rw [Bool.eq_iff_iff, hs.mem, decide_eq_true_eq]
    simp only [Sub.piece, this, he]
    exact .cls ⟨hs.sorted, hs.wf⟩

theorem Chunk.pieces {c : List Sub} {it : Item} (h : Chunk c it) (hok : ∀ s ∈ c, s.Ok false) :
    ∃ a, IsPieces it a ∧ ∀ r, (c.map Sub.piece).foldr GPiece.put r = a.foldr GPiece.put r := by
  cases h with
  | @lits cs _ hne h =>
    refine ⟨_, .lit h hne, fun r => ?_⟩
    rw [List.map_map]
    rfl
  | any => exact ⟨_, .any 0, fun r => rfl⟩
  | stars k =>
    refine ⟨_, .star 0, fun r => ?_⟩
    induction k with
    | zero => rfl
    | succ k ih =>
      rw [List.replicate_succ, List.map_cons, List.foldr_cons, ih fun s hs => hok s (by
        rw [List.replicate_succ]; exact List.mem_cons_of_mem _ hs)]
      exact put_put true true 0 0 r
  | @cls es _ h =>
    have ho := hok (.cls es) (by simp)
    exact ⟨_, h.pieces ho.1 ho.2.1, fun r => rfl⟩

theorem chars_lits (w : List Char) : (w.map Sub.lit).filterMap Sub.char? = w := by
  induction w with
  | nil => rfl
  | cons c w ih =>
    rw [List.map_cons, List.filterMap_cons, ih]
    rfl

theorem oneWord_some {alts : List (List Sub)} {w : List Char} (h : oneWord alts = some w)
    (hp : plainAlts alts = true) : ∀ a ∈ alts, a = w.map .lit := by
  cases alts with
  | nil => cases h
  | cons a l =>
    simp only [oneWord] at h
    split at h
    · rename_i hl
      cases h
      obtain ⟨cs, rfl⟩ := (plainAlts_iff _).1 hp a (by simp)
      have hc := chars_lits cs
      intro b hb
      rw [hc]
      rcases List.mem_cons.1 hb with rfl | hb
      · rfl
      · exact of_decide_eq_true (List.all_eq_true.1 hl b hb)
    · cases h

theorem oneWord_of {alts : List (List Sub)} {w : List Char} (hne : alts ≠ [])
    (h : ∀ a ∈ alts, a = w.map .lit) : oneWord alts = some w := by
  cases alts with
  | nil => exact absurd rfl hne
  | cons a l =>
    have ha := h a (by simp)
    subst ha
    have hc := chars_lits w
    simp only [oneWord]
    rw [if_pos, hc]
    rw [List.all_eq_true]
    intro b hb
    exact decide_eq_true (h b (by simp [hb]))

theorem oneWord_none {alts : List (List Sub)} (hp : plainAlts alts = true)
    (h : ∃ a ∈ alts, ∃ b ∈ alts, a ≠ b) : oneWord alts = none := by
  cases ho : oneWord alts with
  | none => rfl
  | some w =>
    obtain ⟨a, ha, b, hb, hab⟩ := h
    exact absurd ((oneWord_some ho hp a ha).trans (oneWord_some ho hp b hb).symm) hab

theorem lits_inj {u v : List Char} (h : u.map Sub.lit = v.map Sub.lit) : u = v :=
  (List.map_inj_right (fun x y h => by cases h; rfl)).1 h

theorem altRes_pieces {alts : List (List Sub)} {it : Item} (hne : alts ≠ []) (h : AltRes alts (some it))
    (hp : plainAlts alts = true) (hng : NoGroup it) : IsPieces it (Tok.pieces (.alt alts)) := by
  cases h with
  | @lit _ ws hw h hl =>
    simp only [Tok.pieces, oneWord_of hne h]
    exact .lit hl hw
  | @list l _ hwf hsem h0 _ _ _ _ hv hsort htwo =>
    simp only [Tok.pieces, oneWord_none hp htwo]
    refine .list hv ⟨?_, fun v => ?_⟩
    · split
      · refine List.pairwise_cons.2 ⟨fun v hv' => ?_, hsort⟩
        obtain ⟨w, rfl, hw⟩ := hwf.vals v hv'
        have : utf8 w ≠ [] := fun e => hw ((utf8_eq_nil w).1 e)
        cases hu : utf8 w with
        | nil => exact absurd hu this
        | cons x t => rfl
      · exact hsort
    · have key : ∀ w : List Char, (utf8 w ∈ l.vals ∨ (l.minSize = 0 ∧ w = [])) ↔ w.map Sub.lit ∈ alts := by
        intro w
        have := hsem w
        simp only [Item.Sem] at this
        rw [this]
        constructor
        · rintro ⟨a, ha, hf⟩
          obtain ⟨cs, rfl⟩ := (plainAlts_iff _).1 hp a ha
          rw [subsFit_lits] at hf
          rw [hf]
          exact ha
        · intro hm
          exact ⟨_, hm, (subsFit_lits _ _).2 rfl⟩
      have hval : v ∈ l.vals → ∃ w, v = utf8 w := fun hv' => by
        obtain ⟨w, e, _⟩ := hwf.vals v hv'
        exact ⟨w, e⟩
      constructor
      · intro hm
        have : v ∈ l.vals ∨ (l.minSize = 0 ∧ v = []) := by
          split at hm
          · rename_i h0
            rcases List.mem_cons.1 hm with h | h
            · exact .inr ⟨h0, h⟩
            · exact .inl h
          · exact .inl hm
        rcases this with h | ⟨h, rfl⟩
        · obtain ⟨w, rfl⟩ := hval h
          exact ⟨w, decide_eq_true ((key w).1 (.inl h)), rfl⟩
        · exact ⟨[], decide_eq_true ((key []).1 (.inr ⟨h, rfl⟩)), rfl⟩
      · rintro ⟨w, hw, rfl⟩
        rcases (key w).2 (of_decide_eq_true hw) with h | ⟨h, rfl⟩
        · split
          · exact List.mem_cons_of_mem _ h
          · exact h
        · rw [if_pos h]
          exact List.mem_cons_self
  | star hp' _ => rw [hp] at hp'; cases hp'
  | group => exact absurd rfl (hng _ _ _)

theorem RawToks.pieces {ts : List Tok} {raws : List Item} (h : RawToks ts raws)
    (hok : ∀ t ∈ ts, t.Ok) (hw : ∀ t ∈ ts, t.Wordy) (hng : ∀ x ∈ raws, NoGroup x) :
    ∃ a, ArePieces raws a ∧ ∀ r, (ts.flatMap Tok.pieces).foldr GPiece.put r = a.foldr GPiece.put r := by
  induction h with
  | nil => exact ⟨[], .nil, fun r => rfl⟩
  | @chunk c it ts raws h hr ih =>
    obtain ⟨a, h1, h2⟩ := h.pieces fun s hs => hok (.sub s) (by simp [hs])
    obtain ⟨b, h3, h4⟩ := ih (fun t ht => hok t (by simp [ht])) (fun t ht => hw t (by simp [ht]))
      (fun x hx => hng x (by simp [hx]))
    refine ⟨a ++ b, .cons h1 h3, fun r => ?_⟩
    have : (c.map Tok.sub).flatMap Tok.pieces = c.map Sub.piece := by
      clear h h1 h2 hok hw
      induction c with
      | nil => rfl
      | cons s c ih => rw [List.map_cons, List.flatMap_cons, ih]; rfl
    rw [List.flatMap_append, List.foldr_append, h4, this, h2, List.foldr_append]
  | @skip alts ts raws hne h hr ih =>
    obtain ⟨b, h3, h4⟩ := ih (fun t ht => hok t (by simp [ht])) (fun t ht => hw t (by simp [ht])) hng
    refine ⟨b, h3, fun r => ?_⟩
    have : Tok.pieces (.alt alts) = [] := by
      simp only [Tok.pieces, oneWord_of (w := []) hne h, List.map_nil]
    rw [List.flatMap_cons, this, List.nil_append, h4]
  | @alt alts it ts raws hne h hr ih =>
    obtain ⟨b, h3, h4⟩ := ih (fun t ht => hok t (by simp [ht])) (fun t ht => hw t (by simp [ht]))
      (fun x hx => hng x (by simp [hx]))
    refine ⟨_, .cons (altRes_pieces hne h (hw (.alt alts) (by simp)) (hng it (by simp))) h3, fun r => ?_⟩
    rw [List.flatMap_cons, List.foldr_append, h4, List.foldr_append]

theorem ArePieces.split {xs ys : List Item} {l : List GPiece} (h : ArePieces (xs ++ ys) l) :
    ∃ a b, l = a ++ b ∧ ArePieces xs a ∧ ArePieces ys b := by
  induction xs generalizing l with
  | nil => exact ⟨[], l, rfl, .nil, h⟩
  | cons x xs ih =>
    cases h with
    | @cons _ _ a b h hr =>
      obtain ⟨c, d, rfl, h1, h2⟩ := ih hr
      exact ⟨a ++ c, d, by simp, .cons h h1, h2⟩

theorem isLit_unique {x : Item} {u v : List Char} (hu : IsLit x u) (hv : IsLit x v) : u = v :=
  utf8_inj ((isLit_write hu).symm.trans (isLit_write hv))

theorem isLit_not_nonLit {x : Item} {u : List Char} (h : IsLit x u) (hn : NonLit x) : False := by
  cases x <;> first | exact h | simp [NonLit, litBytes] at hn

theorem LitsAre.pieces {xs : List Item} {w : List Char} (h : LitsAre xs w) {l : List GPiece}
    (hl : ArePieces xs l) : l = w.map .ch := by
  induction h generalizing l with
  | nil => cases hl; rfl
  | @cons x xs ws us h hr ih =>
    cases hl with
    | @cons _ _ a b ha hb =>
      rw [List.map_append, ih hb]
      congr 1
      cases ha with
      | lit h' _ => rw [isLit_unique h' h]
      | any n => exact h.elim
      | star n => exact h.elim
      | cls _ => exact h.elim
      | list _ _ => exact h.elim

theorem formText_append (a b : List GPiece) : formText (a ++ b) = formText a ++ formText b :=
  List.flatMap_append

theorem formText_chars (w : List Char) : formText (w.map .ch) = utf8 w := by
  induction w with
  | nil => rfl
  | cons c w ih =>
    have : utf8 (c :: w) = utf8 [c] ++ utf8 w := utf8_append [c] w
    rw [this, ← ih]
    rfl

theorem LitsAre.noGroup {xs : List Item} {w : List Char} (h : LitsAre xs w) : ∀ x ∈ xs, NoGroup x := by
  induction h with
  | nil => intro x hx; cases hx
  | cons h _ ih =>
    intro x hx
    rcases List.mem_cons.1 hx with rfl | hx
    · exact h.noGroup
    · exact ih x hx

theorem mergeItem_group {x m : Item} {vals : List Item} {mn mx : Int} :
    mergeItem x (.group vals mn mx) ≠ some m ∧ mergeItem (.group vals mn mx) x ≠ some m := by
  constructor <;> intro h <;> cases x <;> simp [mergeItem] at h

theorem normAux_group (x : Item) (ys : List Item) {vals : List Item} {mn mx : Int} :
    (x = .group vals mn mx ∨ .group vals mn mx ∈ ys) → .group vals mn mx ∈ normAux x ys := by
  induction ys generalizing x with
  | nil =>
    rintro (rfl | h)
    · simp [normAux]
    · cases h
  | cons y ys ih =>
    intro h
    unfold normAux
    cases hm : mergeItem x y with
    | none =>
      dsimp only
      rcases h with rfl | h
      · simp
      · refine List.mem_cons_of_mem _ (ih y ?_)
        rcases List.mem_cons.1 h with h | h
        · exact .inl h.symm
        · exact .inr h
    | some m =>
      dsimp only
      rcases h with rfl | h
      · exact absurd hm mergeItem_group.2
      · rcases List.mem_cons.1 h with rfl | h
        · exact absurd hm mergeItem_group.1
        · exact ih m (.inr h)

theorem norm_group (xs : List Item) (h : ∀ x ∈ norm xs, NoGroup x) : ∀ x ∈ xs, NoGroup x := by
  intro x hx vals mn mx e
  subst e
  cases xs with
  | nil => cases hx
  | cons y ys =>
    refine h _ (normAux_group y ys ?_) vals mn mx rfl
    rcases List.mem_cons.1 hx with h | h
    · exact .inl h.symm
    · exact .inr h

/-- The normal form of a glob, by its pieces. -/
theorem node_pieces {ts : List Tok} {g : Glob} (hok : ∀ t ∈ ts, t.Ok) (hw : ∀ t ∈ ts, t.Wordy)
    (h : GlobOk ts g) (hng : ∀ x ∈ g.items, NoGroup x) : g.node = formText (pieces ts) := by
  obtain ⟨l0, mid, l1, raws, lits, rest, tail, W, V, rfl, hr, rfl, f2, f3, f4, f5, f6⟩ := h.layout
  obtain ⟨a, ha, hf⟩ := hr.pieces (fun t ht => hok t (by simp [ht])) (fun t ht => hw t (by simp [ht])) (by
    intro x hx
    rcases List.mem_append.1 hx with hx | hx
    · exact f2.noGroup x hx
    · refine norm_group rest ?_ x hx
      intro y hy
      rw [f3] at hy
      rcases List.mem_append.1 hy with hy | hy
      · exact hng y hy
      · exact f4.noGroup y hy)
  obtain ⟨a1, a2, rfl, ha1, ha2⟩ := ha.split
  have := f2.pieces ha1
  subst this
  have hp : pieces ((l0.map Sub.lit).map Tok.sub ++ (mid ++ (l1.map Sub.lit).map Tok.sub)) =
      l0.map .ch ++ (W.map .ch ++ (a2.foldr GPiece.put [] ++ l1.map .ch)) := by
    have hl : ∀ w : List Char, ((w.map Sub.lit).map Tok.sub).flatMap Tok.pieces = w.map .ch := fun w => by
      induction w with
      | nil => rfl
      | cons c w ih => rw [List.map_cons, List.map_cons, List.flatMap_cons, ih]; rfl
    unfold pieces
    rw [List.flatMap_append, List.flatMap_append, List.foldr_append, List.foldr_append, hl, hl, hf,
      foldr_put_chars, foldr_put_chars, List.append_nil, List.foldr_append, foldr_put_chars,
      foldr_put_append a2 _ (by cases l1 <;> simp [GPiece.isRun])]
  have hn := (norm_pieces rest a2 ha2).text
  have htail : Item.writeItems tail = utf8 V := by
    obtain ⟨b1, b2, _, _, hb2⟩ := (f3 ▸ norm_pieces rest a2 ha2).split
    rw [hb2.text, f4.pieces hb2, formText_chars]
  have happ : ∀ u v : List Item, Item.writeItems (u ++ v) = Item.writeItems u ++ Item.writeItems v := by
    intro u v
    induction u with
    | nil => rfl
    | cons x u ih => simp [Item.writeItems, ih]
  rw [hp, formText_append, formText_append, formText_append, formText_chars, formText_chars,
    formText_chars, ← hn, f3, happ, htail]
  by_cases hi : g.items = []
  · rw [f6 hi, hi]
    simp [utf8_append, Item.writeItems]
  · obtain ⟨_, _, _, _, hnode, _⟩ := h.wild hi
    rw [hnode, (f5 hi).1, (f5 hi).2]
    simp [utf8_append]

end GoMatcher
