import Verif.Proofs.TreePaths
import Verif.Proofs.FlatItems

/-! # What the tree search stores on well-behaved paths -/

namespace GoMatcher

theorem Simple.starFree {x : Item} (h : Simple x) (hn : ∀ n, x ≠ .star n) : StarFree x := by
  cases x <;> first | trivial | exact h.elim | exact absurd rfl (hn _)

/-! ## Inversion of `Good` -/

theorem DoneItem.flag {it : Item} {w : Nat} (h : DoneItem it w) : (it.matchAt (utf8 [])).2 = .done := by
  rcases h.matchAt [] with ⟨a, b, _, _, e⟩ | ⟨_, e⟩ <;> rw [e]

theorem FindItem.not_any {n w : Nat} (h : FindItem (.any n) w) : False := by
  rcases h.find (List.replicate n 'a') with ⟨p, a, q, e, ha, e2, _⟩ | ⟨h1, _⟩
  · simp only [Item.find, skipRunes_utf8] at e2
    simp at e2
  · exact h1 (fun _ e => by cases e) [] (List.replicate n 'a') [] (by simp) (by simp [Item.Sem])

theorem good_star {ex a : Bool} {n : Nat} {r : List Item} (h : Good ex a (.star n :: r)) :
    (a = true → ex = false ∧ n = 0) ∧ Good ex true r := by
  cases h with
  | lit hd _ => exact absurd hd.toDoneItem.flag (by simp [Item.matchAt])
  | star h hr => exact ⟨h, hr⟩

theorem good_any {ex a : Bool} {n : Nat} {r : List Item} (h : Good ex a (.any n :: r)) :
    Good ex false r := by
  cases h with
  | lit _ hr => exact hr
  | any hr => exact hr

theorem good_strs {ex a : Bool} {l : StringList} {r : List Item} (h : Good ex a (.list l :: r)) :
    ListWF l ∧ (a = true → ex = true → ListOk l r) ∧ Good ex false r ∧
      (a = true → l.minSize = 0 → Good ex true r) := by
  cases h with
  | lit hd _ => exact absurd hd.toDoneItem.flag (by simp [Item.matchAt])
  | list hw hl hr ho => exact ⟨hw, hl, hr, ho⟩

theorem good_group {ex a : Bool} {vals : List Item} {mn mx : Int} {r : List Item}
    (h : Good ex a (.group vals mn mx :: r)) :
    GroupWF vals mn ∧ (∀ v ∈ vals, Good ex a (groupItems v ++ r)) ∧ (mn = 0 → Good ex a r) := by
  cases h with
  | lit hd _ => exact absurd hd.toDoneItem.flag (by simp [Item.matchAt])
  | group hw _ hr ho => exact ⟨hw, hr, ho⟩

theorem good_chain {ex a : Bool} {xs : List Item} {mn mx : Int} {r : List Item}
    (h : Good ex a (.chain xs mn mx :: r)) : False := by
  cases h with
  | lit hd _ => exact absurd hd.toDoneItem.flag (by simp [Item.matchAt])

/-- Literal items. -/
def IsLitItem : Item → Prop
  | .str _ | .byte _ | .rune _ | .ranges _ => True
  | _ => False

theorem good_lit {ex a : Bool} {it : Item} {r : List Item} (hl : IsLitItem it)
    (h : Good ex a (it :: r)) : (∃ w, FindItem it w) ∧ Good ex false r := by
  cases h with
  | lit hd hr => exact ⟨⟨_, hd⟩, hr⟩
  | any _ => exact hl.elim
  | star _ _ => exact hl.elim
  | list _ _ _ _ => exact hl.elim
  | group _ _ _ _ => exact hl.elim

/-- Good paths with flat groups. -/
def POk (ex a : Bool) (l : List Item) : Prop := Good ex a l ∧ ∀ x ∈ l, FlatItem x

theorem POk.of_false {ex : Bool} {l : List Item} (h : POk ex true l) : POk ex false l :=
  ⟨h.1.of_false, h.2⟩

/-! ## Paths that hide others -/

/-- A path that goes on behind a report is free of stars. -/
def NoHide (b : Bool) (items : List Item) (t : Tree) : Prop :=
  ∀ p q e e', t.Below p e → t.Below (p ++ q) e' → q ≠ [] →
    b = false ∧ (∀ x ∈ items, StarFree x) ∧ ∀ x ∈ its p, StarFree x

theorem NoHide.tail {b : Bool} {it : Item} {items : List Item} {t : Tree}
    (h : NoHide b (it :: items) t) : NoHide b items t :=
  fun p q e e' h1 h2 h3 =>
    let ⟨a, b, c⟩ := h p q e e' h1 h2 h3
    ⟨a, fun x hx => b x (List.mem_cons_of_mem _ hx), c⟩

theorem NoHide.child {b : Bool} {t c : Tree} (h : NoHide b [] t) (hc : c ∈ t.childs) :
    NoHide b [c.item] c := by
  intro p q e e' h1 h2 h3
  obtain ⟨a1, _, a3⟩ := h _ _ e e' (.child hc h1) (.child hc h2) h3
  refine ⟨a1, ?_, fun x hx => a3 x (by simp [hx])⟩
  intro x hx
  rw [List.mem_singleton.1 hx]
  exact a3 _ (by simp)

/-- No report below goes on. -/
def NoCut (t : Tree) : Prop := ∀ p q e e', t.Below p e → t.Below (p ++ q) e' → q = []

theorem NoCut.noHide {t : Tree} (h : NoCut t) (b : Bool) (items : List Item) : NoHide b items t :=
  fun p q e e' h1 h2 h3 => absurd (h p q e e' h1 h2) h3

theorem NoHide.noCut {items : List Item} {t : Tree} (h : NoHide true items t) : NoCut t :=
  fun p q e e' h1 h2 => Classical.byContradiction fun h3 => absurd (h p q e e' h1 h2 h3).1 (by simp)

theorem NoHide.noCut_star {b : Bool} {n : Nat} {items : List Item} {t : Tree}
    (h : NoHide b (.star n :: items) t) : NoCut t :=
  fun p q e e' h1 h2 => Classical.byContradiction fun h3 =>
    ((h p q e e' h1 h2 h3).2.1 (.star n) (by simp)).elim

theorem NoCut.child {t c : Tree} (h : NoCut t) (hc : c ∈ t.childs) : NoCut c :=
  fun _ q e e' h1 h2 => h _ q e e' (.child hc h1) (.child hc h2)

theorem Tree.Live.child {t c : Tree} (h : t.Live) (hc : c ∈ t.childs) : c.Live := by
  cases h with
  | mk _ h => exact h c hc

theorem Tree.Live.path {t : Tree} (h : t.Live) : ∃ p e, t.Below p e := by
  cases h with
  | mk h _ => exact h

/-- A report at a node without hidden reports has no children. -/
theorem NoCut.no_childs {t : Tree} (h : NoCut t) (hl : t.Live) {e : Str × Int}
    (he : t.Below [] e) : t.childs = [] := by
  match hc : t.childs with
  | [] => rfl
  | c :: cs =>
    have hm : c ∈ t.childs := by rw [hc]; simp
    obtain ⟨p, e', hp⟩ := (hl.child hm).path
    exact absurd (h [] _ e e' he (.child hm hp)) (by simp)

/-! ## Results -/

/-- What is stored below `t` when the items match the whole text first. -/
def ResI (ex : Bool) (t : Tree) (items : List Item) (cs : List Char) (x : R Ev) : Prop :=
  (∀ e, Sto x e → ∃ p, t.Below p e ∧ SeqSem (items ++ its p) cs) ∧
  (ex = true → NoHide false items t →
    ∀ p e, t.Below p e → CleanSeq (items ++ its p) cs → SeqSem (items ++ its p) cs → Sto x e)

/-- The same behind a star: some suffix of the text. -/
def ResJ (ex : Bool) (t : Tree) (items : List Item) (cs : List Char) (x : R Ev) : Prop :=
  (∀ e, Sto x e → ∃ p u, t.Below p e ∧ u <:+ cs ∧ SeqSem (items ++ its p) u) ∧
  (ex = true → NoHide true items t →
    ∀ p e u, t.Below p e → CleanSeq (items ++ its p) cs → u <:+ cs → SeqSem (items ++ its p) u →
      Sto x e)

def SpecM (ex : Bool) (M : TMatcher) : Prop := ∀ t cs, t.Live →
  (∀ p e, t.Below p e → POk ex false (t.item :: its p)) → IsOk (M t (utf8 cs)) →
  ResI ex t [t.item] cs (M t (utf8 cs))

def SpecS (ex : Bool) (S : TMatcher) : Prop := ∀ t cs, t.Live →
  (∀ p e, t.Below p e → POk ex true (t.item :: its p)) → IsOk (S t (utf8 cs)) →
  ResJ ex t [t.item] cs (S t (utf8 cs))

/-- The loop: when `optional` is not set, only soundness for lists. -/
def SpecL (ex : Bool) (L : Bool → TMatcher) : Prop := ∀ opt t cs, t.Live →
  (∀ p e, t.Below p e → POk ex true (t.item :: its p)) → IsOk (L opt t (utf8 cs)) →
  (∀ e, Sto (L opt t (utf8 cs)) e →
    ∃ p u, t.Below p e ∧ u <:+ cs ∧ SeqSem ([t.item] ++ its p) u) ∧
  ((∀ l, t.item = .list l → opt = true) → ResJ ex t [t.item] cs (L opt t (utf8 cs)))

def SpecI (ex : Bool) (I : IMatcher) : Prop := ∀ t cs items, t.Live →
  (∀ x ∈ items, Simple x) → (∀ p e, t.Below p e → POk ex false (items ++ its p)) →
  IsOk (I t (utf8 cs) items) → ResI ex t items cs (I t (utf8 cs) items)

def SpecJ (ex : Bool) (J : IMatcher) : Prop := ∀ t cs items, t.Live →
  (∀ x ∈ items, Simple x) → (∀ p e, t.Below p e → POk ex true (items ++ its p)) →
  IsOk (J t (utf8 cs) items) → ResJ ex t items cs (J t (utf8 cs) items)

section Steps
variable {ex : Bool} {M S : TMatcher} {I J : IMatcher} {L : Bool → TMatcher}

theorem utf8_nil_iff (cs : List Char) : utf8 cs = [] ↔ cs = [] := utf8_eq_nil cs

theorem res_next (hM : SpecM ex M) {t : Tree} {cs : List Char} (hl : t.Live)
    (hp : ∀ p e, t.Below p e → POk ex false (its p)) (hok : IsOk (t.next M (utf8 cs))) :
    ResI ex t [] cs (t.next M (utf8 cs)) := by
  unfold Tree.next at hok ⊢
  obtain ⟨hok1, hok2⟩ := isOk_addR.1 hok
  have hok3 := isOk_forChilds.1 hok2
  have hc : ∀ c ∈ t.childs, ResI ex c [c.item] cs (M c (utf8 cs)) := fun c hc =>
    hM c cs (hl.child hc) (fun p e h => hp _ _ (.child hc h)) (hok3 c hc)
  constructor
  · intro e he
    rcases (sto_addR.1 he).2 with he | he
    · obtain ⟨h1, h2⟩ := sto_when.1 he
      refine ⟨[], .here (sto_fin.1 h2), ?_⟩
      exact (utf8_nil_iff _).1 h1
    · obtain ⟨_, c, hm, he⟩ := sto_forChilds.1 he
      obtain ⟨p, h1, h2⟩ := (hc c hm).1 e he
      exact ⟨_, .child hm h1, h2⟩
  · intro hex hh p e hb hcl hs
    refine sto_addR.2 ⟨⟨hok1, hok2⟩, ?_⟩
    cases hb with
    | here h =>
      left
      exact sto_when.2 ⟨(utf8_nil_iff _).2 hs, sto_fin.2 h⟩
    | child hm h =>
      right
      exact sto_forChilds.2 ⟨hok3, _, hm, (hc _ hm).2 hex (hh.child hm) _ _ h hcl hs⟩

theorem res_starChilds (hS : SpecS ex S) {t : Tree} {cs : List Char} (hl : t.Live)
    (hp : ∀ p e, t.Below p e → POk ex true (its p))
    (hok : IsOk (forChilds (fun c => S c (utf8 cs)) t.childs)) :
    (∀ e, Sto (forChilds (fun c => S c (utf8 cs)) t.childs) e →
      ∃ p u, t.Below p e ∧ u <:+ cs ∧ SeqSem (its p) u) ∧
    (ex = true → NoCut t → ∀ i p e u, t.Below (i :: p) e → CleanSeq (its (i :: p)) cs → u <:+ cs →
      SeqSem (its (i :: p)) u →
      Sto (forChilds (fun c => S c (utf8 cs)) t.childs) e) := by
  have hok3 := isOk_forChilds.1 hok
  have hc : ∀ c ∈ t.childs, ResJ ex c [c.item] cs (S c (utf8 cs)) := fun c hc =>
    hS c cs (hl.child hc) (fun p e h => hp _ _ (.child hc h)) (hok3 c hc)
  constructor
  · intro e he
    obtain ⟨_, c, hm, he⟩ := sto_forChilds.1 he
    obtain ⟨p, u, h1, h2, h3⟩ := (hc c hm).1 e he
    exact ⟨_, u, .child hm h1, h2, h3⟩
  · intro hex hh i p e u hb hcl hu hs
    cases hb with
    | child hm h =>
      exact sto_forChilds.2 ⟨hok3, _, hm,
        (hc _ hm).2 hex ((hh.child hm).noHide _ _) _ _ u h hcl hu hs⟩

theorem res_starNext (hS : SpecS ex S) {t : Tree} {cs : List Char} (hl : t.Live)
    (hp : ∀ p e, t.Below p e → POk ex true (its p)) (hok : IsOk (t.starNext S (utf8 cs))) :
    ResJ ex t [] cs (t.starNext S (utf8 cs)) := by
  unfold Tree.starNext at hok ⊢
  obtain ⟨hok1, hok2⟩ := isOk_addR.1 hok
  obtain ⟨h1, h2⟩ := res_starChilds hS hl hp hok2
  constructor
  · intro e he
    rcases (sto_addR.1 he).2 with he | he
    · exact ⟨[], [], .here (sto_fin.1 he), List.nil_suffix, rfl⟩
    · exact h1 e he
  · intro hex hh p e u hb hcl hu hs
    refine sto_addR.2 ⟨⟨hok1, hok2⟩, ?_⟩
    cases p with
    | nil =>
      left
      cases hb with
      | here h => exact sto_fin.2 h
    | cons i p => exact Or.inr (h2 hex hh.noCut i p e u hb hcl hu hs)

/-- The two ways a star ends: `t.childs.length = 0` and the report, or the children. -/
theorem res_starEnd (hS : SpecS ex S) {t : Tree} {cs : List Char} (hl : t.Live)
    (hp : ∀ p e, t.Below p e → POk ex true (its p)) {c : Prop} [Decidable c]
    (hc : c → t.childs.length = 0) (hc2 : t.childs.length = 0 → t.term.isSome → c)
    (hok : IsOk (if c then .ok (storeFin t.term)
      else forChilds (fun c => S c (utf8 cs)) t.childs)) :
    (∀ e, Sto (if c then .ok (storeFin t.term)
      else forChilds (fun c => S c (utf8 cs)) t.childs) e →
      ∃ p u, t.Below p e ∧ u <:+ cs ∧ SeqSem (its p) u) ∧
    (ex = true → NoCut t → ∀ p e u, t.Below p e → CleanSeq (its p) cs → u <:+ cs → SeqSem (its p) u →
      Sto (if c then .ok (storeFin t.term)
      else forChilds (fun c => S c (utf8 cs)) t.childs) e) := by
  by_cases h : c
  · simp only [h, if_true]
    constructor
    · intro e he
      exact ⟨[], [], .here (sto_fin.1 he), List.nil_suffix, rfl⟩
    · intro hex hh p e u hb hcl hu hs
      cases hb with
      | here h => exact sto_fin.2 h
      | child hm _ =>
        rw [List.length_eq_zero_iff.1 (hc h)] at hm
        cases hm
  · simp only [h, if_false] at hok ⊢
    obtain ⟨h1, h2⟩ := res_starChilds hS hl hp hok
    refine ⟨h1, ?_⟩
    intro hex hh p e u hb hcl hu hs
    cases p with
    | nil =>
      have hz := hh.no_childs hl hb
      cases hb with
      | here ht => exact absurd (hc2 (by rw [hz]; rfl) (by rw [ht]; rfl)) h
    | cons i p => exact h2 hex hh i p e u hb hcl hu hs

/-! ## Items in front -/

theorem resI_none {t : Tree} {it : Item} {rest : List Item} {cs : List Char}
    (h : Clean it cs → ∀ a b, cs = a ++ b → ¬ it.Sem a) : ResI ex t (it :: rest) cs noEv := by
  constructor
  · intro e he; exact absurd he not_sto_noEv
  · rintro _ _ p e _ hcl ⟨a, b, e, h1, _⟩
    exact absurd h1 (h hcl.head a b e)

theorem resI_done {t : Tree} {it : Item} {w : Nat} (hd : DoneItem it w) {rest : List Item}
    {a b : List Char} (ha : it.Sem a) {x : R Ev} (h : ResI ex t rest b x) :
    ResI ex t (it :: rest) (a ++ b) x := by
  constructor
  · intro e he
    obtain ⟨p, h1, h2⟩ := h.1 e he
    exact ⟨p, h1, a, b, rfl, ha, h2⟩
  · rintro hex hh p e hb hcl ⟨a', b', e1, h1, h2⟩
    obtain ⟨rfl, rfl⟩ := append_split_eq e1 (by rw [hd.width a ha, hd.width a' h1])
    exact h.2 hex hh.tail p e hb (CleanSeq.tail hcl).append_right h2

theorem seqSem_star_extend {n : Nat} {r : List Item} {a b : List Char}
    (h : SeqSem (.star n :: r) b) : SeqSem (.star n :: r) (a ++ b) := by
  obtain ⟨x, y, rfl, h1, h2⟩ := h
  refine ⟨a ++ x, y, by simp, ?_, h2⟩
  simp only [Item.Sem] at h1 ⊢
  simp
  omega

theorem resI_star {t : Tree} {n : Nat} {rest : List Item} {cs : List Char} (hn : n ≤ cs.length)
    {x : R Ev}
    (h1 : ∀ e, Sto x e → ∃ p u, t.Below p e ∧ u <:+ cs.drop n ∧ SeqSem (rest ++ its p) u)
    (h2 : ex = true → NoCut t → ∀ p e u, t.Below p e → CleanSeq (rest ++ its p) (cs.drop n) →
      u <:+ cs.drop n → SeqSem (rest ++ its p) u → Sto x e) :
    ResI ex t (.star n :: rest) cs x := by
  constructor
  · intro e he
    obtain ⟨p, u, h3, ⟨v, h4⟩, h5⟩ := h1 e he
    refine ⟨p, h3, cs.take n ++ v, u, ?_, ?_, h5⟩
    · rw [List.append_assoc, h4, List.take_append_drop]
    · simp only [Item.Sem]; simp; omega
  · rintro hex hh p e hb hcl ⟨a, b, rfl, h3, h4⟩
    refine h2 hex hh.noCut_star p e b hb ((CleanSeq.tail hcl).suffix (List.drop_suffix _ _)) ?_ h4
    simp only [Item.Sem] at h3
    refine suffix_of_length_le (List.suffix_append a b) (List.drop_suffix n _) ?_
    simp
    omega

theorem star_slice {n : Nat} {cs : List Char} :
    sliceFrom (utf8 cs) (utf8 (cs.take n)).length = .ok (utf8 (cs.drop n)) := by
  have := sliceFrom_utf8 (cs.take n) (cs.drop n)
  rwa [List.take_append_drop] at this

theorem pOk_lit {a : Bool} {it : Item} {r : List Item} (hl : IsLitItem it) (h : POk ex a (it :: r)) :
    POk ex false r :=
  ⟨(good_lit hl h.1).2, fun x hx => h.2 x (List.mem_cons_of_mem _ hx)⟩

theorem pOk_any {a : Bool} {n : Nat} {r : List Item} (h : POk ex a (.any n :: r)) :
    POk ex false r := ⟨good_any h.1, fun x hx => h.2 x (List.mem_cons_of_mem _ hx)⟩

theorem pOk_star {a : Bool} {n : Nat} {r : List Item} (h : POk ex a (.star n :: r)) :
    POk ex true r := ⟨(good_star h.1).2, fun x hx => h.2 x (List.mem_cons_of_mem _ hx)⟩

theorem lt_minLen {it : Item} {w : Nat} (hd : DoneItem it w) {cs : List Char}
    (h : ((utf8 cs).length : Int) < it.minLen) : ∀ a b, cs = a ++ b → ¬ it.Sem a := by
  rintro a b rfl ha
  have := hd.minLen a ha
  simp at h
  omega

theorem lt_minLen_star {n : Nat} {cs : List Char}
    (h : ((utf8 cs).length : Int) < (Item.star n).minLen) :
    ∀ a b, cs = a ++ b → ¬ (Item.star n).Sem a := by
  rintro a b rfl ha
  have h2 := length_le_utf8 (a ++ b)
  simp only [Item.Sem] at ha
  simp only [Item.minLen] at h
  simp at h2
  simp at h
  omega

/-- One round in front of any continuation: items that `Match` answers with `FindDone`. -/
theorem resI_doneStep {t : Tree} {it : Item} {w : Nat} (hd : DoneItem it w) {rest : List Item}
    {cs : List Char} {K : FindFlag → Str → R Ev} {x : R Ev}
    (hx : x = (if ((utf8 cs).length : Int) < it.minLen then noEv
      else match it.matchAt (utf8 cs) with
        | (none, _) => noEv
        | (some offset, flag) => do
          let s ← sliceFrom (utf8 cs) offset
          K flag s)) (hok : IsOk x)
    (h : ∀ a b, cs = a ++ b → IsOk (K .done (utf8 b)) → ResI ex t rest b (K .done (utf8 b))) :
    ResI ex t (it :: rest) cs x := by
  subst hx
  by_cases hl : ((utf8 cs).length : Int) < it.minLen
  · simp only [hl, if_true]
    exact resI_none (fun _ => lt_minLen hd hl)
  · simp only [hl, if_false] at hok ⊢
    rcases hd.matchAt cs with ⟨a, b, rfl, h1, h2⟩ | ⟨h1, h2⟩
    · rw [h2] at hok ⊢
      dsimp only at hok ⊢
      rw [sliceFrom_utf8, R.bind_ok] at hok ⊢
      exact resI_done hd h1 (h a b rfl hok)
    · rw [h2]
      exact resI_none h1

theorem resI_list {t : Tree} {l : StringList} (hw : ListWF l) {cs : List Char}
    {k : Str → R Ev} {rest : List Item}
    (hok : IsOk (addR (whenEv (l.minSize = 0) (k (utf8 cs))) (listEv (utf8 cs) k l.vals)))
    (h : ∀ b, IsOk (k (utf8 b)) → ResI ex t rest b (k (utf8 b))) :
    ResI ex t (.list l :: rest) cs
      (addR (whenEv (l.minSize = 0) (k (utf8 cs))) (listEv (utf8 cs) k l.vals)) := by
  obtain ⟨hok1, hok2⟩ := isOk_addR.1 hok
  constructor
  · intro e he
    rcases (sto_addR.1 he).2 with he | he
    · obtain ⟨h0, he⟩ := sto_when.1 he
      obtain ⟨p, h1, h2⟩ := (h cs he.isOk).1 e he
      exact ⟨p, h1, [], cs, rfl, Or.inr ⟨h0, rfl⟩, h2⟩
    · obtain ⟨_, v, hv, hp, he⟩ := sto_listEv.1 he
      obtain ⟨ws, rfl, _⟩ := hw.vals v hv
      obtain ⟨q, rfl⟩ := hasPrefix_utf8 hp
      rw [drop_utf8_append] at he
      obtain ⟨p, h1, h2⟩ := (h q he.isOk).1 e he
      exact ⟨p, h1, ws, q, rfl, Or.inl hv, h2⟩
  · rintro hex hh p e hb hcl ⟨a, b, rfl, h1 | ⟨h1, rfl⟩, h2⟩
    · have hpre : hasPrefix (utf8 (a ++ b)) (utf8 a) = true := by simp [hasPrefix]
      have hok3 := isOk_listEv.1 hok2 _ h1 hpre
      have hs : Sto (k ((utf8 (a ++ b)).drop (utf8 a).length)) e := by
        rw [drop_utf8_append] at hok3 ⊢
        exact (h b hok3).2 hex hh.tail p e hb (CleanSeq.tail hcl).append_right h2
      exact sto_addR.2 ⟨⟨hok1, hok2⟩, Or.inr (sto_listEv.2 ⟨isOk_listEv.1 hok2, _, h1, hpre, hs⟩)⟩
    · rw [List.nil_append] at *
      have hok3 := isOk_when.1 hok1 h1
      exact sto_addR.2 ⟨⟨hok1, hok2⟩, Or.inl (sto_when.2 ⟨h1, (h b hok3).2 hex hh.tail p e hb (CleanSeq.tail hcl) h2⟩)⟩

theorem noHide_group {b : Bool} {vals : List Item} {mn mx : Int} {t : Tree}
    (h : NoHide b [.group vals mn mx] t) (hf : FlatItem (.group vals mn mx)) {v : Item}
    (hv : v ∈ vals) : NoHide b (groupItems v) t := by
  intro p q e e' h1 h2 h3
  obtain ⟨a1, a2, a3⟩ := h p q e e' h1 h2 h3
  refine ⟨a1, ?_, a3⟩
  intro x hx
  have a4 : StarFree (.group vals mn mx) := a2 _ List.mem_cons_self
  exact (hf v hv x hx).starFree (a4 v hv x hx)

theorem spec_matchStep (hM : SpecM ex M) (hS : SpecS ex S) (hI : SpecI ex I) :
    SpecM ex (fun t s => t.matchStep M S I s) := by
  intro t cs hl hp hok
  obtain ⟨p0, e0, hb0⟩ := hl.path
  have hp0 := hp p0 e0 hb0
  have lit : ∀ w, DoneItem t.item w → (∀ p e, t.Below p e → POk ex false (its p)) →
      ResI ex t [t.item] cs (t.matchStep M S I (utf8 cs)) := by
    intro w hd hp'
    refine resI_doneStep hd (K := fun f s => t.matchFlag M S I f s) rfl hok ?_
    intro a b hab hk
    have : t.matchFlag M S I .done (utf8 b) = t.next M (utf8 b) := by
      unfold Tree.matchFlag; rfl
    rw [this] at hk ⊢
    exact res_next hM hl hp' hk
  have lit' : IsLitItem t.item → ResI ex t [t.item] cs (t.matchStep M S I (utf8 cs)) := by
    intro hli
    obtain ⟨⟨w, hd⟩, _⟩ := good_lit hli hp0.1
    exact lit w hd.toDoneItem (fun p e h => pOk_lit hli (hp p e h))
  cases hit : t.item with
  | str _ => rw [← hit]; exact lit' (by rw [hit]; trivial)
  | byte _ => rw [← hit]; exact lit' (by rw [hit]; trivial)
  | rune _ => rw [← hit]; exact lit' (by rw [hit]; trivial)
  | ranges _ => rw [← hit]; exact lit' (by rw [hit]; trivial)
  | any n =>
    rw [← hit]
    exact lit n (by rw [hit]; exact doneItem_any n) (fun p e h => pOk_any (n := n) (by
      have := hp p e h; rwa [hit] at this))
  | star n =>
    dsimp only at hok ⊢
    unfold Tree.matchStep at hok ⊢
    rw [hit] at hok ⊢
    have hp' : ∀ p e, t.Below p e → POk ex true (its p) := fun p e h => pOk_star (n := n) (by
      have := hp p e h; rwa [hit] at this)
    by_cases hl' : ((utf8 cs).length : Int) < (Item.star n).minLen
    · simp only [hl', if_true]
      exact resI_none (fun _ => lt_minLen_star hl')
    · simp only [hl', if_false, Item.matchAt, skipRunes_utf8] at hok ⊢
      by_cases hn : n ≤ cs.length
      · simp only [hn, if_true, star_slice, R.bind_ok] at hok ⊢
        unfold Tree.matchFlag at hok ⊢
        obtain ⟨h1, h2⟩ := res_starEnd hS hl hp' (c := t.childs.length = 0)
          (fun h => h) (fun h _ => h) hok
        exact resI_star hn h1 h2
      · simp only [hn, if_false]
        refine resI_none fun _ => ?_
        rintro a b rfl h1
        simp only [Item.Sem] at h1
        simp at hn
        omega
  | list l =>
    dsimp only at hok ⊢
    unfold Tree.matchStep at hok ⊢
    rw [hit] at hok ⊢
    have hgl : ∀ p e, t.Below p e → POk ex false (.list l :: its p) := fun p e h => by
      have := hp p e h; rwa [hit] at this
    obtain ⟨hw, -, -, -⟩ := good_strs (hgl p0 e0 hb0).1
    by_cases hl' : ((utf8 cs).length : Int) < (Item.list l).minLen
    · simp only [hl', if_true]
      refine resI_none fun _ => ?_
      rintro a b rfl (h1 | ⟨h1, rfl⟩)
      · have := hw.min _ h1
        simp [Item.minLen] at hl'
        omega
      · simp [Item.minLen] at hl'
        omega
    · simp only [hl', if_false, Item.matchAt, sliceFrom_zero, R.bind_ok] at hok ⊢
      unfold Tree.matchFlag at hok ⊢
      simp only [hit] at hok ⊢
      refine resI_list hw hok ?_
      intro b hk
      exact res_next hM hl (fun p e h => ⟨(good_strs (hgl p e h).1).2.2.1,
        fun x hx => (hgl p e h).2 x (List.mem_cons_of_mem _ hx)⟩) hk
  | group vals mn mx =>
    dsimp only at hok ⊢
    unfold Tree.matchStep at hok ⊢
    rw [hit] at hok ⊢
    have hgl : ∀ p e, t.Below p e → POk ex false (.group vals mn mx :: its p) := fun p e h => by
      have := hp p e h; rwa [hit] at this
    have hgg := good_group (hgl p0 e0 hb0).1
    have hflat := (hgl p0 e0 hb0).2 _ (List.mem_cons_self)
    by_cases hl' : ((utf8 cs).length : Int) < (Item.group vals mn mx).minLen
    · simp only [hl', if_true]
      refine resI_none fun _ => ?_
      rintro a b rfl h1
      have := hgg.1.min _ h1
      simp [Item.minLen] at hl'
      omega
    · simp only [hl', if_false, Item.matchAt, sliceFrom_zero, R.bind_ok] at hok ⊢
      unfold Tree.matchFlag at hok ⊢
      simp only [hit] at hok ⊢
      obtain ⟨hok1, hok2⟩ := isOk_addR.1 hok
      have hv : ∀ v ∈ vals, ResI ex t (groupItems v) cs (I t (utf8 cs) (groupItems v)) := by
        intro v hv
        refine hI t cs _ hl (hflat v hv) ?_ (isOk_groupEv.1 hok2 v hv)
        intro p e h
        refine ⟨(good_group (hgl p e h).1).2.1 v hv, ?_⟩
        intro x hx
        rcases List.mem_append.1 hx with hx | hx
        · have := hflat v hv x hx
          cases x <;> first | trivial | exact this.elim
        · exact (hgl p e h).2 x (List.mem_cons_of_mem _ hx)
      constructor
      · intro e he
        rcases (sto_addR.1 he).2 with he | he
        · obtain ⟨h0, he⟩ := sto_when.1 he
          obtain ⟨p, h1, h2⟩ := (res_next hM hl (fun p e h =>
            ⟨(good_group (hgl p e h).1).2.2 h0,
              fun x hx => (hgl p e h).2 x (List.mem_cons_of_mem _ hx)⟩) he.isOk).1 e he
          exact ⟨p, h1, [], cs, rfl, hgg.1.opt h0, h2⟩
        · obtain ⟨_, v, hvm, he⟩ := sto_groupEv.1 he
          obtain ⟨p, h1, h2⟩ := (hv v hvm).1 e he
          rw [seqSem_append] at h2
          obtain ⟨a, b, rfl, h3, h4⟩ := h2
          exact ⟨p, h1, a, b, rfl, (anySem_iff _ _).2 ⟨v, hvm, (seqSem_groupItems _ _).1 h3⟩, h4⟩
      · rintro hex hh p e hb hcl ⟨a, b, rfl, h1, h2⟩
        obtain ⟨v, hvm, h3⟩ := (anySem_iff _ _).1 h1
        have := (hv v hvm).2 hex (noHide_group hh hflat hvm) p e hb (hcl.group hvm)
          ((seqSem_append _ _ _).2 ⟨a, b, rfl, (seqSem_groupItems _ _).2 h3, h2⟩)
        exact sto_addR.2 ⟨⟨hok1, hok2⟩, Or.inr (sto_groupEv.2 ⟨isOk_groupEv.1 hok2, v, hvm, this⟩)⟩
  | chain xs mn mx =>
    rw [hit] at hp0
    exact (good_chain hp0.1).elim

theorem spec_itemsStep (hM : SpecM ex M) (hS : SpecS ex S) (hI : SpecI ex I) (hJ : SpecJ ex J) :
    SpecI ex (fun t s items => t.itemsStep M S I J s items) := by
  intro t cs items hl hs hp hok
  dsimp only at hok ⊢
  obtain ⟨p0, e0, hb0⟩ := hl.path
  cases items with
  | nil =>
    unfold Tree.itemsStep at hok ⊢
    exact res_next hM hl hp hok
  | cons it rest =>
    have hs' : ∀ x ∈ rest, Simple x := fun x hx => hs x (List.mem_cons_of_mem _ hx)
    have done : ∀ w, DoneItem it w → (∀ p e, t.Below p e → POk ex false (rest ++ its p)) →
        ResI ex t (it :: rest) cs (t.itemsStep M S I J (utf8 cs) (it :: rest)) := by
      intro w hd hp'
      refine resI_doneStep hd (K := fun f s => t.itemsFlag M S I J it f s rest) rfl hok ?_
      intro a b hab hk
      have : t.itemsFlag M S I J it .done (utf8 b) rest = I t (utf8 b) rest := by
        unfold Tree.itemsFlag; rfl
      rw [this] at hk ⊢
      exact hI t b rest hl hs' hp' hk
    have lit : IsLitItem it →
        ResI ex t (it :: rest) cs (t.itemsStep M S I J (utf8 cs) (it :: rest)) := by
      intro hli
      obtain ⟨⟨w, hd⟩, _⟩ := good_lit hli (hp p0 e0 hb0).1
      exact done w hd.toDoneItem (fun p e h => pOk_lit hli (hp p e h))
    cases it with
    | str _ => exact lit trivial
    | byte _ => exact lit trivial
    | rune _ => exact lit trivial
    | ranges _ => exact lit trivial
    | any n => exact done n (doneItem_any n) (fun p e h => pOk_any (hp p e h))
    | list _ => exact (hs _ List.mem_cons_self).elim
    | group _ _ _ => exact (hs _ List.mem_cons_self).elim
    | chain _ _ _ => exact (hs _ List.mem_cons_self).elim
    | star n =>
      have hp' : ∀ p e, t.Below p e → POk ex true (rest ++ its p) := fun p e h => pOk_star (hp p e h)
      unfold Tree.itemsStep at hok ⊢
      dsimp only at hok ⊢
      by_cases hl' : ((utf8 cs).length : Int) < (Item.star n).minLen
      · simp only [hl', if_true]
        exact resI_none (fun _ => lt_minLen_star hl')
      · simp only [hl', if_false, Item.matchAt, skipRunes_utf8] at hok ⊢
        by_cases hn : n ≤ cs.length
        · simp only [hn, if_true, star_slice, R.bind_ok] at hok ⊢
          unfold Tree.itemsFlag at hok ⊢
          dsimp only at hok ⊢
          by_cases hr : rest = []
          · subst hr
            simp only [if_true] at hok ⊢
            have := res_starNext hS hl hp' hok
            exact resI_star hn this.1 (fun hex hc => this.2 hex (hc.noHide _ _))
          · simp only [hr, if_false] at hok ⊢
            obtain ⟨hok1, hok2⟩ := isOk_addR.1 hok
            have j := hJ t _ rest hl hs' hp' hok1
            have i := hI t _ (.star n :: rest) hl hs hp hok2
            constructor
            · intro e he
              rcases (sto_addR.1 he).2 with he | he
              · exact (resI_star (ex := ex) hn j.1 (fun hex hc => j.2 hex (hc.noHide _ _))).1 e he
              · obtain ⟨p, h1, h2⟩ := i.1 e he
                refine ⟨p, h1, ?_⟩
                have := seqSem_star_extend (a := cs.take n) h2
                rwa [List.take_append_drop] at this
            · intro hex hh p e hb hcl hsem
              refine sto_addR.2 ⟨⟨hok1, hok2⟩, Or.inl ?_⟩
              exact (resI_star (ex := ex) hn j.1 (fun hex hc => j.2 hex (hc.noHide _ _))).2
                hex hh p e hb hcl hsem
        · simp only [hn, if_false]
          refine resI_none fun _ => ?_
          rintro a b rfl h1
          simp only [Item.Sem] at h1
          simp at hn
          omega

/-! ## Behind a star -/

theorem resJ_none {t : Tree} {it : Item} {rest : List Item} {cs : List Char}
    (h : Clean it cs → ∀ p a q, cs = p ++ a ++ q → ¬ it.Sem a) :
    ResJ ex t (it :: rest) cs noEv := by
  constructor
  · intro e he; exact absurd he not_sto_noEv
  · rintro _ _ p e u _ hcl ⟨v, rfl⟩ ⟨a, b, rfl, h1, _⟩
    exact absurd h1 (h hcl.head v a b (by simp))

/-- Behind the first occurrence, or later. -/
theorem done_split {it : Item} {w : Nat} (hd : DoneItem it w) {rest : List Item}
    {p a q u : List Char} (ha : it.Sem a)
    (hmin : ∀ p' a' q', p ++ a ++ q = p' ++ a' ++ q' → it.Sem a' → p.length ≤ p'.length)
    (hu : u <:+ p ++ a ++ q) (h : SeqSem (it :: rest) u) :
    SeqSem rest q ∨ ∃ c t, a ++ q = c :: t ∧ u <:+ t := by
  obtain ⟨v, hv⟩ := hu
  obtain ⟨a', b', rfl, h1, h2⟩ := h
  have e : p ++ (a ++ q) = v ++ (a' ++ b') := by rw [hv]; simp
  have hle := hmin v a' b' (by rw [← hv]; simp) h1
  obtain ⟨r, rfl, hr⟩ := append_split_le e hle
  cases r with
  | nil =>
    left
    rw [List.nil_append] at hr
    obtain ⟨rfl, rfl⟩ := append_split_eq hr (by rw [hd.width a ha, hd.width a' h1])
    exact h2
  | cons c r => exact Or.inr ⟨c, r ++ (a' ++ b'), hr, List.suffix_append _ _⟩

/-- The search for an item that `Find` answers with `FindDone`: `K` behind the occurrence, `Lp` is the
loop. -/
theorem resJ_find {t : Tree} {it : Item} {w : Nat} (hd : FindItem it w) {rest : List Item}
    {cs : List Char} {K Lp : Str → R Ev} {F : FindFlag → Int → Str → R Ev}
    {x : R Ev}
    (hx : x = (if ((utf8 cs).length : Int) < it.minLen then noEv
      else do
        match ← it.find (utf8 cs) with
        | (none, _) => noEv
        | (some (offset, length), flag) => do
          let s ← sliceFrom (utf8 cs) offset
          F flag length s))
    (hF : ∀ len s, F .done len s = (do
      let sub ← sliceFromInt s len
      addR (K sub) (againEv Lp s)))
    (hok : IsOk x)
    (hK1 : ∀ b e, Sto (K (utf8 b)) e → ∃ p, t.Below p e ∧ SeqSem (rest ++ its p) b)
    (hK2 : ex = true → NoHide true (it :: rest) t → ∀ b p e, IsOk (K (utf8 b)) →
      t.Below p e → CleanSeq (rest ++ its p) b → SeqSem (rest ++ its p) b → Sto (K (utf8 b)) e)
    (hL : ∀ b, IsOk (Lp (utf8 b)) → ResJ ex t (it :: rest) b (Lp (utf8 b))) :
    ResJ ex t (it :: rest) cs x := by
  subst hx
  by_cases hl : ((utf8 cs).length : Int) < it.minLen
  · simp only [hl, if_true]
    refine resJ_none fun _ => ?_
    rintro p a q rfl ha
    have := hd.minLen a ha
    simp at hl
    omega
  · simp only [hl, if_false] at hok ⊢
    rcases hd.find cs with ⟨p, a, q, rfl, h1, h2, hmin⟩ | ⟨h1, fl, h2⟩
    · rw [h2, R.bind_ok] at hok ⊢
      dsimp only at hok ⊢
      rw [List.append_assoc, sliceFrom_utf8, R.bind_ok, hF, sliceFromInt_utf8, R.bind_ok] at hok ⊢
      obtain ⟨hok1, hok2⟩ := isOk_addR.1 hok
      constructor
      · intro e he
        rcases (sto_addR.1 he).2 with he | he
        · obtain ⟨pt, h3, h4⟩ := hK1 q e he
          exact ⟨pt, a ++ q, h3, ⟨p, rfl⟩, a, q, rfl, h1, h4⟩
        · obtain ⟨c, u, e1, he⟩ := sto_againEv.1 he
          obtain ⟨pt, v, h3, h4, h5⟩ := (hL u he.isOk).1 e he
          refine ⟨pt, v, h3, h4.trans ?_, h5⟩
          rw [e1]
          exact ⟨p ++ [c], by simp⟩
      · intro hex hh pt e u hb hcl hu hsem
        refine sto_addR.2 ⟨⟨hok1, hok2⟩, ?_⟩
        rcases done_split hd.toDoneItem h1 hmin (by rwa [List.append_assoc]) hsem with h3 | ⟨c, v, h3, h4⟩
        · exact Or.inl (hK2 hex hh q pt e hok1 hb (CleanSeq.tail hcl).append_right.append_right h3)
        · right
          refine sto_againEv.2 ⟨c, v, h3, ?_⟩
          have hokL := isOk_againEv.1 hok2 c v h3
          refine (hL v hokL).2 hex hh pt e u hb (hcl.suffix ?_) h4 hsem
          rw [h3]
          exact ⟨p ++ [c], by simp⟩
    · rw [h2]
      exact resJ_none h1

theorem resJ_any {t : Tree} {n : Nat} {rest : List Item}
    {cs : List Char} {F : FindFlag → Int → Str → R Ev} {x : R Ev}
    (hx : x = (if ((utf8 cs).length : Int) < (Item.any n).minLen then noEv
      else do
        match ← (Item.any n).find (utf8 cs) with
        | (none, _) => noEv
        | (some (offset, length), flag) => do
          let s ← sliceFrom (utf8 cs) offset
          F flag length s))
    (hF : ∀ len s, F .forwarded len s = .panic) (hok : IsOk x) : ResJ ex t (.any n :: rest) cs x := by
  subst hx
  have none : ¬ n ≤ cs.length → ResJ ex t (.any n :: rest) cs noEv := by
    intro hn
    refine resJ_none fun _ => ?_
    rintro p a q rfl h1
    simp only [Item.Sem] at h1
    simp at hn
    omega
  by_cases hl : ((utf8 cs).length : Int) < (Item.any n).minLen
  · simp only [hl, if_true]
    apply none
    have := length_le_utf8 cs
    simp only [Item.minLen] at hl
    omega
  · simp only [hl, if_false, Item.find, skipRunes_utf8] at hok ⊢
    by_cases hn : n ≤ cs.length
    · simp only [hn, if_true, Option.map_some, R.bind_ok, sliceFrom_zero, hF] at hok
      obtain ⟨r, h⟩ := hok
      cases h
    · simp only [hn, if_false, Option.map_none, R.bind_ok]
      exact none hn

theorem spec_starItemsStep (hS : SpecS ex S) (hI : SpecI ex I) (hJ : SpecJ ex J) :
    SpecJ ex (fun t s items => t.starItemsStep M S I J s items) := by
  intro t cs items hl hs hp hok
  dsimp only at hok ⊢
  obtain ⟨p0, e0, hb0⟩ := hl.path
  cases items with
  | nil =>
    unfold Tree.starItemsStep at hok ⊢
    exact res_starNext hS hl hp hok
  | cons it rest =>
    have hs' : ∀ x ∈ rest, Simple x := fun x hx => hs x (List.mem_cons_of_mem _ hx)
    have lit : IsLitItem it →
        ResJ ex t (it :: rest) cs (t.starItemsStep M S I J (utf8 cs) (it :: rest)) := by
      intro hli
      obtain ⟨⟨w, hd⟩, _⟩ := good_lit hli (hp p0 e0 hb0).1
      have hp' : ∀ p e, t.Below p e → POk ex false (rest ++ its p) :=
        fun p e h => pOk_lit hli (hp p e h)
      refine resJ_find hd (F := fun f len s => t.starItemsFlag M S I J it f len s rest)
        (K := fun u => I t u rest) (Lp := fun u => J t u (it :: rest)) rfl ?_ hok ?_ ?_ ?_
      · intro len s
        unfold Tree.starItemsFlag
        rfl
      · intro b e he
        exact (hI t b rest hl hs' hp' he.isOk).1 e he
      · intro hex hh b p e hk hb hcl hsem
        exact (hI t b rest hl hs' hp' hk).2 hex (hh.noCut.noHide _ _) p e hb hcl hsem
      · intro b hk
        exact hJ t b (it :: rest) hl hs hp hk
    cases it with
    | str _ => exact lit trivial
    | byte _ => exact lit trivial
    | rune _ => exact lit trivial
    | ranges _ => exact lit trivial
    | any n =>
      exact resJ_any (F := fun f len s => t.starItemsFlag M S I J (.any n) f len s rest) rfl
        (fun len s => by unfold Tree.starItemsFlag; rfl) hok
    | list _ => exact (hs _ List.mem_cons_self).elim
    | group _ _ _ => exact (hs _ List.mem_cons_self).elim
    | chain _ _ _ => exact (hs _ List.mem_cons_self).elim
    | star n =>
      have hp' : ∀ p e, t.Below p e → POk ex true (rest ++ its p) := fun p e h => pOk_star (hp p e h)
      obtain ⟨hex0, rfl⟩ := (good_star (hp p0 e0 hb0).1).1 rfl
      unfold Tree.starItemsStep at hok ⊢
      dsimp only at hok ⊢
      have hl' : ¬ ((utf8 cs).length : Int) < (Item.star 0).minLen := by
        simp only [Item.minLen]; omega
      simp only [hl', if_false, Item.find, R.bind_ok, sliceFrom_zero] at hok ⊢
      unfold Tree.starItemsFlag at hok ⊢
      dsimp only at hok ⊢
      constructor
      · intro e he
        have : ∃ p u, t.Below p e ∧ u <:+ cs ∧ SeqSem (rest ++ its p) u := by
          by_cases hr : rest = []
          · subst hr
            simp only [if_true] at hok he
            exact (res_starNext hS hl hp' hok).1 e he
          · simp only [hr, if_false] at hok he
            exact (hJ t cs rest hl hs' hp' hok).1 e he
        obtain ⟨p, u, h1, h2, h3⟩ := this
        exact ⟨p, u, h1, h2, [], u, rfl, by simp [Item.Sem], h3⟩
      · intro hex
        rw [hex0] at hex
        cases hex

/-- The list search behind a star. -/
theorem resJ_list {t : Tree} {l : StringList} (hw : ListWF l) {cs : List Char} {k : Str → R Ev}
    {rest : List Item} {fuel : Nat} {r : Ev} {s' : Str}
    (h : starListEv l.vals k fuel (utf8 cs) = .ok (r, s'))
    (hk : ∀ b, IsOk (k (utf8 b)) → ResI ex t rest b (k (utf8 b))) :
    (∀ e ∈ r.1, ∃ p u, t.Below p e ∧ u <:+ cs ∧ SeqSem (.list l :: (rest ++ its p)) u) ∧
    (ex = true → NoCut t → ∀ p e u a b, t.Below p e → CleanSeq (rest ++ its p) cs →
      ListOk l (rest ++ its p) → u <:+ cs →
      u = a ++ b → utf8 a ∈ l.vals → SeqSem (rest ++ its p) b → e ∈ r.1) := by
  constructor
  · intro e he
    have h1 := starList_ev e h
    simp only [he, decide_true] at h1
    obtain ⟨ws, p, q, h2, h3, h4⟩ := starListLoop_true hw.vals h1
    subst h3
    have hs := hasE_true.1 h4
    obtain ⟨pt, h5, h6⟩ := (hk q hs.isOk).1 e hs
    exact ⟨pt, ws ++ q, h5, ⟨p, by simp⟩, ws, q, rfl, Or.inl h2, h6⟩
  · rintro hex hcut p e u a b hb hcl hlo ⟨v, hv⟩ rfl h1 h2
    apply Classical.byContradiction
    intro hne
    have h3 := starList_ev e h
    simp only [hne, decide_false] at h3
    have hcs : cs = v ++ a ++ b := by rw [← hv]; simp
    have hclb : b <:+ cs := ⟨v ++ a, hcs.symm⟩
    have use : ∀ q, q <:+ cs → hasE e (k (utf8 q)) = .ok false → SeqSem (rest ++ its p) q → False := by
      intro q hnq hq hsem
      obtain ⟨hok, hns⟩ := hasE_false.1 hq
      exact hns ((hk q hok).2 hex (hcut.noHide _ _) p e hb (hcl.suffix hnq) hsem)
    rcases hlo with hsingle | hend | ⟨n, r', hstar⟩
    · obtain ⟨w, hw'⟩ : ∃ w, l.vals = [w] := by
        match hvl : l.vals with
        | [] => rw [hvl] at h1; cases h1
        | [w] => exact ⟨w, rfl⟩
        | _ :: _ :: _ => rw [hvl] at hsingle; simp at hsingle
      have hvo := hw.vals
      rw [hw'] at h3 h1 hvo
      exact use b hclb (starListLoop_single hvo h3 (List.mem_singleton.1 h1) hcs) h2
    · have hbe : b = [] := by rw [hend] at h2; exact h2
      subst hbe
      refine starListLoop_end hw.vals ?_ h3 h1 (p := v) (by rw [hcs]; simp)
      intro hf
      exact use [] List.nil_suffix hf h2
    · obtain ⟨p0, q0, e1, e2, e3⟩ := starListLoop_first h3 h1 hcs
      refine use q0 ⟨p0 ++ a, e1.symm⟩ e3 ?_
      rw [hstar] at h2 ⊢
      have hs : b <:+ q0 := by
        refine suffix_of_length_le (c := cs) ⟨v ++ a, by rw [hcs]⟩ ⟨p0 ++ a, by rw [e1]⟩ ?_
        have := congrArg List.length (e1.symm.trans hcs)
        simp at this
        omega
      obtain ⟨z, rfl⟩ := hs
      exact seqSem_star_extend h2

theorem spec_starStep (hM : SpecM ex M) (hS : SpecS ex S) (hJ : SpecJ ex J) (hL : SpecL ex L) :
    SpecL ex (fun opt t s => t.starStep M S J L opt s) := by
  intro opt t cs hl hp hok
  dsimp only at hok ⊢
  obtain ⟨p0, e0, hb0⟩ := hl.path
  have hp0 := hp p0 e0 hb0
  -- a full result gives both parts
  have both : ResJ ex t [t.item] cs (t.starStep M S J L opt (utf8 cs)) →
      (∀ e, Sto (t.starStep M S J L opt (utf8 cs)) e →
        ∃ p u, t.Below p e ∧ u <:+ cs ∧ SeqSem ([t.item] ++ its p) u) ∧
      ((∀ l, t.item = .list l → opt = true) →
        ResJ ex t [t.item] cs (t.starStep M S J L opt (utf8 cs))) := fun h => ⟨h.1, fun _ => h⟩
  have lit : IsLitItem t.item → ResJ ex t [t.item] cs (t.starStep M S J L opt (utf8 cs)) := by
    intro hli
    obtain ⟨⟨w, hd⟩, _⟩ := good_lit hli hp0.1
    have hp' : ∀ p e, t.Below p e → POk ex false (its p) := fun p e h => pOk_lit hli (hp p e h)
    have hnl : ∀ l, t.item = .list l → opt = true := by
      intro l e; rw [e] at hli; exact hli.elim
    have hMc : ∀ b, ∀ c ∈ t.childs, IsOk (M c (utf8 b)) →
        ResI ex c [c.item] b (M c (utf8 b)) := fun b c hc hk =>
      hM c b (hl.child hc) (fun p e h => hp' _ _ (.child hc h)) hk
    refine resJ_find hd (F := fun f len s => t.starFlag M S J L f len s opt)
      (K := fun sub => if sub = [] ∧ t.childs.length = 0 ∧ t.term.isSome then .ok (storeFin t.term)
        else forChilds (fun c => M c sub) t.childs) (Lp := L opt t) rfl ?_ hok ?_ ?_ ?_
    · intro len s
      unfold Tree.starFlag
      rfl
    · intro b e he
      by_cases hc : utf8 b = [] ∧ t.childs.length = 0 ∧ t.term.isSome
      · rw [if_pos hc] at he
        exact ⟨[], .here (sto_fin.1 he), (utf8_nil_iff _).1 hc.1⟩
      · rw [if_neg hc] at he
        obtain ⟨_, c, hm, he⟩ := sto_forChilds.1 he
        obtain ⟨p, h1, h2⟩ := (hMc b c hm he.isOk).1 e he
        exact ⟨_, .child hm h1, h2⟩
    · intro hex hh b p e hk hb hcl hsem
      have hcut := hh.noCut
      by_cases hc : utf8 b = [] ∧ t.childs.length = 0 ∧ t.term.isSome
      · rw [if_pos hc]
        cases hb with
        | here h => exact sto_fin.2 h
        | child hm _ =>
          rw [List.length_eq_zero_iff.1 hc.2.1] at hm
          cases hm
      · rw [if_neg hc] at hk ⊢
        have hz := fun h => hcut.no_childs hl (e := e) h
        cases hb with
        | here h =>
          exact absurd ⟨(utf8_nil_iff _).2 hsem, by rw [hz (.here h)]; rfl, by rw [h]; rfl⟩ hc
        | child hm h =>
          have hk' := isOk_forChilds.1 hk
          exact sto_forChilds.2 ⟨hk', _, hm,
            (hMc b _ hm (hk' _ hm)).2 hex ((hcut.child hm).noHide _ _) _ _ h hcl hsem⟩
    · intro b hk
      exact (hL opt t b hl hp hk).2 hnl
  cases hit : t.item with
  | str _ => rw [← hit]; exact both (lit (by rw [hit]; trivial))
  | byte _ => rw [← hit]; exact both (lit (by rw [hit]; trivial))
  | rune _ => rw [← hit]; exact both (lit (by rw [hit]; trivial))
  | ranges _ => rw [← hit]; exact both (lit (by rw [hit]; trivial))
  | any n =>
    have : ResJ ex t [.any n] cs (t.starStep M S J L opt (utf8 cs)) := by
      refine resJ_any (F := fun f len s => t.starFlag M S J L f len s opt) ?_ ?_ hok
      · unfold Tree.starStep
        rw [hit]
        rfl
      · intro len s
        unfold Tree.starFlag
        rfl
    exact ⟨this.1, fun _ => this⟩
  | star n =>
    rw [hit] at hp0
    obtain ⟨hex0, rfl⟩ := (good_star hp0.1).1 rfl
    have hp' : ∀ p e, t.Below p e → POk ex true (its p) := fun p e h => pOk_star (n := 0) (by
      have := hp p e h; rwa [hit] at this)
    have : ResJ ex t [.star 0] cs (t.starStep M S J L opt (utf8 cs)) := by
      unfold Tree.starStep at hok ⊢
      rw [hit] at hok ⊢
      have hl' : ¬ ((utf8 cs).length : Int) < (Item.star 0).minLen := by
        simp only [Item.minLen]; omega
      simp only [hl', if_false, Item.find, R.bind_ok, sliceFrom_zero] at hok ⊢
      unfold Tree.starFlag at hok ⊢
      dsimp only at hok ⊢
      obtain ⟨h1, h2⟩ := res_starEnd hS hl hp'
        (c := t.childs.length = 0 ∧ t.term.isSome = true) (fun h => h.1) (fun h h2 => ⟨h, h2⟩) hok
      constructor
      · intro e he
        obtain ⟨p, u, h1, h2, h3⟩ := h1 e he
        exact ⟨p, u, h1, h2, [], u, rfl, by simp [Item.Sem], h3⟩
      · intro hex
        rw [hex0] at hex
        cases hex
    exact ⟨this.1, fun _ => this⟩
  | list l =>
    have hgl : ∀ p e, t.Below p e → POk ex true (.list l :: its p) := fun p e h => by
      have := hp p e h; rwa [hit] at this
    obtain ⟨hw, -, -, -⟩ := good_strs (hgl p0 e0 hb0).1
    have hpf : ∀ p e, t.Below p e → POk ex false (its p) := fun p e h =>
      ⟨(good_strs (hgl p e h).1).2.2.1, fun x hx => (hgl p e h).2 x (List.mem_cons_of_mem _ hx)⟩
    have hpt : l.minSize = 0 → ∀ p e, t.Below p e → POk ex true (its p) := fun h0 p e h =>
      ⟨(good_strs (hgl p e h).1).2.2.2 rfl h0,
        fun x hx => (hgl p e h).2 x (List.mem_cons_of_mem _ hx)⟩
    unfold Tree.starStep at hok ⊢
    rw [hit] at hok ⊢
    by_cases hl' : ((utf8 cs).length : Int) < (Item.list l).minLen
    · simp only [hl', if_true]
      have : ResJ ex t [.list l] cs noEv := by
        refine resJ_none fun _ => ?_
        rintro p a q rfl (h1 | ⟨h1, rfl⟩)
        · have := hw.min _ h1
          simp [Item.minLen] at hl'
          omega
        · simp [Item.minLen] at hl'
          omega
      exact ⟨this.1, fun _ => this⟩
    · simp only [hl', if_false, Item.find, R.bind_ok, sliceFrom_zero] at hok ⊢
      unfold Tree.starFlag at hok ⊢
      simp only [hit] at hok ⊢
      obtain ⟨hok1, hok2⟩ := isOk_addR.1 hok
      obtain ⟨x2, hx2⟩ := hok2
      obtain ⟨⟨r, s'⟩, hr, hx2'⟩ := R.bind_eq_ok.1 hx2
      have hok3 : IsOk (addR (.ok r) (againEv (againEv (L (if l.minSize = 0 ∧ opt = true then false
          else opt) t)) s')) := ⟨x2, hx2'⟩
      obtain ⟨-, hok4⟩ := isOk_addR.1 hok3
      obtain ⟨h1, h2⟩ := resJ_list (ex := ex) (t := t) (rest := []) hw hr
        (fun b hk => res_next hM hl hpf hk)
      obtain ⟨ts, hts, rfl⟩ := starList_rest hw.vals hr
      simp only [hr, R.bind_ok]
      constructor
      · intro e he
        rcases (sto_addR.1 he).2 with he | he
        · obtain ⟨⟨h0, _⟩, he⟩ := sto_when.1 he
          obtain ⟨p, u, h3, h4, h5⟩ := (res_starNext hS hl (hpt h0) he.isOk).1 e he
          exact ⟨p, u, h3, h4, [], u, rfl, Or.inr ⟨h0, rfl⟩, h5⟩
        · rcases (sto_addR.1 he).2 with he | he
          · obtain ⟨r', hr', he⟩ := he
            cases hr'
            exact h1 e he
          · obtain ⟨c1, t1, e1, he⟩ := sto_againEv.1 he
            obtain ⟨c2, t2, e2, he⟩ := sto_againEv.1 he
            have hsuf : t2 <:+ cs := by
              refine List.IsSuffix.trans ?_ hts
              exact ⟨[c1, c2], by rw [e1, e2]; simp⟩
            have := (hL _ t t2 hl hp he.isOk).1 e he
            obtain ⟨p, u, h3, h4, h5⟩ := this
            rw [hit] at h5
            exact ⟨p, u, h3, h4.trans hsuf, h5⟩
      · intro hopt
        have hopt := hopt l rfl
        subst hopt
        constructor
        · intro e he
          rcases (sto_addR.1 he).2 with he | he
          · obtain ⟨⟨h0, _⟩, he⟩ := sto_when.1 he
            obtain ⟨p, u, h3, h4, h5⟩ := (res_starNext hS hl (hpt h0) he.isOk).1 e he
            exact ⟨p, u, h3, h4, [], u, rfl, Or.inr ⟨h0, rfl⟩, h5⟩
          · rcases (sto_addR.1 he).2 with he | he
            · obtain ⟨r', hr', he⟩ := he
              cases hr'
              exact h1 e he
            · obtain ⟨c1, t1, e1, he⟩ := sto_againEv.1 he
              obtain ⟨c2, t2, e2, he⟩ := sto_againEv.1 he
              have hsuf : t2 <:+ cs := by
                refine List.IsSuffix.trans ?_ hts
                exact ⟨[c1, c2], by rw [e1, e2]; simp⟩
              have := (hL _ t t2 hl hp he.isOk).1 e he
              obtain ⟨p, u, h3, h4, h5⟩ := this
              rw [hit] at h5
              exact ⟨p, u, h3, h4.trans hsuf, h5⟩
        · rintro hex hh p e u hb hcl hu ⟨a, b, rfl, h3 | ⟨h3, rfl⟩, h4⟩
          · have hlo := (good_strs (hgl p e hb).1).2.1 rfl hex
            have := h2 hex hh.noCut p e _ a b hb (CleanSeq.tail hcl) hlo hu rfl h3 h4
            refine sto_addR.2 ⟨⟨hok1, ⟨x2, by rw [hx2']⟩⟩, Or.inr ?_⟩
            exact sto_addR.2 ⟨⟨isOk_ok _, hok4⟩, Or.inl ⟨r, rfl, this⟩⟩
          · refine sto_addR.2 ⟨⟨hok1, ⟨x2, by rw [hx2']⟩⟩, Or.inl ?_⟩
            refine sto_when.2 ⟨⟨h3, rfl⟩, ?_⟩
            have hk := isOk_when.1 hok1 ⟨h3, rfl⟩
            exact (res_starNext hS hl (hpt h3) hk).2 hex (hh.noCut.noHide _ _) p e b hb (CleanSeq.tail hcl)
              (by simpa using hu) h4
  | group vals mn mx =>
    have hgl : ∀ p e, t.Below p e → POk ex true (.group vals mn mx :: its p) := fun p e h => by
      have := hp p e h; rwa [hit] at this
    have hgg := good_group (hgl p0 e0 hb0).1
    have hflat := (hgl p0 e0 hb0).2 _ (List.mem_cons_self)
    have : ResJ ex t [.group vals mn mx] cs (t.starStep M S J L opt (utf8 cs)) := by
      unfold Tree.starStep at hok ⊢
      rw [hit] at hok ⊢
      by_cases hl' : ((utf8 cs).length : Int) < (Item.group vals mn mx).minLen
      · simp only [hl', if_true]
        refine resJ_none fun _ => ?_
        rintro p a q rfl h1
        have := hgg.1.min _ h1
        simp [Item.minLen] at hl'
        omega
      · simp only [hl', if_false, Item.find, R.bind_ok, sliceFrom_zero] at hok ⊢
        unfold Tree.starFlag at hok ⊢
        simp only [hit] at hok ⊢
        obtain ⟨hok1, hok2⟩ := isOk_addR.1 hok
        have hv : ∀ v ∈ vals, ResJ ex t (groupItems v) cs (J t (utf8 cs) (groupItems v)) := by
          intro v hv
          refine hJ t cs _ hl (hflat v hv) ?_ (isOk_groupEv.1 hok2 v hv)
          intro p e h
          refine ⟨(good_group (hgl p e h).1).2.1 v hv, ?_⟩
          intro x hx
          rcases List.mem_append.1 hx with hx | hx
          · have := hflat v hv x hx
            cases x <;> first | trivial | exact this.elim
          · exact (hgl p e h).2 x (List.mem_cons_of_mem _ hx)
        constructor
        · intro e he
          rcases (sto_addR.1 he).2 with he | he
          · obtain ⟨h0, he⟩ := sto_when.1 he
            obtain ⟨p, u, h1, h2, h3⟩ := (res_starNext hS hl (fun p e h =>
              ⟨(good_group (hgl p e h).1).2.2 h0,
                fun x hx => (hgl p e h).2 x (List.mem_cons_of_mem _ hx)⟩) he.isOk).1 e he
            exact ⟨p, u, h1, h2, [], u, rfl, hgg.1.opt h0, h3⟩
          · obtain ⟨_, v, hvm, he⟩ := sto_groupEv.1 he
            obtain ⟨p, u, h1, h2, h3⟩ := (hv v hvm).1 e he
            rw [seqSem_append] at h3
            obtain ⟨a, b, rfl, h4, h5⟩ := h3
            exact ⟨p, a ++ b, h1, h2, a, b, rfl,
              (anySem_iff _ _).2 ⟨v, hvm, (seqSem_groupItems _ _).1 h4⟩, h5⟩
        · rintro hex hh p e u hb hcl hu ⟨a, b, rfl, h1, h2⟩
          obtain ⟨v, hvm, h3⟩ := (anySem_iff _ _).1 h1
          have := (hv v hvm).2 hex (noHide_group hh hflat hvm) p e _ hb (hcl.group hvm) hu
            ((seqSem_append _ _ _).2 ⟨a, b, rfl, (seqSem_groupItems _ _).2 h3, h2⟩)
          exact sto_addR.2 ⟨⟨hok1, hok2⟩, Or.inr (sto_groupEv.2 ⟨isOk_groupEv.1 hok2, v, hvm, this⟩)⟩
    exact ⟨this.1, fun _ => this⟩
  | chain xs mn mx =>
    rw [hit] at hp0
    exact (good_chain hp0.1).elim

end Steps

/-- The four functions of the search. -/
theorem tree_spec (ex : Bool) (fuel : Nat) :
    SpecM ex (Tree.matchT fuel) ∧ SpecL ex (Tree.starT fuel) ∧ SpecI ex (Tree.itemsT fuel) ∧
      SpecJ ex (Tree.starItemsT fuel) := by
  induction fuel with
  | zero =>
    refine ⟨?_, ?_, ?_, ?_⟩
    · rintro t cs _ _ ⟨r, h⟩; cases h
    · rintro opt t cs _ _ ⟨r, h⟩; cases h
    · rintro t cs items _ _ _ ⟨r, h⟩; cases h
    · rintro t cs items _ _ _ ⟨r, h⟩; cases h
  | succ fuel ih =>
    obtain ⟨hM, hL, hI, hJ⟩ := ih
    have hS : SpecS ex (Tree.starT fuel true) := fun t cs hl hp hok =>
      (hL true t cs hl hp hok).2 (fun _ _ => rfl)
    exact ⟨spec_matchStep hM hS hI, spec_starStep hM hS hJ hL, spec_itemsStep hM hS hI hJ,
      spec_starItemsStep hS hI hJ⟩

end GoMatcher
