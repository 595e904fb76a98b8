import Verif.Proofs.TagGroups
import Verif.Props.C56_Only

/-! # C58: the groups of a tag tree are sorted by key -/

namespace GoMatcher

namespace C58

/-- `__name__` first, the other keys in byte order, every key once. -/
def InOrder (ks : List Str) : Prop :=
  ks.Pairwise fun a b => b ≠ b!"__name__" ∧ (a = b!"__name__" ∨ strLt a b = true)

theorem inOrder_iff (ks : List Str) : InOrder ks ↔ KeysSorted ks := by
  unfold InOrder KeysSorted
  constructor
  · refine fun h => h.imp ?_
    rintro a b ⟨h1, h2 | h2⟩
    · subst h2; exact keyLt_name_left h1
    · exact keyLt_of_strLt h1 h2
  · refine fun h => h.imp ?_
    intro a b hab
    have hb : b ≠ b!"__name__" := by
      rintro rfl
      rw [show (b!"__name__" : Str) = nameKey from rfl, keyLt_name_right] at hab
      cases hab
    refine ⟨hb, ?_⟩
    by_cases ha : a = b!"__name__"
    · exact .inl ha
    · exact .inr (keyLt_strLt ha hab)

/-! ## One call -/

/-- `findOrAppend` keeps the groups in order: the keys are the old ones and the new one, the position is
that of the key, and the other groups are what they were.  Full statement: without `hx`, for a new key
on a list that only has `__name__`; there it is not true of the code (`name_wrong`). -/
theorem append_partial (gs : List TGroup) (h : InOrder (groupKeys gs)) (key : Str) (hk : key ≠ [])
    (hx : groupKeys gs = [b!"__name__"] → key = b!"__name__") :
    ∃ gs' n, findOrAppend gs key = .ok (gs', n) ∧ InOrder (groupKeys gs') ∧
      (groupKeys gs')[n]? = some key ∧ (∀ k, k ∈ groupKeys gs' ↔ k = key ∨ k ∈ groupKeys gs) ∧
      (key ∈ groupKeys gs → gs' = gs) ∧
      (key ∉ groupKeys gs → gs' = gs.take n ++ (key, [], []) :: gs.drop n) := by
  obtain ⟨gs', n, h1, h2, h3, h4⟩ := findOrAppend_sorted ((inOrder_iff _).1 h) hk hx
  refine ⟨gs', n, h1, (inOrder_iff _).2 h2, h3, h4, ?_, ?_⟩
  · intro hm
    obtain ⟨a, b, nm, m, e1, e2⟩ := findOrAppend_spec gs key hk
    rw [h1] at e1
    simp only [R.ok.injEq, Prod.mk.injEq] at e1
    obtain ⟨rfl, rfl⟩ := e1
    rcases e2 with e2 | ⟨rfl, rfl, e2⟩
    · exact e2.symm
    · exfalso
      subst e2
      simp only [groupKeys, List.map_append, List.map_cons, List.mem_append] at h2 hm
      unfold KeysSorted at h2
      rw [List.pairwise_append, List.pairwise_cons] at h2
      rcases hm with hm | hm
      · have := h2.2.2 key hm key (by simp)
        rw [keyLt_irrefl] at this
        cases this
      · have := h2.2.1.1 key hm
        rw [keyLt_irrefl] at this
        cases this
  · intro hm
    obtain ⟨a, b, nm, m, e1, e2⟩ := findOrAppend_spec gs key hk
    rw [h1] at e1
    simp only [R.ok.injEq, Prod.mk.injEq] at e1
    obtain ⟨rfl, rfl⟩ := e1
    rcases e2 with e2 | ⟨rfl, rfl, rfl⟩
    · exfalso
      apply hm
      rw [e2]
      simp [groupKeys]
    · simp

/-- On groups in order, `find` answers rightly from every position inside the list. -/
theorem find_right (gs : List TGroup) (h : InOrder (groupKeys gs)) (key : Str) (hk : key ≠ []) (start : Nat)
    (hs : start < gs.length ∨ start = 0) :
    ∃ r, findGroup gs key start = .ok r ∧ ∀ n, r = some n ↔ (groupKeys gs)[n]? = some key := by
  obtain ⟨r, h1, h2⟩ := findKey_spec (groupKeys gs) ((inOrder_iff _).1 h) key hk start (by simpa [groupKeys] using hs)
  refine ⟨r, h1, fun n => ?_⟩
  cases r with
  | none =>
    simp only [FoundOk] at h2
    refine ⟨fun h => (by cases h), fun h => absurd (List.mem_of_getElem? h) h2⟩
  | some m =>
    simp only [FoundOk] at h2
    constructor
    · intro e; cases e; exact h2
    · intro e
      have hs := (inOrder_iff _).1 h
      rcases Nat.lt_trichotomy m n with hlt | rfl | hlt
      · have := hs.get hlt h2 e
        rw [keyLt_irrefl] at this; cases this
      · rfl
      · have := hs.get hlt e h2
        rw [keyLt_irrefl] at this; cases this

/-- A group that was found or appended is found again. -/
theorem found_again_partial (gs : List TGroup) (h : InOrder (groupKeys gs)) (key : Str) (hk : key ≠ [])
    (hx : groupKeys gs = [b!"__name__"] → key = b!"__name__") (gs' : List TGroup) (n : Nat)
    (hf : findOrAppend gs key = .ok (gs', n)) (start : Nat) (hs : start < gs'.length ∨ start = 0) :
    findGroup gs' key start = .ok (some n) := by
  obtain ⟨_, _, h1, h2, h3, _⟩ := append_partial gs h key hk hx
  rw [hf] at h1
  simp only [R.ok.injEq, Prod.mk.injEq] at h1
  obtain ⟨rfl, rfl⟩ := h1
  obtain ⟨r, h4, h5⟩ := find_right gs' h2 key hk start hs
  rw [h4, (h5 n).2 h3]

/-- The keys after a call, the position, and where `find` then sees `__name__`. -/
def after (ks : List Str) (key : Str) : R (List Str × Nat × Option Nat) := do
  let r ← findOrAppend (ks.map fun k => (k, [], [])) key
  let n ← findGroup r.1 (b!"__name__") 0
  .ok (groupKeys r.1, r.2, n)

/-- Not true of the code: a new key on a list that only has `__name__` is put before it, and
`__name__` is not found any more. -/
theorem name_wrong : after [b!"__name__"] (b!"a") = .ok ([b!"a", b!"__name__"], 0, none) := by
  decide +kernel

example : after [b!"__name__", b!"b", b!"d"] (b!"c") =
    .ok ([b!"__name__", b!"b", b!"c", b!"d"], 2, some 0) := by decide +kernel

example : after [b!"A", b!"b", b!"d"] (b!"__name__") =
    .ok ([b!"__name__", b!"A", b!"b", b!"d"], 0, some 0) := by decide +kernel

example : InOrder [b!"__name__", b!"A", b!"b", b!"d"] := by
  unfold InOrder
  decide +kernel

/-! ## Whole trees -/

/-- The keys of the root and of all items below it are in order. -/
def TreeInOrder (t : GTagsTree) : Prop :=
  InOrder (groupKeys t.root) ∧ EachG (fun _ ks => InOrder ks) 0 t.root

/-- What a call may add. -/
def Terms (lib : GoLib) (P : List TTerm → Prop) : TOp → Prop
  | .add q _ => ∀ ts, parseSeriesByTag lib q = .ok (.ok ts) → P ts
  | .addTerms ts _ => P ts

theorem each_apply {Q : Nat → List Str → Prop} {A : Nat → Str → Prop} (hk : Kept Q A) (lib : GoLib)
    (t t' : GTagsTree) (op : TOp) (r : TAddRes) (h : op.apply lib t = .ok (t', r))
    (hP : Terms lib (KeysFrom A 0) op) (ht : EachG Q 0 t.root ∧ Q 0 (groupKeys t.root)) :
    EachG Q 0 t'.root ∧ Q 0 (groupKeys t'.root) := by
  cases op with
  | add q i =>
    simp only [TOp.apply, GTagsTree.add] at h
    split at h
    · cases h; exact ht
    split at h
    · cases h; exact ht
    split at h
    · cases h; exact ht
    split at h
    · cases h; exact ht
    obtain ⟨pr, hpr, h⟩ := R.bind_eq_ok.1 h
    cases pr with
    | error e => cases h; exact ht
    | ok ts =>
      have hts := hP ts hpr
      dsimp only at h
      split at h
      · cases h; exact ht
      · cases ts with
        | nil => cases h; exact ht
        | cons u us =>
          dsimp only at h
          obtain ⟨root, hr, h⟩ := R.bind_eq_ok.1 h
          cases h
          exact parseItems_each hk _ _ 0 hts _ _ ht.1 ht.2 hr
  | addTerms ts i =>
    simp only [TOp.apply, GTagsTree.addTerms] at h
    cases ts with
    | nil => cases h; exact ht
    | cons u us =>
      dsimp only at h
      split at h
      · cases h; exact ht
      split at h
      · cases h; exact ht
      split at h
      · cases h; exact ht
      obtain ⟨root, hr, h⟩ := R.bind_eq_ok.1 h
      cases h
      exact parseItems_each hk _ _ 0 hP _ _ ht.1 ht.2 hr

theorem each_run {Q : Nat → List Str → Prop} {A : Nat → Str → Prop} (hk : Kept Q A) (lib : GoLib)
    (ops : List TOp) (hP : ∀ op ∈ ops, Terms lib (KeysFrom A 0) op) (t t' : GTagsTree)
    (h : runTOps lib t ops = .ok t') (ht : EachG Q 0 t.root ∧ Q 0 (groupKeys t.root)) :
    EachG Q 0 t'.root ∧ Q 0 (groupKeys t'.root) := by
  induction ops generalizing t with
  | nil => cases h; exact ht
  | cons op ops ih =>
    rw [runTOps] at h
    obtain ⟨⟨t1, r⟩, h1, h2⟩ := R.bind_eq_ok.1 h
    exact ih (fun o ho => hP o (by simp [ho])) t1 h2
      (each_apply hk lib t t1 op r h1 (hP op (by simp)) ht)

mutual
theorem eachG_mono {Q Q' : Nat → List Str → Prop} (hQ : ∀ d ks, Q d ks → Q' d ks) (d : Nat)
    (gs : List (Str × List TItem × List TItem)) (h : EachG Q d gs) : EachG Q' d gs := by
  match gs with
  | [] => trivial
  | (k, nm, m) :: gs => exact ⟨eachC_mono hQ d m h.1, eachC_mono hQ d nm h.2.1, eachG_mono hQ d gs h.2.2⟩
theorem eachC_mono {Q Q' : Nat → List Str → Prop} (hQ : ∀ d ks, Q d ks → Q' d ks) (d : Nat)
    (cs : List TItem) (h : EachC Q d cs) : EachC Q' d cs := by
  match cs with
  | [] => trivial
  | c :: cs => exact ⟨eachI_mono hQ d c h.1, eachC_mono hQ d cs h.2⟩
theorem eachI_mono {Q Q' : Nat → List Str → Prop} (hQ : ∀ d ks, Q d ks → Q' d ks) (d : Nat)
    (c : TItem) (h : EachI Q d c) : EachI Q' d c := by
  match c with
  | .node _ _ gs => exact ⟨hQ _ _ h.1, eachG_mono hQ (d + 1) gs h.2⟩
end

/-- In order, and without `__name__`. -/
def Plain (ks : List Str) : Prop := KeysSorted ks ∧ nameKey ∉ ks

theorem plain_step {gs gs' : List TGroup} {key : Str} {n : Nat} (hk : key ≠ nameKey)
    (h : Plain (groupKeys gs)) (hf : findOrAppend gs key = .ok (gs', n)) : Plain (groupKeys gs') := by
  by_cases h0 : key = []
  · unfold findOrAppend at hf
    rw [if_pos h0] at hf
    cases hf
    exact h
  · obtain ⟨_, _, h1, h2, h3, h4⟩ := findOrAppend_sorted h.1 h0 (fun e => by
      exfalso
      apply h.2
      rw [e]
      simp)
    rw [hf] at h1
    simp only [R.ok.injEq, Prod.mk.injEq] at h1
    obtain ⟨rfl, rfl⟩ := h1
    refine ⟨h2, fun hm => ?_⟩
    rcases (h4 _).1 hm with e | e
    · exact hk e.symm
    · exact h.2 e

theorem kept_plain : Kept (fun _ => Plain) fun _ key => key ≠ nameKey where
  empty _ := ⟨List.Pairwise.nil, by simp⟩
  step _ _ _ _ _ hk h hf := plain_step hk h hf

/-- At the root nothing but `__name__`, below it no `__name__`. -/
def NamedAt : Nat → List Str → Prop
  | 0, ks => ks = [] ∨ ks = [nameKey]
  | _ + 1, ks => Plain ks

theorem kept_named : Kept NamedAt fun d key => (d = 0 ↔ key = nameKey) where
  empty d := by
    cases d with
    | zero => exact .inl rfl
    | succ d => exact kept_plain.empty d
  step d gs gs' key n hk h hf := by
    cases d with
    | succ d => exact plain_step (fun e => by have := hk.2 e; omega) h hf
    | zero =>
      have e := hk.1 rfl
      subst e
      right
      unfold findOrAppend at hf
      rw [if_neg (by decide)] at hf
      cases gs with
      | nil => cases hf; rfl
      | cons g rest =>
        rcases h with h | h
        · cases h
        · dsimp only at hf
          have hg : g.1 = nameKey := (List.cons.inj h).1
          rw [if_pos rfl, if_pos hg] at hf
          cases hf
          exact h

theorem allowed_plain (ts : List TTerm) (h : ∀ t ∈ ts, t.key ≠ nameKey) (d : Nat) :
    KeysFrom (fun _ key => key ≠ nameKey) d ts := by
  induction ts generalizing d with
  | nil => trivial
  | cons t ts ih => exact ⟨h t (by simp), ih (fun u hu => h u (by simp [hu])) _⟩

theorem allowed_named (ts : List TTerm) (d : Nat) (h : ∀ t ∈ ts, t.key ≠ nameKey) :
    KeysFrom (fun d key => (d = 0 ↔ key = nameKey)) (d + 1) ts := by
  induction ts generalizing d with
  | nil => trivial
  | cons t ts ih =>
    exact ⟨⟨fun e => by omega, fun e => absurd e (h t (by simp))⟩,
      ih (d + 1) (fun u hu => h u (by simp [hu]))⟩

/-- Histories in which no condition is on `__name__`: all keys of the tree are in order.  Full
statement: for all histories, which is not true of the code (`tree_wrong`). -/
theorem unnamed_partial (lib : GoLib) (ops : List TOp)
    (hP : ∀ op ∈ ops, Terms lib (fun ts => ∀ t ∈ ts, t.key ≠ b!"__name__") op) (t : GTagsTree)
    (h : runTOps lib {} ops = .ok t) : TreeInOrder t := by
  obtain ⟨h1, h2⟩ := each_run kept_plain lib ops (fun op ho => by
    have := hP op ho
    cases op with
    | add q i => exact fun ts hts => allowed_plain ts (this ts hts) 0
    | addTerms ts i => exact allowed_plain ts this 0) {} t h ⟨trivial, kept_plain.empty 0⟩
  exact ⟨(inOrder_iff _).2 h2.1, eachG_mono (fun _ ks hk => (inOrder_iff ks).2 hk.1) 0 _ h1⟩

/-- Histories in which every query has one condition on `__name__`, in front: all keys of the tree are
in order.  Full statement: for all histories, which is not true of the code (`tree_wrong`). -/
theorem named_partial (lib : GoLib) (ops : List TOp)
    (hP : ∀ op ∈ ops, Terms lib (fun ts => ∃ t us, ts = t :: us ∧ t.key = b!"__name__" ∧
      ∀ u ∈ us, u.key ≠ b!"__name__") op) (t : GTagsTree)
    (h : runTOps lib {} ops = .ok t) : TreeInOrder t := by
  have key : ∀ ts : List TTerm, (∃ t us, ts = t :: us ∧ t.key = b!"__name__" ∧
      ∀ u ∈ us, u.key ≠ b!"__name__") → KeysFrom (fun d key => (d = 0 ↔ key = nameKey)) 0 ts := by
    rintro _ ⟨t, us, rfl, h1, h2⟩
    exact ⟨⟨fun _ => h1, fun _ => rfl⟩, allowed_named us 0 h2⟩
  obtain ⟨h1, h2⟩ := each_run kept_named lib ops (fun op ho => by
    have := hP op ho
    cases op with
    | add q i => exact fun ts hts => key ts (this ts hts)
    | addTerms ts i => exact key ts this) {} t h ⟨trivial, kept_named.empty 0⟩
  constructor
  · rcases h2 with h2 | h2
    · rw [h2]; exact List.Pairwise.nil
    · rw [h2]; exact List.pairwise_singleton _ _
  · -- the root itself is not among the items below it
    refine eachG_mono (fun d ks hk => ?_) 0 _ h1
    cases d with
    | zero =>
      rcases hk with hk | hk
      · rw [hk]; exact List.Pairwise.nil
      · rw [hk]; exact List.pairwise_singleton _ _
    | succ d => exact (inOrder_iff ks).2 hk.1

/-- The keys at the root after some calls. -/
def rootKeys (ops : List TOp) : R (List Str) := do
  let t ← runTOps exLib {} ops
  .ok (groupKeys t.root)

/-- Not true of the code: three ordinary queries leave two groups for `__name__`. -/
theorem tree_wrong : rootKeys [.add (b!"seriesByTag('__name__=a')") 0, .add (b!"seriesByTag('b=c')") 1,
    .add (b!"seriesByTag('__name__=d')") 2] = .ok [b!"__name__", b!"b", b!"__name__"] := by decide +kernel

/-- And here two groups for `a`. -/
theorem twice_wrong : rootKeys [.add (b!"seriesByTag('__name__=a')") 0, .add (b!"seriesByTag('a=c')") 1,
    .add (b!"seriesByTag('b=d')") 2, .add (b!"seriesByTag('a=e')") 3] =
    .ok [b!"a", b!"__name__", b!"a", b!"b"] := by decide +kernel

example : rootKeys [.add (b!"seriesByTag('d=a')") 0, .add (b!"seriesByTag('B=c')") 1,
    .add (b!"seriesByTag('c!=d')") 2, .add (b!"seriesByTag('B=e','d=f')") 3] =
    .ok [b!"B", b!"c", b!"d"] := by decide +kernel

end C58

end GoMatcher
