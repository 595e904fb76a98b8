import Verif.Props.C20_C21_TagPath

/-! # C70: what a tagged path is cut into, and the errors of its readers

C20 and C21 speak about paths written with `Query` and about the five readers agreeing.  Here every
byte string is read. -/

namespace GoMatcher

open Escape

/-- How the readers cut the arguments: `Pairs sep args kvs rest` says that `args` is `k=v` texts
joined by `sep`, where a key ends at the first `=` and a value at the first `sep` behind that; `rest`
is the text at the end that has no `=`. -/
inductive Pairs (sep : UInt8) : Str → List (Str × Str) → Str → Prop
  | stop {r : Str} : (61 : UInt8) ∉ r → Pairs sep r [] r
  | last {k v : Str} : (61 : UInt8) ∉ k → sep ∉ v → Pairs sep (k ++ 61 :: v) [(k, v)] []
  | more {k v a r : Str} {l : List (Str × Str)} : (61 : UInt8) ∉ k → sep ∉ v → Pairs sep a l r →
      Pairs sep (k ++ 61 :: (v ++ sep :: a)) ((k, v) :: l) r

/-- The tag of a written pair. -/
def tagOf (kv : Str × Str) : Tag := ⟨Unescape kv.1, Unescape kv.2⟩

theorem pathTagsLoop_pairs {sep : UInt8} {args r : Str} {l : List (Str × Str)}
    (h : Pairs sep args l r) :
    pathTagsLoop sep args = (l.map tagOf, if r = [] then none else some errNoDelim) := by
  induction h with
  | stop hr =>
    rename_i r
    by_cases h0 : r = []
    · subst h0; simp [pathTagsLoop]
    · rw [pathTagsLoop_cons _ _ h0, nextTag]
      rw [cutByte_none _ _ hr]
      simp [h0]
  | last hk hv =>
    rw [pathTagsLoop_cons _ _ (by simp), nextTag]
    rw [cutByte_append _ _ _ hk]
    simp only [if_true]
    rw [cutByte_none _ _ hv]
    simp [pathTagsLoop, tagOf]
  | more hk hv _ ih =>
    rw [pathTagsLoop_cons _ _ (by simp), nextTag]
    rw [cutByte_append _ _ _ hk]
    simp only [if_true]
    rw [cutByte_append _ _ _ hv]
    simp only [ih, List.map_cons, tagOf]

theorem pairs_exist (sep : UInt8) (args : Str) : ∃ l r, Pairs sep args l r := by
  generalize hn : args.length = n
  induction n using Nat.strongRecOn generalizing args with
  | _ n ih =>
    have h1 := cutByte_spec 61 args
    rcases h1.2 with ⟨_, c2⟩ | ⟨_, c2, _⟩
    · generalize cutByte 61 args = c at h1 c2
      have h2 := cutByte_spec sep c.2.1
      rcases h2.2 with ⟨_, d2⟩ | ⟨_, d2, _⟩
      · generalize cutByte sep c.2.1 = d at h2 d2
        obtain ⟨l, r, hp⟩ := ih d.2.1.length
          (by rw [← hn, c2, d2]; simp only [List.length_append, List.length_cons]; omega) _ rfl
        exact ⟨(c.1, d.1) :: l, r, by rw [c2, d2]; exact .more h1.1 h2.1 hp⟩
      · exact ⟨[(c.1, c.2.1)], [], by rw [c2]; exact .last h1.1 (by rw [d2]; exact h2.1)⟩
    · exact ⟨[], args, .stop (by rw [c2]; exact h1.1)⟩

/-- Parts joined by the separator. -/
def joinParts (sep : UInt8) : List Str → Str
  | [] => []
  | [p] => p
  | p :: r => p ++ sep :: joinParts sep r

theorem joinParts_split (sep : UInt8) (s : Str) :
    ∃ ps, ps ≠ [] ∧ s = joinParts sep ps ∧ (∀ q ∈ ps, sep ∉ q) ∧ ∀ q ∈ ps, ∀ c ∈ q, c ∈ s := by
  induction s with
  | nil => exact ⟨[[]], by simp, rfl, by simp, by simp⟩
  | cons c s ih =>
    obtain ⟨ps, h0, h1, h2, h3⟩ := ih
    match ps, h0 with
    | p :: ps, _ =>
      simp only [List.forall_mem_cons] at h2 h3
      by_cases hc : c = sep
      · refine ⟨[] :: p :: ps, by simp, by rw [h1, hc]; rfl, ?_, ?_⟩
        · simp only [List.forall_mem_cons]
          exact ⟨by simp, h2⟩
        · simp only [List.forall_mem_cons]
          exact ⟨by simp, fun d hd => .tail _ (h3.1 d hd), fun q hq d hd => .tail _ (h3.2 q hq d hd)⟩
      · refine ⟨(c :: p) :: ps, by simp, ?_, ?_, ?_⟩
        · rw [h1]
          cases ps <;> rfl
        · simp only [List.forall_mem_cons]
          refine ⟨?_, h2.2⟩
          rw [List.mem_cons, not_or]
          exact ⟨fun e => hc e.symm, h2.1⟩
        · simp only [List.forall_mem_cons]
          exact ⟨⟨.head _, fun d hd => .tail _ (h3.1 d hd)⟩, fun q hq d hd => .tail _ (h3.2 q hq d hd)⟩

theorem joinParts_append (sep : UInt8) (ps qs : List Str) (hp : ps ≠ []) (hq : qs ≠ []) :
    joinParts sep (ps ++ qs) = joinParts sep ps ++ sep :: joinParts sep qs := by
  induction ps with
  | nil => exact absurd rfl hp
  | cons p ps ih =>
    cases ps with
    | nil =>
      cases qs with
      | nil => exact absurd rfl hq
      | cons q qs => rfl
    | cons p' ps =>
      have := ih (by simp)
      simp only [List.cons_append, joinParts, List.append_assoc] at this ⊢
      rw [this]

theorem pairs_bare {sep : UInt8} {args r : Str} {l : List (Str × Str)} (h : Pairs sep args l r)
    (hr : r ≠ []) : ∃ ps, ps ≠ [] ∧ args = joinParts sep ps ∧ (∀ q ∈ ps, sep ∉ q) ∧
      ∃ p ∈ ps, (61 : UInt8) ∉ p := by
  induction h with
  | @stop r h61 =>
    obtain ⟨ps, h0, h1, h2, h3⟩ := joinParts_split sep r
    match ps, h0 with
    | p :: ps, _ => exact ⟨p :: ps, by simp, h1, h2, p, by simp, fun hm => h61 (h3 p (by simp) _ hm)⟩
  | last _ _ => exact absurd rfl hr
  | @more k v a r l _ _ _ ih =>
    obtain ⟨ps, h0, h1, h2, p, h3, h4⟩ := ih hr
    obtain ⟨qs, g0, g1, g2, -⟩ := joinParts_split sep (k ++ 61 :: v)
    refine ⟨qs ++ ps, by simp [g0], ?_, ?_, p, by simp [h3], h4⟩
    · rw [joinParts_append _ _ _ g0 h0, ← g1, ← h1]
      simp
    · intro q hq
      rw [List.mem_append] at hq
      exact hq.elim (g2 q) (h2 q)

namespace C70

/-- The pairs and the rest are determined by the arguments. -/
theorem pairs_unique (sep : UInt8) (args : Str) :
    ∃ l r, Pairs sep args l r ∧ ∀ l' r', Pairs sep args l' r' → l' = l ∧ r' = r := by
  obtain ⟨l, r, h⟩ := pairs_exist sep args
  refine ⟨l, r, h, ?_⟩
  have inv : ∀ {a : Str} {l r}, Pairs sep a l r → ∀ {l' r'}, Pairs sep a l' r' →
      l' = l ∧ r' = r := by
    intro a l r h
    induction h with
    | stop hr =>
      intro l' r' h'
      cases h' with
      | stop _ => exact ⟨rfl, rfl⟩
      | last _ _ => exact absurd (by simp) hr
      | more _ _ _ => exact absurd (by simp) hr
    | last hk hv =>
      rename_i k v
      intro l' r' h'
      generalize hw : k ++ 61 :: v = w at h'
      cases h' with
      | stop hr => exact absurd (by rw [← hw]; simp) hr
      | last hk' hv' =>
        have e := cutByte_append 61 k v hk
        rw [hw, cutByte_append _ _ _ hk'] at e
        simp only [Prod.mk.injEq] at e
        simp [e.1, e.2.1]
      | more hk' hv' _ =>
        have e := cutByte_append 61 k v hk
        rw [hw, cutByte_append _ _ _ hk'] at e
        simp only [Prod.mk.injEq] at e
        exact absurd (by rw [← e.2.1]; simp) hv
    | @more k v a r l hk hv _ ih =>
      intro l' r' h'
      generalize hw : k ++ 61 :: (v ++ sep :: a) = w at h'
      cases h' with
      | stop hr => exact absurd (by rw [← hw]; simp) hr
      | last hk' hv' =>
        have e := cutByte_append 61 k (v ++ sep :: a) hk
        rw [hw, cutByte_append _ _ _ hk'] at e
        simp only [Prod.mk.injEq] at e
        exact absurd (by rw [e.2.1]; simp) hv'
      | more hk' hv' h2 =>
        have e := cutByte_append 61 k (v ++ sep :: a) hk
        rw [hw, cutByte_append _ _ _ hk'] at e
        simp only [Prod.mk.injEq] at e
        have e2 := cutByte_append sep v a hv
        rw [← e.2.1, cutByte_append _ _ _ hv'] at e2
        simp only [Prod.mk.injEq] at e2
        obtain ⟨hv2, ha, -⟩ := e2
        subst ha
        obtain ⟨i1, i2⟩ := ih h2
        simp [e.1, hv2, i1, i2]
  exact fun l' r' h' => inv h h'

/-- What `PathTags` (separators `?`, `&`) and `GraphitePathTags` (`;`, `;`) return for every
byte string with a name separator: name and pairs, unescaped; an error if text without `=` is left,
otherwise if the name has a `=`. -/
theorem reading (nameSep sep : UInt8) (n args r : Str) (l : List (Str × Str))
    (hn : nameSep ∉ n) (h : Pairs sep args l r) :
    pathTags nameSep sep (n ++ nameSep :: args) =
      (⟨b!"__name__", Unescape n⟩ :: l.map tagOf,
        if r ≠ [] then some ⟨[], b!"not delimited with ="⟩
        else if (61 : UInt8) ∈ n then
          some ⟨b!"name", if nameSep = 63 then b!"not found in " ++ n else b!"not found"⟩
        else none) := by
  unfold pathTags
  dsimp only
  rw [cutByte_append _ _ _ hn, pathTagsLoop_pairs h]
  by_cases hr : r = [] <;> by_cases hm : (61 : UInt8) ∈ n <;> simp [hr, hm, nameKey, errNoDelim]

example : Pairs 38 (b!"a=1&b=x=y&c") [(b!"a", b!"1"), (b!"b", b!"x=y")] (b!"c") :=
  .more (k := b!"a") (v := b!"1") (by decide) (by decide)
    (.more (k := b!"b") (v := b!"x=y") (by decide) (by decide) (.stop (by decide)))

/-- And without a name separator: the whole text is the name, and an error says so. -/
theorem reading_noName (nameSep sep : UInt8) (path : Str) (hn : nameSep ∉ path) :
    pathTags nameSep sep path = ([⟨b!"__name__", Unescape path⟩],
      some ⟨b!"name", if nameSep = 63 then b!"not found in " ++ path else b!"not found"⟩) := by
  unfold pathTags
  dsimp only
  rw [cutByte_none _ _ hn]
  simp [pathTagsLoop, nameKey]

example : (63 : UInt8) ∉ (b!"cpu.load") ∧ (pathTags 63 38 (b!"cpu.load")).2.map ErrPathInvalid.text =
    some (b!"invalid path: 'name' not found in cpu.load") := by decide +kernel

/-- The map readers return the same error, except that a missing name is not shown. -/
theorem map_error (nameSep sep : UInt8) (path : Str) :
    (pathTagsMap nameSep sep path).2 = (pathTags nameSep sep path).2.map fun e =>
      if e.node = b!"name" then ⟨b!"name", b!"not found"⟩ else e := by
  unfold pathTagsMap pathTags
  dsimp only
  rw [mapLoop_eq]
  dsimp only
  have hloop : (pathTagsLoop sep (cutByte nameSep path).2.1).2 = none ∨
      (pathTagsLoop sep (cutByte nameSep path).2.1).2 = some errNoDelim := by
    obtain ⟨l, r, h⟩ := pairs_exist sep (cutByte nameSep path).2.1
    rw [pathTagsLoop_pairs h]
    by_cases hr : r = [] <;> simp [hr]
  rcases hloop with h | h <;> rw [h]
  · by_cases hc : (!(cutByte nameSep path).2.2) = true ∨ (cutByte nameSep path).1.contains 61 = true
    · rw [if_pos hc, if_pos hc]; rfl
    · rw [if_neg hc, if_neg hc]; rfl
  · rfl

/-- Arguments whose parts all have a `=` are cut at the separators: one tag for every part, in order,
key before the first `=`, value behind it; no error.  Missing from the property: parts without `=`
(`missing_part`, `unnamed_part`). -/
theorem parts_partial (nameSep sep : UInt8) (n : Str) (l : List (Str × Str)) (hn : nameSep ∉ n)
    (hn' : (61 : UInt8) ∉ n)
    (hl : ∀ kv ∈ l, (61 : UInt8) ∉ kv.1 ∧ sep ∉ kv.1 ∧ sep ∉ kv.2) :
    pathTags nameSep sep
        (n ++ nameSep :: joinParts sep (l.map fun kv => kv.1 ++ 61 :: kv.2)) =
      (⟨b!"__name__", Unescape n⟩ :: l.map fun kv => ⟨Unescape kv.1, Unescape kv.2⟩, none) := by
  have hp : Pairs sep (joinParts sep (l.map fun kv => kv.1 ++ 61 :: kv.2)) l [] := by
    clear hn hn'
    induction l with
    | nil => exact .stop (by simp [joinParts])
    | cons a l ih =>
      have ha := hl a (by simp)
      have ih := ih fun kv hkv => hl kv (by simp [hkv])
      cases l with
      | nil => exact .last ha.1 ha.2.2
      | cons b l =>
        have := Pairs.more ha.1 ha.2.2 ih
        simpa [joinParts] using this
  rw [reading nameSep sep n _ [] l hn hp]
  simp [hn', tagOf]

example : (∀ kv ∈ [((b!"a"), (b!"1=2")), (b!"b", [])],
    (61 : UInt8) ∉ kv.1 ∧ (38 : UInt8) ∉ kv.1 ∧ (38 : UInt8) ∉ kv.2) ∧
    (b!"n") ++ 63 :: joinParts 38 ([((b!"a"), (b!"1=2")), (b!"b", [])].map
      fun kv => kv.1 ++ 61 :: kv.2) = b!"n?a=1=2&b=" := by decide +kernel

/-- `p` is one of the parts between separators and has no `=`. -/
def Bare (sep : UInt8) (args p : Str) : Prop :=
  ∃ ps, args = joinParts sep ps ∧ (∀ q ∈ ps, sep ∉ q) ∧ p ∈ ps ∧ (61 : UInt8) ∉ p

/-- An error of the readers always has a cause: if there is a name separator, it is a `=` in the name
or a part without `=`. -/
theorem error_cause (nameSep sep : UInt8) (n args : Str) (hn : nameSep ∉ n)
    (h : (pathTags nameSep sep (n ++ nameSep :: args)).2 ≠ none) :
    (61 : UInt8) ∈ n ∨ ∃ p, Bare sep args p := by
  obtain ⟨l, r, hp⟩ := pairs_exist sep args
  rw [reading nameSep sep n args r l hn hp] at h
  by_cases hr : r = []
  · by_cases h61 : (61 : UInt8) ∈ n
    · exact .inl h61
    · simp [hr, h61] at h
  · obtain ⟨ps, -, h1, h2, p, h3, h4⟩ := pairs_bare hp hr
    exact .inr ⟨p, ps, h1, h2, h3, h4⟩

example : (pathTags 63 38 (b!"n?a=1&&")).2 ≠ none := by decide +kernel

/-- A part without `=` that is not the last one is not reported: it becomes part of the next key. -/
theorem missing_part : ∃ p, p ≠ [] ∧ Bare 38 (b!"x&b=1") p ∧
    pathTags 63 38 (b!"n?x&b=1") =
      ([⟨b!"__name__", b!"n"⟩, ⟨b!"x&b", b!"1"⟩], none) :=
  ⟨b!"x", by decide, ⟨[b!"x", b!"b=1"], by decide, by decide, by decide, by decide⟩,
    by decide +kernel⟩

/-- The error of a part without `=` never shows the part: the variable meant for it is never
assigned. -/
theorem unnamed_part (nameSep sep : UInt8) (path : Str) (e : ErrPathInvalid)
    (h : (pathTags nameSep sep path).2 = some e) (hn : e.node ≠ b!"name") :
    e.text = b!"invalid path: '' not delimited with =" := by
  by_cases hm : nameSep ∈ path
  · obtain ⟨n, args, rfl, hn'⟩ : ∃ n args, path = n ++ nameSep :: args ∧ nameSep ∉ n := by
      have hs := cutByte_spec nameSep path
      rcases hs.2 with ⟨_, c2⟩ | ⟨_, c2, _⟩
      · exact ⟨_, _, c2, hs.1⟩
      · exact absurd (by rw [← c2]; exact hm) hs.1
    obtain ⟨l, r, hp⟩ := pairs_exist sep args
    rw [reading nameSep sep n args r l hn' hp] at h
    by_cases hr : r = []
    · by_cases h61 : (61 : UInt8) ∈ n
      · simp only [hr, ne_eq, not_true_eq_false, if_false, h61, if_true, Option.some.injEq] at h
        subst h
        exact absurd rfl hn
      · simp [hr, h61] at h
    · simp only [ne_eq, hr, not_false_eq_true, if_true, Option.some.injEq] at h
      subst h
      decide +kernel
  · rw [reading_noName nameSep sep path hm] at h
    simp only [Option.some.injEq] at h
    subst h
    exact absurd rfl hn

example : (pathTags 63 38 (b!"n?a=1&x")).2 = some ⟨[], b!"not delimited with ="⟩ := by
  decide +kernel

end C70

end GoMatcher
