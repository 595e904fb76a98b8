import Verif.Proofs.TagTerm
import Verif.Props.C01_C03_Match
import Verif.Props.C20_C21_TagPath

/-! # C22, C23, C24: matching a single `seriesByTag` query -/

namespace GoMatcher

/-- A condition holds: its tag is present with a matching value, or the tag is absent and the
operator is negative. -/
def TermHolds (lib : GoLib) (tags : GoMap Str Str) (t : TTerm) : Prop :=
  match tags.get t.key with
  | some v => t.matches lib v = .ok true
  | none => t.op = .ne ∨ t.op = .nm

/-- All value comparisons that can be made give an answer. -/
def Answers (lib : GoLib) (terms : List TTerm) (tags : GoMap Str Str) : Prop :=
  ∀ t ∈ terms, ∀ v, tags.get t.key = some v → ∃ b, t.matches lib v = .ok b

/-- Parse and match on a map. -/
def queryMap (lib : GoLib) (query : Str) (tags : GoMap Str Str) : R (Except TagErr Bool) := do
  match ← parseSeriesByTag lib query with
  | .error e => .ok (.error e)
  | .ok ts => do
    let b ← matchByTagsMap lib ts tags
    .ok (.ok b)

/-- Parse and match on a slice. -/
def querySlice (lib : GoLib) (query : Str) (tags : List Tag) : R (Except TagErr Bool) := do
  match ← parseSeriesByTag lib query with
  | .error e => .ok (.error e)
  | .ok ts => do
    let b ← matchByTags lib ts tags
    .ok (.ok b)

namespace C22

/-- Every term list, every map: a match exactly when all conditions hold. -/
theorem match_iff (lib : GoLib) (terms : List TTerm) (tags : GoMap Str Str) :
    matchByTagsMap lib terms tags = .ok true ↔ ∀ t ∈ terms, TermHolds lib tags t := by
  induction terms with
  | nil => simp [matchByTagsMap]
  | cons t ts ih =>
    rw [matchByTagsMap, List.forall_mem_cons, ← ih]
    unfold TermHolds
    cases tags.get t.key with
    | none =>
      dsimp only
      by_cases h : t.op ≠ .ne ∧ t.op ≠ .nm
      · rw [if_pos h]
        constructor
        · intro h; simp at h
        · rintro ⟨h1, _⟩
          rcases h1 with h1 | h1
          · exact absurd h1 h.1
          · exact absurd h1 h.2
      · rw [if_neg h]
        have : t.op = .ne ∨ t.op = .nm := by
          cases hop : t.op <;> simp [hop] at h ⊢
        simp [this]
    | some v =>
      dsimp only
      cases t.matches lib v with
      | ok b => cases b <;> simp
      | panic => simp
      | timeout => simp

/-- With an answer for every comparison there is an answer for the query. -/
theorem match_exact (lib : GoLib) (terms : List TTerm) (tags : GoMap Str Str)
    (h : Answers lib terms tags) :
    ∃ b, matchByTagsMap lib terms tags = .ok b ∧ (b = true ↔ ∀ t ∈ terms, TermHolds lib tags t) := by
  have hok : ∃ b, matchByTagsMap lib terms tags = .ok b := by
    induction terms with
    | nil => exact ⟨_, rfl⟩
    | cons t ts ih =>
      have ih := ih (fun t ht => h t (by simp [ht]))
      rw [matchByTagsMap]
      cases hg : tags.get t.key with
      | none =>
        dsimp only
        split
        · exact ⟨_, rfl⟩
        · exact ih
      | some v =>
        obtain ⟨b, hb⟩ := h t (by simp) v hg
        dsimp only
        rw [hb, R.bind_ok]
        cases b
        · exact ⟨_, rfl⟩
        · exact ih
  obtain ⟨b, hb⟩ := hok
  refine ⟨b, hb, ?_⟩
  rw [← match_iff, hb]
  simp

/-- Conditions with `=~` and `!=~`: whatever the expression engine says. -/
theorem regexp_term (lib : GoLib) (key value : Str) (op : TagOp) (hop : op = .mt ∨ op = .nm) :
    (lib.reCompiles value = true →
      ∃ t, TTerm.build lib { key := key, op := op, value := value } = .ok (.ok t) ∧
        t.id = (key, op, value) ∧
        ∀ v, t.matches lib v = .ok (lib.reMatch value v == decide (op = .mt))) ∧
    (lib.reCompiles value = false →
      TTerm.build lib { key := key, op := op, value := value } = .ok (.error (.exprInvalid value))) := by
  unfold TTerm.build
  rcases hop with rfl | rfl
  · refine ⟨fun h => ?_, fun h => by simp [h]⟩
    rw [if_pos (.inl rfl), if_pos h]
    refine ⟨_, rfl, rfl, fun v => ?_⟩
    simp only [TTerm.matches, TTerm.reMatch, R.ok.injEq, decide_true]
    cases lib.reMatch value v <;> rfl
  · refine ⟨fun h => ?_, fun h => by simp [h]⟩
    rw [if_pos (.inr rfl), if_pos h]
    refine ⟨_, rfl, rfl, fun v => ?_⟩
    simp only [TTerm.matches, TTerm.reMatch, R.ok.injEq, R.not]
    cases lib.reMatch value v <;> rfl

/-- Conditions with `=` and `!=` whose value has no wildcard: comparison of the texts (any
bytes). -/
theorem plain_term (lib : GoLib) (key value : Str) (op : TagOp) (hop : op = .eq ∨ op = .ne)
    (hv : hasWildcard value = false) :
    ∃ t, TTerm.build lib { key := key, op := op, value := value } = .ok (.ok t) ∧
      t.id = (key, op, value) ∧
      ∀ v, t.matches lib v = .ok (decide (v = value) == decide (op = .eq)) := by
  unfold TTerm.build
  rcases hop with rfl | rfl
  · rw [if_neg (by simp), if_neg (by simp [hv])]
    refine ⟨_, rfl, rfl, fun v => ?_⟩
    simp only [TTerm.matches, Bool.false_eq_true, if_false, R.ok.injEq]
    by_cases h : v = value <;> simp [h]
  · rw [if_neg (by simp), if_neg (by simp [hv])]
    refine ⟨_, rfl, rfl, fun v => ?_⟩
    simp only [TTerm.matches, Bool.false_eq_true, if_false, R.ok.injEq]
    by_cases h : v = value <;> simp [h]

/-- Conditions with `=` and `!=` whose value is a glob of the shapes for which `Glob.Match` is
exact (C01): the value fits, or does not fit, the glob.  The full statement is about every
glob; it is false where C01 is. -/
theorem glob_term_partial (lib : GoLib) (key : Str) (op : TagOp) (hop : op = .eq ∨ op = .ne)
    (ts : List Tok) (hok : ∀ t ∈ ts, t.Ok) (hshape : Shape true .plain ts) (hmax : MaxOk ts) :
    ∃ t, TTerm.build lib { key := key, op := op, value := utf8 (renderGlob ts) } = .ok (.ok t) ∧
      t.key = key ∧ t.op = op ∧
      ∀ cs : List Char, ('[' ∉ renderGlob ts ∨ ∀ c ∈ cs, c.toNat ≠ 0xFFFD) →
        ∃ b, t.matches lib (utf8 cs) = .ok b ∧ (b = true ↔ (Fits ts cs ↔ op = .eq)) := by
  obtain ⟨g, hg, hG⟩ := parse_spec ts hok
  have hnm : ¬ (op = .mt ∨ op = .nm) := by
    rcases hop with rfl | rfl <;> simp
  -- the comparison itself
  have hcmp : ∀ cs : List Char, ('[' ∉ renderGlob ts ∨ ∀ c ∈ cs, c.toNat ≠ 0xFFFD) → ∃ b,
      (if g.items.length = 0 then R.ok (decide (utf8 cs = g.node)) else g.matches (utf8 cs)) = .ok b ∧
        (b = true ↔ Fits ts cs) := by
    intro cs hcs
    by_cases h0 : g.items.length = 0
    · rw [if_pos h0]
      obtain ⟨w, hw, hf⟩ := hG.plain (List.eq_nil_of_length_eq_zero h0)
      refine ⟨_, rfl, ?_⟩
      rw [hf, decide_eq_true_eq, hw]
      exact ⟨fun h => utf8_inj h, fun h => by rw [h]⟩
    · rw [if_neg h0]
      obtain ⟨b, h1, h2, h3⟩ := matches_spec' hG hshape
        (fun h => absurd (by rw [h]; rfl) h0) cs
      exact ⟨b, h1, h2, h3 rfl (parse_clean hg hcs) hmax⟩
  unfold TTerm.build
  rw [if_neg hnm]
  by_cases hw : hasWildcard (utf8 (renderGlob ts)) = true
  · rw [if_pos hw]
    dsimp only
    rw [hg, R.bind_ok]
    dsimp only
    by_cases h0 : g.items.length = 0
    · rw [if_pos h0]
      refine ⟨_, rfl, rfl, rfl, fun cs hcs => ?_⟩
      obtain ⟨b, hb, hb'⟩ := hcmp cs hcs
      rw [if_pos h0] at hb
      simp only [R.ok.injEq] at hb
      rcases hop with rfl | rfl
      · exact ⟨b, by simp [TTerm.matches, ← hb], by simp [hb']⟩
      · refine ⟨!b, by simp [TTerm.matches, ← hb], ?_⟩
        simp [← hb']
    · rw [if_neg h0]
      refine ⟨_, rfl, rfl, rfl, fun cs hcs => ?_⟩
      obtain ⟨b, hb, hb'⟩ := hcmp cs hcs
      rw [if_neg h0] at hb
      rcases hop with rfl | rfl
      · exact ⟨b, by simp [TTerm.matches, TTerm.globMatch, hb], by simp [hb']⟩
      · refine ⟨!b, by simp [TTerm.matches, TTerm.globMatch, hb, R.not], ?_⟩
        simp [← hb']
  · rw [if_neg hw]
    refine ⟨_, rfl, rfl, rfl, fun cs hcs => ?_⟩
    have hgn : g.items.length = 0 ∧ g.node = utf8 (renderGlob ts) := by
      have : indexWildcard (utf8 (renderGlob ts)) = none := by
        unfold indexWildcard
        unfold hasWildcard at hw
        generalize utf8 (renderGlob ts) = s at hw
        induction s with
        | nil => rfl
        | cons c s ih =>
          simp only [List.any_cons, Bool.or_eq_true, not_or] at hw
          rw [indexP, if_neg hw.1, ih hw.2]
          rfl
      unfold parseGlob at hg
      rw [this] at hg
      simp only [R.ok.injEq, Except.ok.injEq] at hg
      subst hg
      exact ⟨rfl, rfl⟩
    obtain ⟨b, hb, hb'⟩ := hcmp cs hcs
    rw [if_pos hgn.1, hgn.2] at hb
    simp only [R.ok.injEq] at hb
    rcases hop with rfl | rfl
    · exact ⟨b, by simp [TTerm.matches, ← hb], by simp [hb']⟩
    · refine ⟨!b, by simp [TTerm.matches, ← hb], ?_⟩
      simp [← hb']

example : queryMap exLib (b!"seriesByTag('name=cpu*', \"dc!=\", 'host=~web', 'x!=~y')")
    [(nameKey, b!"cpu_load"), (b!"host", b!"web1"), (b!"dc", b!"m")] = .ok (.ok true) := by
  decide +kernel
example : queryMap exLib (b!"seriesByTag('name=cpu*', 'dc!=m')")
    [(nameKey, b!"cpu_load"), (b!"dc", b!"m")] = .ok (.ok false) := by decide +kernel
example : queryMap exLib (b!"seriesByTag('name=cpu*', 'dc=m')")
    [(nameKey, b!"cpu_load")] = .ok (.ok false) := by decide +kernel
example : hasWildcard (b!"cpu") = false := by decide
example : exLib.reCompiles (b!"web") = true ∧ exLib.reCompiles (b!"(") = false := by decide
-- The glob value `web[0-9]*` in a negative condition.
example : let ts : List Tok := [.sub (.lit 'w'), .sub (.cls [.range '0' '9']), .sub .star]
    (∀ t ∈ ts, t.Ok) ∧ Shape true .plain ts ∧ MaxOk ts ∧ (∀ t ∈ ts, t.noStarClass) := by
  decide +kernel

end C22

/-! ## C23 -/

/-- Tags in the order of keys, `__name__` first, every key once. -/
def TagsSorted (tags : List Tag) : Prop := tags.Pairwise fun a b => keyLt a.key b.key = true

instance (tags : List Tag) : Decidable (TagsSorted tags) := by unfold TagsSorted; infer_instance

theorem TagsSorted.tail {a : Tag} {l : List Tag} (h : TagsSorted (a :: l)) : TagsSorted l :=
  (List.pairwise_cons.1 h).2

theorem scanTag_of_not_mem {k : Str} {l : List Tag} (h : ∀ t ∈ l, t.key ≠ k) : scanTag k l = [] := by
  induction l with
  | nil => rfl
  | cons a l ih =>
    rw [scanTag, if_neg (h a (by simp)), ih (fun t ht => h t (by simp [ht]))]

theorem scanTag_spec (k : Str) (l : List Tag) :
    (scanTag k l = [] ∧ ∀ t ∈ l, t.key ≠ k) ∨
    ∃ p h hs, l = p ++ h :: hs ∧ scanTag k l = h :: hs ∧ h.key = k ∧ ∀ t ∈ p, t.key ≠ k := by
  induction l with
  | nil => exact .inl ⟨rfl, by simp⟩
  | cons a l ih =>
    rw [scanTag]
    split
    · rename_i h
      exact .inr ⟨[], a, l, rfl, rfl, h, by simp⟩
    · rename_i h
      rcases ih with ⟨h1, h2⟩ | ⟨p, x, xs, h1, h2, h3, h4⟩
      · left
        refine ⟨h1, ?_⟩
        simp only [List.forall_mem_cons]
        exact ⟨h, h2⟩
      · right
        refine ⟨a :: p, x, xs, by rw [h1]; rfl, h2, h3, ?_⟩
        simp only [List.forall_mem_cons]
        exact ⟨h, h4⟩

theorem tagsMap_scan (tags : List Tag) (h : TagsSorted tags) (k : Str) :
    (tagsMap tags).get k = (scanTag k tags).head?.map Tag.value := by
  rw [C21.tagsMap_get]
  rcases scanTag_spec k tags with ⟨h1, h2⟩ | ⟨p, x, xs, h1, h2, h3, h4⟩
  · rw [h1, List.filter_eq_nil_iff.2 (fun t ht => by simpa using h2 t ht)]
    rfl
  · rw [h2]
    have hxs : xs.filter (fun t => decide (t.key = k)) = [] := by
      rw [List.filter_eq_nil_iff]
      intro t ht e
      rw [decide_eq_true_eq] at e
      rw [h1] at h
      have := (List.pairwise_append.1 h).2.1
      have := (List.pairwise_cons.1 this).1 t ht
      rw [h3, e, keyLt_irrefl] at this
      simp at this
    have hp : p.filter (fun t => decide (t.key = k)) = [] :=
      List.filter_eq_nil_iff.2 (fun t ht => by simpa using h4 t ht)
    rw [h1, List.filter_append, hp, List.nil_append, List.filter_cons]
    simp [h3, hxs]

/-- The key of the term is not among the tags. -/
def Missing (tags : List Tag) (t : TTerm) : Prop := ∀ g ∈ tags, g.key ≠ t.key

instance (tags : List Tag) (t : TTerm) : Decidable (Missing tags t) := by
  unfold Missing; infer_instance

theorem slice_aux (lib : GoLib) (M : GoMap Str Str) (terms : List TTerm)
    (hs : terms.Pairwise fun a b => TTerm.less b a = false) (tags : List Tag) (ht : TagsSorted tags)
    (hM : ∀ t ∈ terms, M.get t.key = (scanTag t.key tags).head?.map Tag.value)
    (hgap : terms.Pairwise fun a b => a.op = .ne ∨ a.op = .nm → Missing tags a → Missing tags b) :
    matchByTags lib terms tags = matchByTagsMap lib terms M := by
  induction terms generalizing tags with
  | nil => simp [matchByTags, matchByTagsMap]
  | cons t ts ih =>
    have hs' := (List.pairwise_cons.1 hs)
    have hg' := (List.pairwise_cons.1 hgap)
    have hMt := hM t (by simp)
    have hfun : matchByTags lib (t :: ts) tags = match scanTag t.key tags with
        | [] => if t.op = .ne ∨ t.op = .nm then matchByTags lib ts [] else .ok false
        | x :: xs => (do
          let m ← t.matches lib x.value
          if !m then R.ok false else matchByTags lib ts (x :: xs)) := by
      cases tags with
      | nil => rw [matchByTags]; rfl
      | cons g gs => rw [matchByTags]; rfl
    rw [hfun, matchByTagsMap, hMt]
    rcases scanTag_spec t.key tags with ⟨h1, h2⟩ | ⟨p, x, xs, h1, h2, h3, h4⟩
    · rw [h1]
      dsimp only [List.head?_nil, Option.map_none]
      by_cases hop : t.op = .ne ∨ t.op = .nm
      · rw [if_pos hop, if_neg (by rcases hop with h | h <;> simp [h])]
        apply ih hs'.2 [] List.Pairwise.nil
        · intro u hu
          rw [hM u (by simp [hu]), scanTag_of_not_mem (hg'.1 u hu hop h2)]
          rfl
        · exact hg'.2.imp (fun _ _ _ => by simp [Missing])
      · rw [if_neg hop, if_pos (by
          rw [not_or] at hop
          exact hop)]
    · rw [h2]
      dsimp only [List.head?_cons, Option.map_some]
      cases t.matches lib x.value with
      | panic => rfl
      | timeout => rfl
      | ok b =>
        rw [R.bind_ok, R.bind_ok]
        cases b with
        | false => rfl
        | true =>
          rw [h1] at ht
          obtain ⟨ht1, ht2, ht3⟩ := List.pairwise_append.1 ht
          -- keys before `x` are smaller than all later keys of the query
          have hskip : ∀ u ∈ ts, ∀ y ∈ p, y.key ≠ u.key := by
            intro u hu y hy e
            have h5 := ht3 y hy x (by simp)
            rw [h3, e] at h5
            have h6 := hs'.1 u hu
            cases hl : TTerm.less u t with
            | true => rw [hl] at h6; simp at h6
            | false =>
              have : TTerm.less u t = true := (less_iff u t).2 (.inl h5)
              rw [hl] at this
              simp at this
          apply ih hs'.2 (x :: xs) ht2
          · intro u hu
            rw [hM u (by simp [hu]), h1]
            congr 2
            clear h1 h2 h4 ht ht1 ht3 hM hMt hfun hgap hg'
            induction p with
            | nil => rfl
            | cons y p ihp =>
              rw [List.cons_append, scanTag, if_neg (hskip u hu y (by simp))]
              exact ihp (fun u hu y hy => hskip u hu y (by simp [hy]))
          · refine hg'.2.imp_of_mem ?_
            intro a b ha hb hab hop hm
            intro y hy
            apply hab hop _ y
            · rw [h1]; exact List.mem_append_right _ hy
            · intro z hz
              rw [h1] at hz
              rcases List.mem_append.1 hz with hz | hz
              · exact hskip a ha z hz
              · exact hm z hz

namespace C23

/-- Full statement (not true of the code): without the last hypothesis.  The slice matcher
does not return to its place after it has looked for an absent key, so after a negative
condition with an absent key all tags count as absent; see `absent_key_wrong`.  The theorem says
that nothing else goes wrong: it holds for all queries (sorted terms, as the parser leaves
them) where every condition after such a condition has an absent key, too. -/
theorem slice_eq_map_partial (lib : GoLib) (terms : List TTerm)
    (hs : terms.Pairwise fun a b => TTerm.less b a = false) (tags : List Tag) (ht : TagsSorted tags)
    (hgap : terms.Pairwise fun a b => a.op = .ne ∨ a.op = .nm → Missing tags a → Missing tags b) :
    matchByTags lib terms tags = matchByTagsMap lib terms (tagsMap tags) :=
  slice_aux lib _ terms hs tags ht (fun t _ => tagsMap_scan tags ht t.key) hgap

/-- In particular for queries whose negative conditions all have their tag. -/
theorem slice_eq_map_present_partial (lib : GoLib) (query : Str) (terms : List TTerm)
    (hp : parseSeriesByTag lib query = .ok (.ok terms)) (tags : List Tag) (ht : TagsSorted tags)
    (hpres : ∀ t ∈ terms, t.op = .ne ∨ t.op = .nm → ∃ g ∈ tags, g.key = t.key) :
    matchByTags lib terms tags = matchByTagsMap lib terms (tagsMap tags) := by
  have hs : terms.Pairwise fun a b => TTerm.less b a = false := by
    unfold parseSeriesByTag at hp
    obtain ⟨r, hr, hp⟩ := R.bind_eq_ok.1 hp
    cases r with
    | error e => simp at hp
    | ok cs =>
      dsimp only at hp
      unfold parseConditions at hp
      obtain ⟨q, hq, hp⟩ := R.bind_eq_ok.1 hp
      cases q with
      | error e => simp at hp
      | ok us =>
        simp only [R.ok.injEq, Except.ok.injEq] at hp
        subst hp
        exact lib.sort_sorted us
  apply slice_eq_map_partial lib terms hs tags ht
  refine List.Pairwise.imp_of_mem ?_ hs
  intro a b ha _ _ hop hm
  obtain ⟨g, hg, e⟩ := hpres a ha hop
  exact absurd e (hm g hg)

example : TagsSorted [⟨nameKey, b!"n"⟩, ⟨b!"A", b!"1"⟩, ⟨b!"b", b!"2"⟩] := by decide
example : querySlice exLib (b!"seriesByTag('b!=3','name=n*','A=~1')")
    [⟨nameKey, b!"n"⟩, ⟨b!"A", b!"1"⟩, ⟨b!"b", b!"2"⟩] = .ok (.ok true) := by decide +kernel

/-- The code violates the claim in both directions, on sorted tags. -/
theorem absent_key_wrong :
    let tags : List Tag := [⟨nameKey, b!"n"⟩, ⟨b!"b", b!"c"⟩]
    TagsSorted tags ∧
    querySlice exLib (b!"seriesByTag('a!=x','b=c')") tags = .ok (.ok false) ∧
    queryMap exLib (b!"seriesByTag('a!=x','b=c')") (tagsMap tags) = .ok (.ok true) ∧
    querySlice exLib (b!"seriesByTag('a!=x','b!=c')") tags = .ok (.ok true) ∧
    queryMap exLib (b!"seriesByTag('a!=x','b!=c')") (tagsMap tags) = .ok (.ok false) := by
  decide +kernel

end C23

/-! ## C24 -/

theorem zip_perm_exists {α β : Type} {P : α → β → Prop} {as as' : List α} (h : as.Perm as')
    {bs : List β} (hl : as.length = bs.length) (hz : ∀ x ∈ as.zip bs, P x.1 x.2) :
    ∃ bs', bs.Perm bs' ∧ as'.length = bs'.length ∧ ∀ x ∈ as'.zip bs', P x.1 x.2 := by
  induction h generalizing bs with
  | nil => exact ⟨bs, List.Perm.refl _, hl, by simp⟩
  | cons a h ih =>
    cases bs with
    | nil => simp at hl
    | cons b bs =>
      simp only [List.zip_cons_cons, List.forall_mem_cons] at hz
      obtain ⟨bs', p, l, z⟩ := ih (by simpa using hl) hz.2
      refine ⟨b :: bs', p.cons b, by simp [l], ?_⟩
      simp only [List.zip_cons_cons, List.forall_mem_cons]
      exact ⟨hz.1, z⟩
  | swap a a' as =>
    match bs, hl with
    | [], hl => simp at hl
    | [_], hl => simp at hl
    | b :: b' :: bs, hl =>
      simp only [List.zip_cons_cons, List.forall_mem_cons] at hz
      refine ⟨b' :: b :: bs, List.Perm.swap _ _ _, by simpa using hl, ?_⟩
      simp only [List.zip_cons_cons, List.forall_mem_cons]
      exact ⟨hz.2.1, hz.1, hz.2.2⟩
  | trans _ _ ih1 ih2 =>
    obtain ⟨bs1, p1, l1, z1⟩ := ih1 hl hz
    obtain ⟨bs2, p2, l2, z2⟩ := ih2 l1 z1
    exact ⟨bs2, p1.trans p2, l2, z2⟩

namespace C24

/-- The conditions may be written in any order: both orders are refused, or both are accepted with the
same terms, in the same sorted order (up to terms that have the same key, operator and
value), and so the same normalised text. -/
theorem order_independent (lib : GoLib) (cs cs' : List Str) (h : cs.Perm cs') :
    ((∃ e, parseConditions lib cs = .ok (.error e)) ∧
      (∃ e, parseConditions lib cs' = .ok (.error e))) ∨
    ∃ ts ts', parseConditions lib cs = .ok (.ok ts) ∧ parseConditions lib cs' = .ok (.ok ts') ∧
      ts.Perm ts' ∧ ts.map TTerm.id = ts'.map TTerm.id ∧ termsText ts = termsText ts' ∧
      ts.Pairwise (fun a b => TTerm.less b a = false) := by
  obtain ⟨r, hr⟩ := conditionsLoop_total lib cs
  obtain ⟨r', hr'⟩ := conditionsLoop_total lib cs'
  cases r with
  | error e =>
    left
    have h1 := (conditionsLoop_error lib cs).1 ⟨e, hr⟩
    have h2 : ∃ c ∈ cs', ∃ e, termOf lib c = .ok (.error e) := by
      obtain ⟨c, hc, x⟩ := h1
      exact ⟨c, h.mem_iff.1 hc, x⟩
    obtain ⟨e', he'⟩ := (conditionsLoop_error lib cs').2 h2
    refine ⟨⟨e, ?_⟩, ⟨e', ?_⟩⟩
    · unfold parseConditions; rw [hr]; rfl
    · unfold parseConditions; rw [he']; rfl
  | ok us =>
    right
    obtain ⟨h1, h2⟩ := (conditionsLoop_iff lib cs us).1 hr
    obtain ⟨us', p, l, z⟩ := zip_perm_exists (P := fun c t => termOf lib c = .ok (.ok t)) h h1 h2
    have hr2 := (conditionsLoop_iff lib cs' us').2 ⟨l, z⟩
    have hp : (lib.sortTerms us).Perm (lib.sortTerms us') :=
      (lib.sort_perm us).trans (p.trans (lib.sort_perm us').symm)
    have hid := sorted_ids_unique (lib.sort_sorted us) (lib.sort_sorted us') (hp.map _)
    refine ⟨lib.sortTerms us, lib.sortTerms us', ?_, ?_, hp, hid, termsText_ids hid,
      lib.sort_sorted us⟩
    · unfold parseConditions; rw [hr]; rfl
    · unfold parseConditions; rw [hr2]; rfl

/-- The same for query texts: conditions without `'`, not empty, at most 128. -/
theorem query_order_independent (lib : GoLib) (cs cs' : List Str) (h : cs.Perm cs')
    (hc : ∀ c ∈ cs, c ≠ [] ∧ (39 : UInt8) ∉ c) (hl : cs.length ≤ 128) :
    ((∃ e, parseSeriesByTag lib (queryText cs) = .ok (.error e)) ∧
      (∃ e, parseSeriesByTag lib (queryText cs') = .ok (.error e))) ∨
    ∃ ts ts', parseSeriesByTag lib (queryText cs) = .ok (.ok ts) ∧
      parseSeriesByTag lib (queryText cs') = .ok (.ok ts') ∧ ts.Perm ts' ∧
      ts.map TTerm.id = ts'.map TTerm.id ∧ termsText ts = termsText ts' := by
  have e1 : parseSeriesByTag lib (queryText cs) = parseConditions lib cs := by
    unfold parseSeriesByTag
    rw [seriesByTagArgs_text cs hc 128 hl]
    rfl
  have e2 : parseSeriesByTag lib (queryText cs') = parseConditions lib cs' := by
    unfold parseSeriesByTag
    rw [seriesByTagArgs_text cs' (fun c hc' => hc c (h.mem_iff.2 hc')) 128 (by rw [← h.length_eq]; exact hl)]
    rfl
  rw [e1, e2]
  rcases order_independent lib cs cs' h with h | ⟨ts, ts', a, b, c, d, e, _⟩
  · exact .inl h
  · exact .inr ⟨ts, ts', a, b, c, d, e⟩

/-- The answer of the map matcher does not depend on the order either. -/
theorem match_order_independent (lib : GoLib) (ts ts' : List TTerm) (h : ts.Perm ts')
    (tags : GoMap Str Str) (ha : Answers lib ts tags) :
    matchByTagsMap lib ts tags = matchByTagsMap lib ts' tags := by
  have ha' : Answers lib ts' tags := fun t ht => ha t (h.mem_iff.2 ht)
  obtain ⟨b, h1, h2⟩ := C22.match_exact lib ts tags ha
  obtain ⟨b', h1', h2'⟩ := C22.match_exact lib ts' tags ha'
  rw [h1, h1']
  congr 1
  rw [Bool.eq_iff_iff, h2, h2']
  exact ⟨fun x t ht => x t (h.mem_iff.2 ht), fun x t ht => x t (h.mem_iff.1 ht)⟩

/-- Normalised text of a query. -/
def normalQuery (lib : GoLib) (query : Str) : R (Except TagErr Str) := do
  match ← parseSeriesByTag lib query with
  | .error e => .ok (.error e)
  | .ok ts => .ok (.ok (termsText ts))

example : normalQuery exLib (queryText [b!"b = 2", b!"name=x{a,b}", b!"A!=~1", b!"b!=[12]"]) =
    .ok (.ok (b!"seriesByTag('__name__=x{a,b}','A!=~1','b=2','b!=[1-2]')")) ∧
  normalQuery exLib (queryText [b!"A!=~1", b!"b!=[12]", b!"name=x{a,b}", b!"b = 2"]) =
    .ok (.ok (b!"seriesByTag('__name__=x{a,b}','A!=~1','b=2','b!=[1-2]')")) := by decide +kernel

end C24

end GoMatcher
