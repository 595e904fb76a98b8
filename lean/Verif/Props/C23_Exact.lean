import Verif.Props.C22_C24_Query

/-!
# C23: what matching against the tag slice answers, for every query and every path

`C23.slice_eq_map_partial` says when the slice matcher agrees with the map matcher.  Here the
remaining case is described exactly: the conditions up to the first negative condition whose key
is absent are answered as by the map matcher, and all later conditions are answered as if
the path had no tags.
-/
namespace GoMatcher

/-- The condition is of one of the two negative kinds (`!=`, `!=~`). -/
def Negative (t : TTerm) : Prop := t.op = .ne ∨ t.op = .nm

instance (t : TTerm) : Decidable (Negative t) := by unfold Negative; infer_instance

theorem matchByTags_nil (lib : GoLib) (terms : List TTerm) :
    matchByTags lib terms [] = .ok (terms.all fun t => decide (Negative t)) := by
  induction terms with
  | nil => simp [matchByTags]
  | cons t ts ih =>
    rw [matchByTags]
    show (if t.op = .ne ∨ t.op = .nm then matchByTags lib ts [] else R.ok false) = _
    by_cases h : Negative t
    · rw [if_pos (show t.op = .ne ∨ t.op = .nm from h), ih]
      simp [h]
    · rw [if_neg (show ¬ (t.op = .ne ∨ t.op = .nm) from h)]
      simp [h]

theorem slice_absent_aux (lib : GoLib) (M : GoMap Str Str) (pre : List TTerm) (n : TTerm)
    (post : List TTerm)
    (hs : (pre ++ n :: post).Pairwise fun a b => TTerm.less b a = false)
    (tags : List Tag) (ht : TagsSorted tags)
    (hM : ∀ t ∈ pre, M.get t.key = (scanTag t.key tags).head?.map Tag.value)
    (hpre : ∀ t ∈ pre, Negative t → ¬ Missing tags t) (hn : Negative n) (hm : Missing tags n) :
    matchByTags lib (pre ++ n :: post) tags = (do
      let b ← matchByTagsMap lib pre M
      .ok (b && post.all fun t => decide (Negative t))) := by
  induction pre generalizing tags with
  | nil =>
    have hfun : matchByTags lib (n :: post) tags = matchByTags lib post [] := by
      cases tags with
      | nil =>
        rw [matchByTags]
        show (if n.op = .ne ∨ n.op = .nm then matchByTags lib post [] else R.ok false) = _
        rw [if_pos (show n.op = .ne ∨ n.op = .nm from hn)]
      | cons g gs =>
        rw [matchByTags, scanTag_of_not_mem hm]
        show (if n.op = .ne ∨ n.op = .nm then matchByTags lib post [] else R.ok false) = _
        rw [if_pos (show n.op = .ne ∨ n.op = .nm from hn)]
    rw [List.nil_append, hfun, matchByTags_nil, matchByTagsMap, R.bind_ok, Bool.true_and]
  | cons t ts ih =>
    have hs' := (List.pairwise_cons.1 hs)
    have hMt := hM t (by simp)
    have hfun : matchByTags lib (t :: (ts ++ n :: post)) tags = match scanTag t.key tags with
        | [] => if t.op = .ne ∨ t.op = .nm then matchByTags lib (ts ++ n :: post) [] else .ok false
        | x :: xs => (do
          let m ← t.matches lib x.value
          if !m then R.ok false else matchByTags lib (ts ++ n :: post) (x :: xs)) := by
      cases tags with
      | nil => rw [matchByTags]; rfl
      | cons g gs => rw [matchByTags]; rfl
    rw [List.cons_append, hfun, matchByTagsMap, hMt]
    rcases scanTag_spec t.key tags with ⟨h1, h2⟩ | ⟨p, x, xs, h1, h2, h3, h4⟩
    · rw [h1]
      dsimp only [List.head?_nil, Option.map_none]
      have hop : ¬ (t.op = .ne ∨ t.op = .nm) := fun h => hpre t (by simp) h h2
      rw [if_neg hop, if_pos (by
          rw [not_or] at hop
          exact hop)]
      rfl
    · rw [h2]
      dsimp only [List.head?_cons, Option.map_some]
      cases t.matches lib x.value with
      | panic => rfl
      | timeout => rfl
      | ok b =>
        rw [R.bind_ok, R.bind_ok]
        cases b with
        | false => rfl
        | true =>
          rw [h1] at ht
          obtain ⟨ht1, ht2, ht3⟩ := List.pairwise_append.1 ht
          have hskip : ∀ u ∈ ts ++ n :: post, ∀ y ∈ p, y.key ≠ u.key := by
            intro u hu y hy e
            have h5 := ht3 y hy x (by simp)
            rw [h3, e] at h5
            have h6 := hs'.1 u hu
            rw [(less_iff u t).2 (.inl h5)] at h6
            cases h6
          apply ih hs'.2 (x :: xs) ht2
          · intro u hu
            rw [hM u (by simp [hu]), h1]
            congr 2
            have hsk := hskip u (by simp [hu])
            clear h1 h2 h4 ht ht1 ht3 hM hMt hfun hskip hm hpre
            induction p with
            | nil => rfl
            | cons y p ihp =>
              rw [List.cons_append, scanTag, if_neg (hsk y (by simp))]
              exact ihp (fun y hy => hsk y (by simp [hy]))
          · intro u hu hop hmu
            apply hpre u (by simp [hu]) hop
            intro z hz
            rw [h1] at hz
            rcases List.mem_append.1 hz with hz | hz
            · exact hskip u (by simp [hu]) z hz
            · exact hmu z hz
          · intro z hz
            apply hm z
            rw [h1]
            exact List.mem_append_right _ hz

namespace C23

/-- The case `slice_eq_map_partial` leaves out, exactly.  Sorted conditions (as the parser leaves
them), sorted tags, and `n` the first negative condition whose key is absent: what is asked
before `n` is answered as by the map matcher, and of the conditions after `n` the slice matcher
only looks at the kind: all must be negative, whatever the tags are. -/
theorem slice_after_absent (lib : GoLib) (pre : List TTerm) (n : TTerm) (post : List TTerm)
    (hs : (pre ++ n :: post).Pairwise fun a b => TTerm.less b a = false)
    (tags : List Tag) (ht : TagsSorted tags)
    (hpre : ∀ t ∈ pre, (t.op = .ne ∨ t.op = .nm) → ∃ g ∈ tags, g.key = t.key)
    (hn : n.op = .ne ∨ n.op = .nm) (hm : ∀ g ∈ tags, g.key ≠ n.key) :
    matchByTags lib (pre ++ n :: post) tags = (do
      let b ← matchByTagsMap lib pre (tagsMap tags)
      .ok (b && post.all fun t => decide (t.op = .ne ∨ t.op = .nm))) :=
  slice_absent_aux lib _ pre n post hs tags ht (fun t _ => tagsMap_scan tags ht t.key)
    (fun t h h1 h2 => by
      obtain ⟨g, hg, he⟩ := hpre t h h1
      exact h2 g hg he) hn hm

/-- Every query has one of the two forms: no negative condition with an absent key (then
the two matchers agree) or a first such condition (then `slice_after_absent` says the
answer). -/
theorem slice_exact (lib : GoLib) (terms : List TTerm)
    (hs : terms.Pairwise fun a b => TTerm.less b a = false) (tags : List Tag)
    (ht : TagsSorted tags) :
    ((∀ t ∈ terms, (t.op = .ne ∨ t.op = .nm) → ∃ g ∈ tags, g.key = t.key) ∧
      matchByTags lib terms tags = matchByTagsMap lib terms (tagsMap tags)) ∨
    ∃ pre n post, terms = pre ++ n :: post ∧
      (∀ t ∈ pre, (t.op = .ne ∨ t.op = .nm) → ∃ g ∈ tags, g.key = t.key) ∧
      (n.op = .ne ∨ n.op = .nm) ∧ (∀ g ∈ tags, g.key ≠ n.key) ∧
      matchByTags lib terms tags = (do
        let b ← matchByTagsMap lib pre (tagsMap tags)
        .ok (b && post.all fun t => decide (t.op = .ne ∨ t.op = .nm))) := by
  have key : ∀ l : List TTerm,
      (∀ t ∈ l, (t.op = .ne ∨ t.op = .nm) → ∃ g ∈ tags, g.key = t.key) ∨
      ∃ pre n post, l = pre ++ n :: post ∧
        (∀ t ∈ pre, (t.op = .ne ∨ t.op = .nm) → ∃ g ∈ tags, g.key = t.key) ∧
        (n.op = .ne ∨ n.op = .nm) ∧ (∀ g ∈ tags, g.key ≠ n.key) := by
    intro l
    induction l with
    | nil => left; simp
    | cons t l ih =>
      by_cases h : (t.op = .ne ∨ t.op = .nm) ∧ Missing tags t
      · exact .inr ⟨[], t, l, rfl, by simp, h.1, h.2⟩
      · have ht : (t.op = .ne ∨ t.op = .nm) → ∃ g ∈ tags, g.key = t.key := by
          intro h1
          apply Classical.byContradiction
          intro h2
          exact h ⟨h1, fun g hg he => h2 ⟨g, hg, he⟩⟩
        rcases ih with ih | ⟨pre, n, post, h1, h2, h3, h4⟩
        · left
          simpa only [List.forall_mem_cons] using ⟨ht, ih⟩
        · exact .inr ⟨t :: pre, n, post, by rw [h1]; rfl,
            by simpa only [List.forall_mem_cons] using ⟨ht, h2⟩, h3, h4⟩
  rcases key terms with h | ⟨pre, n, post, h1, h2, h3, h4⟩
  · refine .inl ⟨h, slice_eq_map_partial lib terms hs tags ht ?_⟩
    rw [List.pairwise_iff_forall_sublist]
    intro a b hab hop hm
    obtain ⟨g, hg, he⟩ := h a (hab.subset (by simp)) hop
    exact absurd he (hm g hg)
  · refine .inr ⟨pre, n, post, h1, h2, h3, h4, ?_⟩
    rw [h1]
    exact slice_after_absent lib pre n post (h1 ▸ hs) tags ht h2 h3 h4

/-- A query with a present negative condition, then an absent one, then two more: the
hypotheses of `slice_after_absent` hold, and the answer differs from the map matcher's. -/
example :
    let pre : List TTerm := [{ key := b!"a", op := .ne, value := b!"x" }]
    let n : TTerm := { key := b!"b", op := .ne, value := b!"x" }
    let post : List TTerm := [{ key := b!"c", op := .ne, value := b!"3" }]
    let tags : List Tag := [⟨b!"a", b!"1"⟩, ⟨b!"c", b!"3"⟩]
    ((pre ++ n :: post).Pairwise fun a b => TTerm.less b a = false) ∧ TagsSorted tags ∧
      (∀ t ∈ pre, (t.op = .ne ∨ t.op = .nm) → ∃ g ∈ tags, g.key = t.key) ∧
      (∀ g ∈ tags, g.key ≠ n.key) ∧
      matchByTags exLib (pre ++ n :: post) tags = .ok true ∧
      matchByTagsMap exLib (pre ++ n :: post) (tagsMap tags) = .ok false := by
  decide +kernel

end C23
end GoMatcher
