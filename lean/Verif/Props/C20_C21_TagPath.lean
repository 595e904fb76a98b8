import Verif.Model.TagPath
import Verif.Props.C17_C19_Escape

/-! # C20, C21: tagged paths -/

namespace GoMatcher

open Escape

theorem cutByte_append (sep : UInt8) (a b : Str) (h : sep ∉ a) :
    cutByte sep (a ++ sep :: b) = (a, b, true) := by
  induction a with
  | nil => simp [cutByte]
  | cons c a ih =>
    rw [List.mem_cons, not_or] at h
    rw [List.cons_append, cutByte, if_neg (fun e => h.1 e.symm), ih h.2]

theorem cutByte_none (sep : UInt8) (a : Str) (h : sep ∉ a) : cutByte sep a = (a, [], false) := by
  induction a with
  | nil => simp [cutByte]
  | cons c a ih =>
    rw [List.mem_cons, not_or] at h
    rw [cutByte, if_neg (fun e => h.1 e.symm), ih h.2]

/-- What `strings.Cut` returns, for every input. -/
theorem cutByte_spec (sep : UInt8) (s : Str) :
    sep ∉ (cutByte sep s).1 ∧
    (((cutByte sep s).2.2 = true ∧ s = (cutByte sep s).1 ++ sep :: (cutByte sep s).2.1) ∨
     ((cutByte sep s).2.2 = false ∧ s = (cutByte sep s).1 ∧ (cutByte sep s).2.1 = [])) := by
  induction s with
  | nil => simp [cutByte]
  | cons c t ih =>
    rw [cutByte]
    split
    · rename_i h; subst h; simp
    · rename_i h
      dsimp only
      refine ⟨?_, ?_⟩
      · rw [List.mem_cons, not_or]
        exact ⟨fun e => h e.symm, ih.1⟩
      · rcases ih.2 with ⟨h1, h2⟩ | ⟨h1, h2, h3⟩
        · left; exact ⟨h1, by rw [List.cons_append, ← h2]⟩
        · right; exact ⟨h1, by rw [← h2], h3⟩

/-- `key=value` texts joined by the separator. -/
def tagText (sep : UInt8) : List (Str × Str) → Str
  | [] => []
  | [kv] => kv.1 ++ 61 :: kv.2
  | kv :: r => kv.1 ++ 61 :: (kv.2 ++ sep :: tagText sep r)

/-- Text `e` is an escape of `s` that does not disturb the path: it is what `Query` returns, or any
other text that unescapes to `s` and has no delimiter. -/
def EscapeOf (e s : Str) : Prop :=
  Unescape e = s ∧ ∀ c ∈ e, c ≠ 61 ∧ c ≠ 38 ∧ c ≠ 59 ∧ c ≠ 63

theorem escapeOf_query (s : Str) : ∃ e, Query s = .ok e ∧ EscapeOf e s := by
  obtain ⟨e, h1, h2⟩ := C17.unescape_query s
  obtain ⟨f, h3, h4⟩ := C19.query_no_delims s
  rw [h1] at h3
  injection h3 with h3
  subst h3
  exact ⟨e, h1, h2, h4⟩

theorem EscapeOf.not_mem {e s : Str} (h : EscapeOf e s) :
    (61 : UInt8) ∉ e ∧ (38 : UInt8) ∉ e ∧ (59 : UInt8) ∉ e ∧ (63 : UInt8) ∉ e :=
  ⟨fun m => (h.2 _ m).1 rfl, fun m => (h.2 _ m).2.1 rfl, fun m => (h.2 _ m).2.2.1 rfl,
    fun m => (h.2 _ m).2.2.2 rfl⟩

theorem EscapeOf.not_sep {e s : Str} (h : EscapeOf e s) {sep : UInt8} (hs : sep = 38 ∨ sep = 59) :
    sep ∉ e := by
  rcases hs with rfl | rfl
  · exact h.not_mem.2.1
  · exact h.not_mem.2.2.1

theorem tagText_ne (sep : UInt8) (l : List (Str × Str)) (h : l ≠ []) : tagText sep l ≠ [] := by
  match l, h with
  | [], h => exact absurd rfl h
  | [kv], _ => simp [tagText]
  | kv :: b :: r, _ => simp [tagText]

theorem pathTagsLoop_cons (sep : UInt8) (args : Str) (h : args ≠ []) :
    pathTagsLoop sep args =
      if (nextTag sep args).2.2.2 then
        (⟨Unescape (nextTag sep args).1, Unescape (nextTag sep args).2.1⟩ ::
          (pathTagsLoop sep (nextTag sep args).2.2.1).1, (pathTagsLoop sep (nextTag sep args).2.2.1).2)
      else ([], some errNoDelim) := by
  cases args with
  | nil => exact absurd rfl h
  | cons c t => rw [pathTagsLoop]

theorem pathTagsLoop_text (sep : UInt8) (hs : sep = 38 ∨ sep = 59)
    (l : List ((Str × Str) × (Str × Str)))
    (hl : ∀ x ∈ l, EscapeOf x.1.1 x.2.1 ∧ EscapeOf x.1.2 x.2.2) :
    pathTagsLoop sep (tagText sep (l.map Prod.fst)) = (l.map fun x => ⟨x.2.1, x.2.2⟩, none) := by
  induction l with
  | nil => simp [tagText, pathTagsLoop]
  | cons x l ih =>
    have hx := hl x (by simp)
    have ih := ih (fun y hy => hl y (by simp [hy]))
    rw [pathTagsLoop_cons _ _ (tagText_ne _ _ (by simp))]
    have hn : nextTag sep (tagText sep ((x :: l).map Prod.fst)) =
        (x.1.1, x.1.2, tagText sep (l.map Prod.fst), true) := by
      cases l with
      | nil =>
        simp only [List.map_cons, List.map_nil, tagText, nextTag]
        rw [cutByte_append _ _ _ hx.1.not_mem.1]
        simp only [if_true]
        rw [cutByte_none _ _ (hx.2.not_sep hs)]
      | cons y l =>
        simp only [List.map_cons, tagText, nextTag]
        rw [cutByte_append _ _ _ hx.1.not_mem.1]
        simp only [if_true]
        rw [cutByte_append _ _ _ (hx.2.not_sep hs)]
    rw [hn]
    simp only [if_true, ih, List.map_cons, hx.1.1, hx.2.1]

/-- Escaping all names and values with `Query`. -/
def queryAll : List (Str × Str) → R (List (Str × Str))
  | [] => .ok []
  | kv :: r => do
    let k ← Query kv.1
    let v ← Query kv.2
    let q ← queryAll r
    .ok ((k, v) :: q)

theorem queryAll_spec (kvs : List (Str × Str)) : ∃ l : List ((Str × Str) × (Str × Str)),
    queryAll kvs = .ok (l.map Prod.fst) ∧ l.map Prod.snd = kvs ∧
      ∀ x ∈ l, EscapeOf x.1.1 x.2.1 ∧ EscapeOf x.1.2 x.2.2 := by
  induction kvs with
  | nil => exact ⟨[], rfl, rfl, by simp⟩
  | cons kv kvs ih =>
    obtain ⟨l, h1, h2, h3⟩ := ih
    obtain ⟨k, k1, k2⟩ := escapeOf_query kv.1
    obtain ⟨v, v1, v2⟩ := escapeOf_query kv.2
    refine ⟨((k, v), kv) :: l, ?_, by simp [h2], ?_⟩
    · rw [queryAll, k1, v1, h1]; rfl
    · simp only [List.forall_mem_cons]
      exact ⟨⟨k2, v2⟩, h3⟩

/-- The path `name?k1=v1&k2=v2` (`?`, `&`) or `name;k1=v1;k2=v2` (`;`, `;`) with everything
escaped by `Query`. -/
def tagPath (nameSep sep : UInt8) (name : Str) (kvs : List (Str × Str)) : R Str := do
  let n ← Query name
  let q ← queryAll kvs
  .ok (n ++ nameSep :: tagText sep q)

/-- The two pairs of separators. -/
def Seps (nameSep sep : UInt8) : Prop := nameSep = 63 ∧ sep = 38 ∨ nameSep = 59 ∧ sep = 59

namespace C20

/-- Every name and every list of keys and values, written with `Query`, is read back by
`PathTags` and `GraphitePathTags` without error. -/
theorem roundtrip (nameSep sep : UInt8) (hs : Seps nameSep sep) (name : Str)
    (kvs : List (Str × Str)) :
    ∃ path, tagPath nameSep sep name kvs = .ok path ∧
      pathTags nameSep sep path =
        (⟨b!"__name__", name⟩ :: kvs.map fun kv => ⟨kv.1, kv.2⟩, none) := by
  obtain ⟨n, n1, n2⟩ := escapeOf_query name
  obtain ⟨l, l1, l2, l3⟩ := queryAll_spec kvs
  refine ⟨n ++ nameSep :: tagText sep (l.map Prod.fst), by rw [tagPath, n1, l1]; rfl, ?_⟩
  have hns : nameSep ∉ n := by
    rcases hs with ⟨rfl, _⟩ | ⟨rfl, _⟩
    · exact n2.not_mem.2.2.2
    · exact n2.not_mem.2.2.1
  have hsep : sep = 38 ∨ sep = 59 := by
    rcases hs with ⟨_, h⟩ | ⟨_, h⟩
    · exact .inl h
    · exact .inr h
  unfold pathTags
  dsimp only
  rw [cutByte_append _ _ _ hns]
  dsimp only
  have h61 : n.contains 61 = false := by simpa using n2.not_mem.1
  rw [pathTagsLoop_text sep hsep l l3, h61, n2.1, ← l2]
  simp [nameKey]

example : Seps 63 38 ∧ tagPath 63 38 (b!"a b") [(b!"k=1", b!"x&y"), ([], b!"я")] =
    .ok (b!"a+b?k%3D1=x%26y&=%D1%8F") := by
  refine ⟨.inl ⟨rfl, rfl⟩, by decide +kernel⟩
example : pathTags 63 38 (b!"a+b?k%3D1=x%26y&=%D1%8F") =
    ([⟨b!"__name__", b!"a b"⟩, ⟨b!"k=1", b!"x&y"⟩, ⟨[], b!"я"⟩], none) := by decide +kernel
example : tagPath 59 59 (b!"cpu") [(b!"h", b!"a;b"), (b!"dc", [])] = .ok (b!"cpu;h=a%3Bb;dc=") := by
  decide +kernel

/-- Not only the output of `Query` is read back: any text that unescapes to the value and has none of
the delimiters will do. -/
theorem roundtrip_any (nameSep sep : UInt8) (hs : Seps nameSep sep) (n name : Str)
    (hn : EscapeOf n name) (l : List ((Str × Str) × (Str × Str)))
    (hl : ∀ x ∈ l, EscapeOf x.1.1 x.2.1 ∧ EscapeOf x.1.2 x.2.2) :
    pathTags nameSep sep (n ++ nameSep :: tagText sep (l.map Prod.fst)) =
      (⟨b!"__name__", name⟩ :: l.map fun x => ⟨x.2.1, x.2.2⟩, none) := by
  have hns : nameSep ∉ n := by
    rcases hs with ⟨rfl, _⟩ | ⟨rfl, _⟩
    · exact hn.not_mem.2.2.2
    · exact hn.not_mem.2.2.1
  have hsep : sep = 38 ∨ sep = 59 := by
    rcases hs with ⟨_, h⟩ | ⟨_, h⟩
    · exact .inl h
    · exact .inr h
  unfold pathTags
  dsimp only
  rw [cutByte_append _ _ _ hns]
  dsimp only
  have h61 : n.contains 61 = false := by simpa using hn.not_mem.1
  rw [pathTagsLoop_text sep hsep l hl, h61, hn.1]
  simp [nameKey]

example : EscapeOf (b!"%61:b") (b!"a:b") := ⟨by decide +kernel, by decide⟩

end C20

theorem mapLoop_eq (sep : UInt8) (args : Str) (m : GoMap Str Str) :
    pathTagsMapLoop sep args m =
      ((pathTagsLoop sep args).1.foldl (fun m t => m.set t.key t.value) m,
        (pathTagsLoop sep args).2) := by
  match args with
  | [] => simp [pathTagsMapLoop, pathTagsLoop]
  | c :: t =>
    rw [pathTagsMapLoop, pathTagsLoop]
    dsimp only
    split
    · rw [mapLoop_eq sep _ _]
      rfl
    · rfl
termination_by args.length
decreasing_by exact nextTag_length _ _ (by simp)

theorem delete_all (m : GoMap Str Str) (k : Str) :
    (m.foldl (fun m kv => m.delete kv.1) m).get k = none := by
  have key : ∀ (l m : GoMap Str Str), (l.get k = none → m.get k = none) →
      (l.foldl (fun m kv => m.delete kv.1) m).get k = none := by
    intro l
    induction l with
    | nil => intro m h; exact h rfl
    | cons p l ih =>
      intro m h
      rw [List.foldl_cons]
      apply ih
      intro hl
      rw [GoMap.get_delete]
      split
      · rfl
      · rename_i hne
        apply h
        obtain ⟨a, b⟩ := p
        simp only [GoMap.get] at hne ⊢
        rw [if_neg hne]
        exact hl
  exact key m m id

theorem foldl_set_get (ts : List Tag) (m m' : GoMap Str Str) (h : ∀ k, m.get k = m'.get k)
    (k : Str) : (ts.foldl (fun m t => m.set t.key t.value) m).get k =
      (ts.foldl (fun m t => m.set t.key t.value) m').get k := by
  induction ts generalizing m m' with
  | nil => exact h k
  | cons t ts ih =>
    rw [List.foldl_cons, List.foldl_cons]
    apply ih
    intro k
    rw [GoMap.get_set, GoMap.get_set, h]

theorem foldl_set_last (ts : List Tag) (m : GoMap Str Str) (k : Str) :
    (ts.foldl (fun m t => m.set t.key t.value) m).get k =
      (((ts.filter fun t => t.key = k).getLast?).map Tag.value).or (m.get k) := by
  induction ts generalizing m with
  | nil => simp
  | cons t ts ih =>
    rw [List.foldl_cons, ih, GoMap.get_set, List.filter_cons]
    by_cases h : t.key = k
    · simp only [h, decide_true, if_true]
      rw [List.getLast?_cons]
      cases (List.filter (fun t => decide (t.key = k)) ts).getLast? <;> simp
    · simp [h]

namespace C21

/-- `TagsMap`: the value of a key is the value of its last tag. -/
theorem tagsMap_get (ts : List Tag) (k : Str) :
    (tagsMap ts).get k = ((ts.filter fun t => t.key = k).getLast?).map Tag.value := by
  rw [tagsMap, foldl_set_last]
  simp

/-- For every byte string the map parser returns the tags of the slice parser, and it
reports an error exactly when the slice parser does. -/
theorem map_eq_slice (nameSep sep : UInt8) (path : Str) :
    (∀ k, (pathTagsMap nameSep sep path).1.get k =
      (tagsMap (pathTags nameSep sep path).1).get k) ∧
    ((pathTagsMap nameSep sep path).2.isSome = (pathTags nameSep sep path).2.isSome) := by
  unfold pathTagsMap pathTags
  dsimp only
  rw [mapLoop_eq]
  refine ⟨fun k => rfl, ?_⟩
  dsimp only
  cases (pathTagsLoop sep (cutByte nameSep path).2.1).2 with
  | some e => rfl
  | none => split <;> rfl

/-- A reused map afterwards has exactly the content of a fresh one, whatever it had before;
same error. -/
theorem reused_map (nameSep sep : UInt8) (path : Str) (old : GoMap Str Str) :
    (∀ k, (pathTagsMapB nameSep sep path old).1.get k = (pathTagsMap nameSep sep path).1.get k) ∧
    (pathTagsMapB nameSep sep path old).2 = (pathTagsMap nameSep sep path).2 := by
  unfold pathTagsMapB pathTagsMap
  dsimp only
  rw [mapLoop_eq, mapLoop_eq]
  refine ⟨fun k => ?_, rfl⟩
  apply foldl_set_get
  intro k
  rw [GoMap.get_set, GoMap.get_set, delete_all]
  rfl

/-- When the parsers report an error: there is no name separator, the name contains `=`, or
some piece of the rest has no `=`.  The pieces are what remains after cutting at `=` and
then at the separator. -/
theorem error_iff (nameSep sep : UInt8) (path : Str) :
    (pathTags nameSep sep path).2 = none ↔
      nameSep ∈ path ∧ (61 : UInt8) ∉ (cutByte nameSep path).1 ∧
      ∃ l : List (Str × Str), (∀ kv ∈ l, (61 : UInt8) ∉ kv.1 ∧ sep ∉ kv.2) ∧
        ((cutByte nameSep path).2.1 = tagText sep l ∨
          l ≠ [] ∧ (cutByte nameSep path).2.1 = tagText sep l ++ [sep]) := by
  have hloop : ∀ args : Str, (pathTagsLoop sep args).2 = none ↔
      ∃ l : List (Str × Str), (∀ kv ∈ l, (61 : UInt8) ∉ kv.1 ∧ sep ∉ kv.2) ∧
        (args = tagText sep l ∨ l ≠ [] ∧ args = tagText sep l ++ [sep]) := by
    intro args
    generalize hn : args.length = n
    induction n using Nat.strongRecOn generalizing args with
    | _ n ih =>
      by_cases h0 : args = []
      · subst h0
        simp only [pathTagsLoop, true_iff]
        exact ⟨[], by simp, .inl rfl⟩
      rw [pathTagsLoop_cons _ _ h0]
      have hc := cutByte_spec 61 args
      unfold nextTag
      rcases hc.2 with ⟨c1, c2⟩ | ⟨c1, c2, c3⟩
      · simp only [c1, if_true]
        have hd := cutByte_spec sep (cutByte 61 args).2.1
        have hlen : (cutByte sep (cutByte 61 args).2.1).2.1.length < n := by
          have h1 := cutByte_length 61 args h0
          have h2 := cutByte_length_le sep (cutByte 61 args).2.1
          omega
        rw [ih _ hlen _ rfl]
        generalize hk : (cutByte 61 args).1 = k at *
        generalize hr : (cutByte 61 args).2.1 = r at *
        generalize hv : (cutByte sep r).1 = v at *
        generalize hq : (cutByte sep r).2.1 = q at *
        have htext : ∀ l : List (Str × Str), l ≠ [] →
            tagText sep ((k, v) :: l) = k ++ 61 :: (v ++ sep :: tagText sep l) := by
          intro l hl
          cases l with
          | nil => exact absurd rfl hl
          | cons a l => rfl
        constructor
        · rintro ⟨l, l1, l2⟩
          refine ⟨(k, v) :: l, ?_, ?_⟩
          · simp only [List.forall_mem_cons]
            exact ⟨⟨hc.1, hd.1⟩, l1⟩
          · rcases hd.2 with ⟨d1, d2⟩ | ⟨d1, d2, d3⟩
            · by_cases hl : l = []
              · subst hl
                rcases l2 with l2 | ⟨l2, _⟩
                · right
                  refine ⟨by simp, ?_⟩
                  rw [c2, d2, l2]
                  simp [tagText]
                · exact absurd rfl l2
              · rcases l2 with l2 | ⟨_, l2⟩
                · left; rw [c2, d2, l2, htext l hl]
                · right
                  refine ⟨by simp, ?_⟩
                  rw [c2, d2, l2, htext l hl]
                  simp
            · left
              have : l = [] := by
                rcases l2 with l2 | ⟨_, l2⟩
                · apply Classical.byContradiction
                  intro hl
                  rw [d3] at l2
                  exact tagText_ne sep l hl l2.symm
                · rw [d3] at l2; simp at l2
              subst this
              rw [c2, d2]
              rfl
        · rintro ⟨l, l1, l2⟩
          match l with
          | [] =>
            rcases l2 with l2 | ⟨l2, _⟩
            · exact absurd l2 h0
            · exact absurd rfl l2
          | (k', v') :: l' =>
            simp only [List.forall_mem_cons] at l1
            have heq : ∃ w, args = k' ++ 61 :: w ∧
                ((w = v' ∧ l' = []) ∨ (w = v' ++ [sep] ∧ l' = []) ∨
                 (∃ z, l' ≠ [] ∧ w = v' ++ sep :: z ∧
                   (z = tagText sep l' ∨ z = tagText sep l' ++ [sep]))) := by
              cases l' with
              | nil =>
                rcases l2 with l2 | ⟨_, l2⟩
                · exact ⟨v', l2, .inl ⟨rfl, rfl⟩⟩
                · refine ⟨v' ++ [sep], by rw [l2]; simp [tagText], .inr (.inl ⟨rfl, rfl⟩)⟩
              | cons a l' =>
                rcases l2 with l2 | ⟨_, l2⟩
                · exact ⟨_, l2, .inr (.inr ⟨_, by simp, rfl, .inl rfl⟩)⟩
                · refine ⟨v' ++ sep :: (tagText sep (a :: l') ++ [sep]), by rw [l2]; simp [tagText],
                    .inr (.inr ⟨_, by simp, rfl, .inr rfl⟩)⟩
            obtain ⟨w, w1, w2⟩ := heq
            have hw : r = w := by
              have := cutByte_append 61 k' w l1.1.1
              rw [← w1] at this
              rw [← hr, this]
            have hq' : ∀ z, w = v' ++ sep :: z → q = z := by
              intro z hz
              have := cutByte_append sep v' z l1.1.2
              rw [← hz, ← hw] at this
              rw [← hq, this]
            rcases w2 with ⟨e, rfl⟩ | ⟨e, rfl⟩ | ⟨z, hl', e, hz⟩
            · refine ⟨[], by simp, .inl ?_⟩
              have := cutByte_none sep v' l1.1.2
              rw [← e, ← hw] at this
              rw [← hq, this]
              rfl
            · refine ⟨[], by simp, .inl ?_⟩
              exact hq' [] e
            · refine ⟨l', l1.2, ?_⟩
              rw [hq' z e]
              rcases hz with hz | hz
              · exact .inl hz
              · exact .inr ⟨hl', hz⟩
      · simp only [c1, Bool.false_eq_true, if_false]
        constructor
        · intro h; cases h
        · rintro ⟨l, l1, l2⟩
          exfalso
          have : (61 : UInt8) ∈ args := by
            match l with
            | [] =>
              rcases l2 with l2 | ⟨l2, _⟩
              · exact absurd l2 h0
              · exact absurd rfl l2
            | [kv] => rcases l2 with l2 | ⟨_, l2⟩ <;> rw [l2] <;> simp [tagText]
            | kv :: b :: l' => rcases l2 with l2 | ⟨_, l2⟩ <;> rw [l2] <;> simp [tagText]
          rw [c2] at this
          exact hc.1 this
  rw [← hloop]
  unfold pathTags
  dsimp only
  have hc := cutByte_spec nameSep path
  have hmem : (cutByte nameSep path).2.2 = true ↔ nameSep ∈ path := by
    rcases hc.2 with ⟨c1, c2⟩ | ⟨c1, c2, _⟩
    · simp only [c1, true_iff]
      rw [c2]
      simp
    · simp only [c1, Bool.false_eq_true, false_iff]
      intro h
      rw [c2] at h
      exact hc.1 h
  rw [← hmem]
  cases hp : (pathTagsLoop sep (cutByte nameSep path).2.1).2 with
  | some e => simp
  | none =>
    cases h2 : (cutByte nameSep path).2.2 <;> by_cases h3 : (61 : UInt8) ∈ (cutByte nameSep path).1 <;>
      simp [h3]

example : pathTags 63 38 (b!"a?b=c&d") = ([⟨nameKey, b!"a"⟩, ⟨b!"b", b!"c"⟩],
    some ⟨[], b!"not delimited with ="⟩) := by decide +kernel
example : (pathTagsMap 59 59 (b!"a;b=1;c=2;b=3")).1.get (b!"b") = some (b!"3") ∧
    (pathTagsMapB 59 59 (b!"a;b=1") [(b!"z", b!"9"), (b!"b", b!"0")]).1 =
      [(nameKey, b!"a"), (b!"b", b!"1")] := by decide +kernel
-- A tag named `__name__` replaces the name in the map; the slice has both.
example : (pathTagsMap 63 38 (b!"a?__name__=b")).1 = [(nameKey, b!"b")] := by decide +kernel

end C21

end GoMatcher
