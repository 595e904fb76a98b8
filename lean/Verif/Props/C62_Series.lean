import Verif.Props.C24_C29_Text
import Verif.Props.C25_Exact

/-! # C62: from the texts of queries and of a series to the reports -/

namespace GoMatcher
namespace C62

/-- The value of a key of the series with this name and these tags: the last one given counts. -/
def valueOf (name : Str) (kvs : List (Str × Str)) (k : Str) : Option Str :=
  (((b!"__name__", name) :: kvs).filter fun kv => kv.1 = k).getLast?.map Prod.snd

/-- The series satisfies the condition text `c`: the key is absent and the operator negative, or the
value fits. -/
def SeriesHolds (lib : GoLib) (name : Str) (kvs : List (Str × Str)) (c : Str) : Prop :=
  ∃ k op v, CondText c k op v ∧
    (valueOf name kvs k = none ∧ (op = .ne ∨ op = .nm) ∨
      ∃ x, valueOf name kvs k = some x ∧ C52.ValueFits lib op v x)

/-- Name and values are texts, without U+FFFD if some query has a glob with a class. -/
def SeriesText (adds : List (Str × Int)) (name : Str) (kvs : List (Str × Str)) : Prop :=
  ∀ v, v = name ∨ (∃ k, (k, v) ∈ kvs) → ∃ cs : List Char, v = utf8 cs ∧
    ((∀ a ∈ adds, ∀ ds, QueryText a.1 ds → ∀ d ∈ ds, C52.NoClassIn d) ∨ ∀ c ∈ cs, c.toNat ≠ 0xFFFD)

/-- The tags that the parsers return for the series. -/
def seriesTags (name : Str) (kvs : List (Str × Str)) : List Tag :=
  ⟨b!"__name__", name⟩ :: kvs.map fun kv => ⟨kv.1, kv.2⟩

theorem tagsMap_series (name : Str) (kvs : List (Str × Str)) (k : Str) :
    (tagsMap (seriesTags name kvs)).get k = valueOf name kvs k := by
  have e : seriesTags name kvs = ((b!"__name__", name) :: kvs).map fun kv => ⟨kv.1, kv.2⟩ := rfl
  rw [C21.tagsMap_get, e, List.filter_map, List.getLast?_map, Option.map_map]
  rfl

theorem valueOf_some {name : Str} {kvs : List (Str × Str)} {k v : Str} (h : valueOf name kvs k = some v) :
    v = name ∨ ∃ k, (k, v) ∈ kvs := by
  unfold valueOf at h
  rw [Option.map_eq_some_iff] at h
  obtain ⟨kv, h1, rfl⟩ := h
  have := List.mem_of_getLast? h1
  rw [List.mem_filter, List.mem_cons] at this
  rcases this.1 with e | e
  · rw [e]; exact .inl rfl
  · exact .inr ⟨kv.1, e⟩

theorem condHolds_series {lib : GoLib} {tags : GoMap Str Str} {name : Str} {kvs : List (Str × Str)}
    (h : ∀ k, tags.get k = valueOf name kvs k) (c : Str) :
    C52.CondHolds lib tags c ↔ SeriesHolds lib name kvs c := by
  unfold C52.CondHolds SeriesHolds
  simp only [h]

/-- A series written as a path (`name?k=v&…` or `name;k=v;…`, everything escaped by `Query`) and read by
`PathTagsMap` is reported for exactly those accepted queries with conditions that it satisfies, each
once, and they are counted.  With the tags in order, `PathTags` and the search in the list report
the same, behind the accepted query without conditions, if there is one, which is not counted.  Full
statement (not true of the code): for all queries; missing is what C25.text_partial misses. -/
theorem series_partial (lib : GoLib) (adds : List (Str × Int)) (hq : ∀ a ∈ adds, C25.QueryClear a.1) :
    ∃ t L, runAdds lib {} [] adds = .ok (t, L) ∧
      ∃ src : List TTerm × Int → Str,
        (∀ x ∈ L, (src x, x.2) ∈ adds ∧ parseSeriesByTag lib (src x) = .ok (.ok x.1)) ∧
        ∀ nameSep sep, Seps nameSep sep → ∀ name kvs, SeriesText adds name kvs →
          ∃ path, tagPath nameSep sep name kvs = .ok path ∧
            (pathTagsMap nameSep sep path).2 = none ∧
            pathTags nameSep sep path = (seriesTags name kvs, none) ∧
            ∃ R : List (List TTerm × Int), R.Sublist L ∧
              (∀ x ∈ L, x ∈ R ↔ x.1 ≠ [] ∧
                ∀ cs, QueryText (src x) cs → ∀ c ∈ cs, SeriesHolds lib name kvs c) ∧
              (∃ evs, t.matchByTagsMap lib (pathTagsMap nameSep sep path).1 = .ok (evs, evs.length) ∧
                evs.Perm (R.map fun x => (termsText x.1, x.2))) ∧
              (TagsSorted (seriesTags name kvs) →
                ∃ evs, t.matchByTags lib (pathTags nameSep sep path).1 =
                    .ok (((L.filter fun x => x.1.isEmpty).map fun x => (termsText x.1, x.2)) ++ evs, evs.length) ∧
                  evs.Perm (R.map fun x => (termsText x.1, x.2))) := by
  obtain ⟨t, L, hr, src, hsrc, hm⟩ := C25.text_partial lib adds hq
  refine ⟨t, L, hr, src, hsrc, fun nameSep sep hs name kvs ht => ?_⟩
  obtain ⟨path, hp, hpt⟩ := C20.roundtrip nameSep sep hs name kvs
  have hpt' : pathTags nameSep sep path = (seriesTags name kvs, none) := hpt
  obtain ⟨h1, h2⟩ := C21.map_eq_slice nameSep sep path
  rw [hpt'] at h1 h2
  have hmap : (pathTagsMap nameSep sep path).1 = tagsMap (seriesTags name kvs) := by
    have : seriesTags name kvs = (pathTags nameSep sep path).1 := by rw [hpt']
    rw [this]
    unfold pathTagsMap pathTags
    dsimp only
    rw [mapLoop_eq]
    rfl
  have hget : ∀ k, (pathTagsMap nameSep sep path).1.get k = valueOf name kvs k := fun k => by
    rw [h1 k, tagsMap_series]
  have hval : ∀ tags : GoMap Str Str, (∀ k, tags.get k = valueOf name kvs k) →
      ∀ k v, tags.get k = some v → ∃ cs : List Char, v = utf8 cs ∧
        ((∀ a ∈ adds, ∀ ds, QueryText a.1 ds → ∀ d ∈ ds, C52.NoClassIn d) ∨ ∀ c ∈ cs, c.toNat ≠ 0xFFFD) :=
    fun tags h k v hv => ht v (valueOf_some (by rw [← h k]; exact hv))
  have hne : ∀ tags : GoMap Str Str, (∀ k, tags.get k = valueOf name kvs k) → tags.length ≠ 0 := by
    intro tags h h0
    rw [List.length_eq_zero_iff] at h0
    subst h0
    have := h (b!"__name__")
    unfold valueOf at this
    rw [List.filter_cons, if_pos (by simp), List.getLast?_cons] at this
    cases this
  obtain ⟨R, r1, r2, r3⟩ := hm _ (hne _ hget) (hval _ hget)
  have hk : ∀ a ∈ adds, HasKeys lib a.1 := by
    intro a ha ts hts u hu
    obtain ⟨_, cs, us, g1, g2, g3, g4⟩ := C52.terms_stand lib a.1 ts hts
    obtain ⟨c, hc, hz⟩ := C52.zip_right g3 (g2.mem_iff.1 hu)
    obtain ⟨v, hv, _⟩ := g4 _ hz
    exact (hq a ha cs g1 c hc _ _ _ hv).1
  refine ⟨path, hp, by simpa using h2, hpt', R, r1, ?_, r3, fun hso => ?_⟩
  · intro x hx
    rw [r2 x hx]
    simp only [condHolds_series hget]
  · have hsm := C26.slice_vs_map lib _ t (C25.runAdds_run adds hr) _ hso
    have hF := C25.runAdds_fin adds hk tagInv_empty rfl hr
    unfold C25.FinInv at hF
    obtain ⟨evs, e1, e2⟩ := r3
    refine ⟨evs, ?_, e2⟩
    rw [hpt', hsm, ← hmap, e1, GoMatcher.R.bind_ok, ← hF]
    cases t.fin <;> rfl

/-- The hypotheses of the example: one query with a class, one with a negative condition, one without
conditions. -/
def exAdds : List (Str × Int) :=
  [(b!"seriesByTag(\"name=c[b-]*\",' dc !=~m')", 4), (b!"seriesByTag('name=c[b-]*')", 5), (b!"seriesByTag( )", 6)]

example : ∀ a ∈ exAdds, C25.QueryClear a.1 := by
  simp only [exAdds, List.mem_cons, List.not_mem_nil, or_false, forall_eq_or_imp, forall_eq]
  refine ⟨C25.queryClear_of (cs := [b!"name=c[b-]*", b!" dc !=~m"])
      ((args_iff _ 128 _).1 (by decide +kernel)).1 ?_,
    C25.queryClear_of (cs := [b!"name=c[b-]*"]) ((args_iff _ 128 _).1 (by decide +kernel)).1 ?_,
    C25.queryClear_of (cs := []) ((args_iff _ 128 _).1 (by decide +kernel)).1 (by simp)⟩
  · simp only [List.mem_cons, List.not_mem_nil, or_false, forall_eq_or_imp, forall_eq]
    exact ⟨⟨nameKey, .eq, b!"c[b-]*", (condText_iff _ _ _ _).2 (by rfl), by decide, fun _ => C25.exGlob_clear⟩,
      ⟨b!"dc", .nm, b!"m", (condText_iff _ _ _ _).2 (by rfl), by decide, by simp⟩⟩
  · simp only [List.mem_cons, List.not_mem_nil, or_false, forall_eq]
    exact ⟨nameKey, .eq, b!"c[b-]*", (condText_iff _ _ _ _).2 (by rfl), by decide, fun _ => C25.exGlob_clear⟩

example : SeriesText exAdds (b!"cb x") [(b!"dc", b!"p&q"), (b!"é", b!"я")] ∧
    TagsSorted (seriesTags (b!"cb x") [(b!"dc", b!"p&q"), (b!"é", b!"я")]) := by
  refine ⟨?_, by decide +kernel⟩
  rintro v (rfl | ⟨k, h⟩)
  · exact ⟨"cb x".toList, by decide +kernel, .inr (by decide)⟩
  · simp only [List.mem_cons, Prod.mk.injEq, List.not_mem_nil, or_false] at h
    rcases h with ⟨_, rfl⟩ | ⟨_, rfl⟩
    · exact ⟨"p&q".toList, by decide +kernel, .inr (by decide)⟩
    · exact ⟨"я".toList, by decide +kernel, .inr (by decide)⟩

example : tagPath 59 59 (b!"cb x") [(b!"dc", b!"p&q"), (b!"é", b!"я")] =
    .ok (b!"cb+x;dc=p%26q;%C3%A9=%D1%8F") := by decide +kernel
example : (pathTagsMap 59 59 (b!"cb+x;dc=p%26q;%C3%A9=%D1%8F")).1 =
    [(b!"__name__", b!"cb x"), (b!"dc", b!"p&q"), (b!"é", b!"я")] := by decide +kernel
example : C25.reportMap exAdds [(b!"__name__", b!"cb x"), (b!"dc", b!"p&q"), (b!"é", b!"я")] =
    some ([(b!"seriesByTag('__name__=cb*')", 5), (b!"seriesByTag('__name__=cb*','dc!=~m')", 4)], 2) := by
  decide +kernel

end C62
end GoMatcher
