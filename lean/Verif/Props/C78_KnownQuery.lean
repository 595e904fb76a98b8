import Verif.Props.C26_C29_TagTree
import Verif.Props.C46_Stable

/-! # C78: a tree of tag queries recognises a query that is written in another way -/

namespace GoMatcher.C78

/-- The texts a tree filled by `Add` knows are texts given or normal texts of accepted queries. -/
theorem keys (lib : GoLib) (adds : List (Str × Int)) (t : GTagsTree) (L : List (List TTerm × Int))
    (h : runAdds lib {} [] adds = .ok (t, L)) :
    (∀ k, t.queries.get k ≠ none → ∃ q, ∃ x ∈ L, (q, x.2) ∈ adds ∧ parseSeriesByTag lib q = .ok (.ok x.1) ∧
      (k = q ∨ k = termsText x.1)) ∧
    ∀ x ∈ L, ∃ q, (q, x.2) ∈ adds ∧ parseSeriesByTag lib q = .ok (.ok x.1) := by
  suffices key : ∀ (adds all : List (Str × Int)) (t t' : GTagsTree) (L L' : List (List TTerm × Int)),
      (∀ a ∈ adds, a ∈ all) → runAdds lib t L adds = .ok (t', L') →
      (∀ k, t.queries.get k ≠ none → ∃ q, ∃ x ∈ L, (q, x.2) ∈ all ∧ parseSeriesByTag lib q = .ok (.ok x.1) ∧
        (k = q ∨ k = termsText x.1)) →
      (∀ x ∈ L, ∃ q, (q, x.2) ∈ all ∧ parseSeriesByTag lib q = .ok (.ok x.1)) →
      (∀ k, t'.queries.get k ≠ none → ∃ q, ∃ x ∈ L', (q, x.2) ∈ all ∧ parseSeriesByTag lib q = .ok (.ok x.1) ∧
        (k = q ∨ k = termsText x.1)) ∧
      ∀ x ∈ L', ∃ q, (q, x.2) ∈ all ∧ parseSeriesByTag lib q = .ok (.ok x.1) from
    key adds adds {} t [] L (fun a ha => ha) h (by simp [GoMap.get]) (by simp)
  intro adds all
  induction adds with
  | nil =>
    intro t t' L L' _ h h1 h2
    cases h
    exact ⟨h1, h2⟩
  | cons a adds ih =>
    intro t t' L L' ho h h1 h2
    rw [runAdds] at h
    obtain ⟨⟨t1, r⟩, e1, h⟩ := R.bind_eq_ok.1 h
    dsimp only at h
    by_cases hr : r.err ≠ none ∨ a.1 = []
    · have : tagAccepted lib a.1 a.2 r = [] := by
        unfold tagAccepted
        rw [if_pos]
        rcases hr with h | h
        · left; cases hh : r.err <;> simp_all
        · right; exact h
      rw [this, List.append_nil, C28.add_refused lib t t1 a.1 a.2 r e1 hr] at h
      exact ih _ _ _ _ (fun a h => ho a (by simp [h])) h h1 h2
    · simp only [not_or, Decidable.not_not] at hr
      obtain ⟨ts, a1, _, _, _, _, _, a7, _⟩ := C28.add_accepted lib t t1 a.1 a.2 hr.2 r e1 hr.1
      have : tagAccepted lib a.1 a.2 r = [(ts, a.2)] := by
        simp [tagAccepted, hr.1, hr.2, a1]
      rw [this] at h
      refine ih _ _ _ _ (fun a h => ho a (by simp [h])) h ?_ ?_
      rotate_left
      · intro x hx
        rcases List.mem_append.1 hx with hx | hx
        · exact h2 x hx
        · rw [List.mem_singleton.1 hx]
          exact ⟨a.1, ho a (by simp), a1⟩
      intro k hk
      by_cases hs : k = a.1
      · exact ⟨a.1, (ts, a.2), by simp, ho a (by simp), a1, .inl hs⟩
      by_cases hn : k = termsText ts
      · exact ⟨a.1, (ts, a.2), by simp, ho a (by simp), a1, .inr hn⟩
      rw [a7 k hs hn] at hk
      obtain ⟨q, x, hx, p⟩ := h1 k hk
      exact ⟨q, x, by simp [hx], p⟩

/-- The conditions of a query: key, operator and value, globs in their normal form. -/
def conditions (ts : List TTerm) : List (Str × TagOp × Str) := ts.map TTerm.id

/-- Queries with the same conditions, in whatever order, have the same normal text. -/
theorem same_text (lib : GoLib) {q u : Str} {ts us : List TTerm} (hq : parseSeriesByTag lib q = .ok (.ok ts))
    (hu : parseSeriesByTag lib u = .ok (.ok us)) (h : (conditions ts).Perm (conditions us)) :
    termsText ts = termsText us :=
  termsText_ids (sorted_ids_unique (parseSeriesByTag_inv hq).2.1 (parseSeriesByTag_inv hu).2.1 h)

theorem query_ne {lib : GoLib} {u : Str} {us : List TTerm} (hu : parseSeriesByTag lib u = .ok (.ok us)) :
    u ≠ [] := by
  rintro rfl
  have : ∃ e, parseSeriesByTag lib [] = .ok (.error e) := ⟨_, rfl⟩
  obtain ⟨e, he⟩ := this
  rw [hu] at he
  simp at he

/-- Every query text: with a free index a query that has the conditions of an accepted query, in any
order, is refused with `ErrGlobExist`, without a panic, and nothing changes. -/
theorem same_refused (lib : GoLib) (adds : List (Str × Int)) (t : GTagsTree) (L : List (List TTerm × Int))
    (h : runAdds lib {} [] adds = .ok (t, L)) (u : Str) (us : List TTerm)
    (hu : parseSeriesByTag lib u = .ok (.ok us)) (x : List TTerm × Int) (hx : x ∈ L)
    (hs : (conditions x.1).Perm (conditions us)) (j : Int) (hj : 0 ≤ j) (hfree : ∀ x ∈ L, x.2 ≠ j) :
    ∃ r, t.add lib u j = .ok (t, r) ∧ r.err = some .globExist := by
  obtain ⟨b1, b2⟩ := C28.books_partial lib adds t L h
  have hne : u ≠ [] := query_ne hu
  have hidx : t.queryIndex.get j = none := by
    cases hq : t.queryIndex.get j with
    | none => rfl
    | some q =>
      obtain ⟨ts, h1, _⟩ := (b1 j q).1 hq
      exact absurd rfl (hfree _ h1)
  obtain ⟨q, _, hq⟩ := (keys lib adds t L h).2 x hx
  have hb := b2 x hx
  rw [same_text lib hq hu hs] at hb
  unfold GTagsTree.add
  rw [if_neg hne, if_neg (by omega)]
  cases hk : t.queries.get u with
  | some n => exact ⟨_, rfl, rfl⟩
  | none =>
    dsimp only
    rw [hidx]
    dsimp only
    rw [hu, R.bind_ok]
    dsimp only
    rw [hb]
    exact ⟨_, rfl, rfl⟩

/-- Full statement (not true of the code): for all queries.  After any `Add` calls with queries whose
conditions can be printed and read back (C46), `Add` of another one with a free index reports
`ErrGlobExist` exactly if the tree holds a query with the same conditions in any order, and is accepted
otherwise. -/
theorem recognised_partial (lib : GoLib) (adds : List (Str × Int))
    (hadd : ∀ a ∈ adds, ∀ ts, parseSeriesByTag lib a.1 = .ok (.ok ts) → ∀ t ∈ ts, Printable t)
    (t : GTagsTree) (L : List (List TTerm × Int)) (h : runAdds lib {} [] adds = .ok (t, L)) (u : Str)
    (us : List TTerm) (hu : parseSeriesByTag lib u = .ok (.ok us)) (hp : ∀ t ∈ us, Printable t) (j : Int)
    (hj : 0 ≤ j) (hfree : ∀ x ∈ L, x.2 ≠ j) :
    ∃ t' r, t.add lib u j = .ok (t', r) ∧ (r.err = none ∨ r.err = some .globExist) ∧
      (r.err = some .globExist ↔ ∃ x ∈ L, (conditions x.1).Perm (conditions us)) := by
  obtain ⟨b1, b2⟩ := C28.books_partial lib adds t L h
  obtain ⟨k1, k2⟩ := keys lib adds t L h
  have hne : u ≠ [] := query_ne hu
  have hidx : t.queryIndex.get j = none := by
    cases hq : t.queryIndex.get j with
    | none => rfl
    | some q =>
      obtain ⟨ts, h1, _⟩ := (b1 j q).1 hq
      exact absurd rfl (hfree _ h1)
  obtain ⟨t', r, e1⟩ := C29.add_total_partial lib t u j (by
    intro ts hts x hx
    rw [hu] at hts
    simp only [R.ok.injEq, Except.ok.injEq] at hts
    exact (hp x (hts ▸ hx)).key)
  obtain ⟨_, _, _, q4, q5⟩ := C28.add_error lib t t' u j hne r e1
  have hex : r.err = some .globExist ↔ t.queries.get u ≠ none ∨ t.queries.get (termsText us) ≠ none := by
    rw [q4]
    constructor
    · rintro ⟨_, h | ⟨_, ts, hts, h⟩⟩
      · exact .inl h
      · rw [hu] at hts
        simp only [R.ok.injEq, Except.ok.injEq] at hts
        exact .inr (hts ▸ h)
    · rintro (h | h)
      · exact ⟨hj, .inl h⟩
      · exact ⟨hj, .inr ⟨hidx, us, hu, h⟩⟩
  refine ⟨t', r, e1, ?_, ?_⟩
  · by_cases hk : t.queries.get u ≠ none ∨ t.queries.get (termsText us) ≠ none
    · exact .inr (hex.2 hk)
    · simp only [ne_eq, not_or, Decidable.not_not] at hk
      exact .inl (q5.2 ⟨hj, hk.1, hidx, us, hu, hk.2⟩)
  constructor
  · intro hr
    have hk' : ∃ k, (k = u ∨ k = termsText us) ∧ t.queries.get k ≠ none := by
      rcases hex.1 hr with hk | hk
      · exact ⟨_, .inl rfl, hk⟩
      · exact ⟨_, .inr rfl, hk⟩
    obtain ⟨k, hku, hk⟩ := hk'
    obtain ⟨q, x, hx, hop, hq, hkq⟩ := k1 k hk
    have hpx := hadd _ hop x.1 hq
    have reads : ∀ (v : Str) (vs : List TTerm), parseSeriesByTag lib v = .ok (.ok vs) →
        (∀ t ∈ vs, Printable t) → k = v ∨ k = termsText vs →
        ∃ ks, parseSeriesByTag lib k = .ok (.ok ks) ∧ conditions ks = conditions vs := by
      intro v vs hv hpv hkv
      rcases hkv with rfl | rfl
      · exact ⟨vs, hv, rfl⟩
      · obtain ⟨ks, r1, r2, _⟩ := C46.reparse_partial lib v vs hv hpv
        exact ⟨ks, r1, r2⟩
    obtain ⟨ks, s1, s2⟩ := reads u us hu hp hku
    obtain ⟨ks', s1', s2'⟩ := reads q x.1 hq hpx hkq
    rw [s1] at s1'
    simp only [R.ok.injEq, Except.ok.injEq] at s1'
    refine ⟨x, hx, ?_⟩
    rw [← s2, ← s2', s1']
  · rintro ⟨x, hx, hs⟩
    obtain ⟨r', e2, e3⟩ := same_refused lib adds t L h u us hu x hx hs j hj hfree
    rw [e1] at e2
    simp only [R.ok.injEq, Prod.mk.injEq] at e2
    rw [e2.2, e3]

/-- `seriesByTag('b=[xy]', 'a=~y')`, then the conditions in another order, with other blanks, quotes and
another spelling of the class: refused; another value: accepted. -/
example : (do
    let (t, L) ← runAdds exLib {} [] [(b!"seriesByTag('b=[yx]', 'a=~y')", 3), (b!"seriesByTag('c=1')", 4)]
    let (_, r) ← t.add exLib (b!"seriesByTag(\"a =~ y\",'b=[x-y]')") 5
    let (_, r') ← t.add exLib (b!"seriesByTag('a=~y','b=[x-z]')") 5
    .ok (L.length = 2 ∧ r.err = some .globExist ∧ r.n = 3 ∧ r'.err = none : Bool) : R Bool) = .ok true := by
  decide +kernel

instance (t : TTerm) : Decidable (Printable t) :=
  decidable_of_iff (t.key ≠ [] ∧ (39 : UInt8) ∉ t.key ∧ (39 : UInt8) ∉ t.value ∧
      (t.op = .eq ∨ t.op = .ne → t.value.head? ≠ some 126) ∧
      (t.op = .eq ∨ t.op = .ne → trimSpace t.value = t.value) ∧
      (t.op = .eq ∨ t.op = .ne → hasWildcard t.value = true → normalForm t.value = .ok (.ok t.value)))
    ⟨fun ⟨a, b, c, d, e, f⟩ => ⟨a, b, c, d, e, f⟩, fun ⟨a, b, c, d, e, f⟩ => ⟨a, b, c, d, e, f⟩⟩

/-- The query has two conditions, and they can be printed and read back. -/
def printableTwo (q : Str) : Bool :=
  match parseSeriesByTag exLib q with
  | .ok (.ok ts) => decide (ts.length = 2 ∧ ∀ t ∈ ts, Printable t)
  | _ => false

example : printableTwo (b!"seriesByTag('b=[yx]', 'a=~y')") = true ∧
    printableTwo (b!"seriesByTag(\"a =~ y\",'b=[x-y]')") = true := by decide +kernel

/-- `seriesByTag('a=[*]')` is refused after `seriesByTag('a=*')`, though it is another query. -/
theorem other_query_wrong : (do
    let (t, _) ← runAdds exLib {} [] [(b!"seriesByTag('a=*')", 1)]
    let (_, r) ← t.add exLib (b!"seriesByTag('a=[*]')") 2
    .ok (r.err = some .globExist : Bool) : R Bool) = .ok true := by decide +kernel

end GoMatcher.C78
