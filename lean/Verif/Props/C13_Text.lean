import Verif.Props.C13_Written
import Verif.Props.C11_Text

/-! # C13: histories of arbitrary dotted texts

The calls may carry any texts, refused ones included. -/

namespace GoMatcher

/-- The reading of a part for which the part matcher is exact (C01) and for which the normal form
says what the part means (C07). -/
structure PartClear (ts : List Tok) : Prop where
  shape : Shape true .plain ts
  max : MaxOk ts
  notStar : ¬ ∀ cs, Fits ts cs ↔ cs = ['*']
  ok : ∀ t ∈ ts, t.Ok
  tidy : ∀ t ∈ ts, t.Tidy

/-- The text `s` has the parts `rs`, all of them clear. -/
def DottedClear (s : Str) (rs : List (List Char × List Tok)) : Prop :=
  DottedReads s rs ∧ ∀ r ∈ rs, PartClear r.2

/-- The text of a call: the argument of `Add`, or the text that was parsed to get the argument of
`AddGlob`. -/
def GOp.From (s : Str) : GOp → Prop
  | .add s' _ => s' = s
  | .addGlob g _ => parseGGlob s = .ok (.ok g)

theorem runOps_from {P : Str → Prop} (ops : List GOp) (hp : ∀ op ∈ ops, ∃ s, op.From s ∧ P s)
    (t0 t : GGlobTree) (L0 L : List (GGlob × Int))
    (h0 : ∀ x ∈ L0, ∃ s, P s ∧ parseGGlob s = .ok (.ok x.1))
    (h : runOps t0 L0 ops = .ok (t, L)) : ∀ x ∈ L, ∃ s, P s ∧ parseGGlob s = .ok (.ok x.1) := by
  induction ops generalizing t0 L0 with
  | nil =>
    simp only [runOps, R.ok.injEq, Prod.mk.injEq] at h
    obtain ⟨_, rfl⟩ := h
    exact h0
  | cons op ops ih =>
    rw [runOps] at h
    obtain ⟨r, _, h⟩ := R.bind_eq_ok.1 h
    refine ih (fun op ho => hp op (by simp [ho])) _ _ ?_ h
    intro x hx
    rcases List.mem_append.1 hx with hx | hx
    · exact h0 x hx
    · obtain ⟨s, h1, h2⟩ := hp op (by simp)
      cases op with
      | add s' i =>
        have h1 : s' = s := h1
        subst h1
        simp only [GOp.accepted] at hx
        split at hx
        · simp at hx
        · split at hx
          · rename_i g hg
            rw [List.mem_singleton] at hx
            subst hx
            exact ⟨s', h2, hg⟩
          · simp at hx
      | addGlob g i =>
        simp only [GOp.accepted] at hx
        split at hx
        · simp at hx
        · rw [List.mem_singleton] at hx
          subst hx
          exact ⟨s, h2, h1⟩

theorem PartClear.exact {ts : List Tok} (h : PartClear ts) {g : Glob} (hG : GlobOk ts g) {w : List Char}
    (hp : parseGlob (utf8 w) = .ok (.ok g)) {cs : List Char}
    (hcs : '[' ∉ w ∨ ∀ c ∈ cs, c.toNat ≠ 0xFFFD) :
    ∃ b, g.matches (utf8 cs) = .ok b ∧ (b = true ↔ Fits ts cs) := by
  obtain ⟨b, h1, h2, h3⟩ := matches_spec hG h.shape h.notStar cs
  exact ⟨b, h1, h2, h3 rfl (parse_clean hp hcs) h.max⟩

theorem PartClear.same {ts us : List Tok} (h : PartClear ts) (k : PartClear us) {g g' : Glob}
    (hG : GlobOk ts g) (hG' : GlobOk us g') (hn : g.node = g'.node) (cs : List Char) :
    Fits ts cs ↔ Fits us cs := by
  obtain ⟨a, a1, a2, a3, _⟩ := hG.text h.ok h.tidy
  obtain ⟨b, b1, b2, b3, _⟩ := hG'.text k.ok k.tidy
  rw [a2, b2] at hn
  rw [← a3, ← b3, renderGlob_inj a1 b1 (utf8_inj hn)]

/-- The parts of a parsed clear text. -/
theorem DottedClear.parts {s : Str} {rs : List (List Char × List Tok)} (h : DottedClear s rs)
    {g : GGlob} (hg : parseGGlob s = .ok (.ok g)) : rs.length = g.parts.length ∧
      ∀ x ∈ rs.zip g.parts, GlobOk x.1.2 x.2 ∧ parseGlob (utf8 x.1.1) = .ok (.ok x.2) := by
  obtain ⟨g', h1, h2, h3, _⟩ := h.1.parse
  rw [hg] at h1
  injection h1 with h1
  injection h1 with h1
  rw [h1]
  exact ⟨h2, h3⟩

theorem parts_nil {s : Str} (hs : s = [] ∨ s = b!".") {g : GGlob} (hg : parseGGlob s = .ok (.ok g)) :
    g.parts = [] := by
  obtain ⟨h1, _⟩ := parseGGlob_ok hg
  have : trimDot s = [] := by rcases hs with rfl | rfl <;> rfl
  rw [this, ggParseLoop] at h1
  injection h1 with h1
  injection h1 with h1
  exact h1.symm

theorem bracket_part {s : Str} {rs : List (List Char × List Tok)} (h : DottedReads s rs)
    (hb : (91 : UInt8) ∉ s) : ∀ r ∈ rs, '[' ∉ r.1 := by
  intro r hr hc
  apply hb
  have h1 : (91 : UInt8) ∈ utf8 r.1 := (mem_utf8_ascii (b := 91) (by decide) r.1).2 ⟨_, hc, rfl⟩
  have h2 : ∀ (ps : List Str) (b : UInt8) (p : Str), p ∈ ps → b ∈ p → b ∈ joinByte 46 ps := by
    intro ps b p
    induction ps with
    | nil => simp
    | cons q qs ih =>
      intro hp hb
      cases qs with
      | nil =>
        rw [List.mem_singleton] at hp
        subst hp
        exact hb
      | cons q' qs =>
        rw [joinByte_cons_cons, List.mem_append, List.mem_cons]
        rcases List.mem_cons.1 hp with rfl | hp
        · exact .inl hb
        · exact .inr (.inr (ih hp hb))
  have h3 := h2 (rs.map fun r => utf8 r.1) 91 _ (List.mem_map.2 ⟨r, hr, rfl⟩) h1
  rcases h.dotted.2.2 with e | e | e
  · rw [e]; exact h3
  · rw [e]; exact List.mem_append_left _ h3
  · rw [e]; exact List.mem_append_left _ h3

namespace C13

/-- Full statement (not true of the code): for histories of calls with arbitrary texts.  Here every
text is malformed (then refused), empty or a single dot, or has parts with clear readings.  A pair
is stored iff it belongs to an accepted glob that the path fits part by part, and no pair is stored
twice.  Missing: the other readings, see `same_node_wrong` and `literal_star_wrong`. -/
theorem text_exact_partial (ops : List GOp)
    (hops : ∀ op ∈ ops, ∃ s, op.From s ∧ ((∃ rs, DottedClear s rs) ∨ s = [] ∨ s = b!"." ∨
      ¬ ∃ ps, Dotted s ps ∧ ∀ p ∈ ps, Row GlobPiece p)) :
    ∃ t L, runTree ops = .ok (t, L) ∧
      ∀ ps : List (List Char), PathOk ps →
      ((∀ op ∈ ops, ∀ s, op.From s → (91 : UInt8) ∉ s) ∨ ∀ p ∈ ps, ∀ c ∈ p, c.toNat ≠ 0xFFFD) →
      ∀ path, path = dottedPath ps ∨ path = dottedPath ps ++ b!"." →
      ∃ evs, t.matches path = .ok (evs, evs.length) ∧ evs.Nodup ∧
        ∀ e, e ∈ evs ↔ ∃ x ∈ L, e = (x.1.node, x.2) ∧ ∃ s rs, parseGGlob s = .ok (.ok x.1) ∧
          DottedClear s rs ∧ DFits (rs.map Prod.snd) ps := by
  have hparsed : ∀ op ∈ ops, op.Parsed := by
    intro op ho
    obtain ⟨s, h1, _⟩ := hops op ho
    cases op with
    | add => trivial
    | addGlob g i => exact ⟨s, h1⟩
  obtain ⟨t, L, hr, hm⟩ := match_exact_partial ops hparsed
  have hdis := accepted_nodes_distinct ops hparsed t L hr
  refine ⟨t, L, hr, fun ps hps hff path hpath => ?_⟩
  obtain ⟨p1, p2, _⟩ := C11.path_split hps hpath
  have hL : ∀ x ∈ L, ∃ s, parseGGlob s = .ok (.ok x.1) ∧ ((∃ rs, DottedClear s rs) ∨ x.1.parts = []) ∧
      ((91 : UInt8) ∉ s ∨ ∀ p ∈ ps, ∀ c ∈ p, c.toNat ≠ 0xFFFD) := by
    intro x hx
    obtain ⟨s, ⟨h1, h2⟩, h3⟩ := runOps_from
      (P := fun s => ((∃ rs, DottedClear s rs) ∨ s = [] ∨ s = b!"." ∨
      ¬ ∃ ps, Dotted s ps ∧ ∀ p ∈ ps, Row GlobPiece p) ∧
        ((91 : UInt8) ∉ s ∨ ∀ p ∈ ps, ∀ c ∈ p, c.toNat ≠ 0xFFFD)) ops (by
        intro op ho
        obtain ⟨s, h1, h2⟩ := hops op ho
        exact ⟨s, h1, h2, hff.imp (fun h => h op ho s h1) id⟩) {} t [] L (by simp) hr x hx
    refine ⟨s, h3, ?_, h2⟩
    rcases h1 with h1 | h1 | h1 | h1
    · exact .inl h1
    · exact .inr (parts_nil (.inl h1) h3)
    · exact .inr (parts_nil (.inr h1) h3)
    · right
      rcases ((C53.accepted_iff s).1).1 ⟨_, h3⟩ with h | h | h
      · exact parts_nil (.inl h) h3
      · exact parts_nil (.inr h) h3
      · exact absurd h h1
  have hpart : ∀ x ∈ L, ∀ a ∈ x.1.parts, ∃ ts, PartClear ts ∧ GlobOk ts a ∧
      ∀ cs ∈ ps, ∃ b, a.matches (utf8 cs) = .ok b ∧ (b = true ↔ Fits ts cs) := by
    intro x hx a ha
    obtain ⟨s, h1, h2, h3⟩ := hL x hx
    rcases h2 with ⟨rs, h2⟩ | h2
    · obtain ⟨h4, h5⟩ := h2.parts h1
      obtain ⟨i, hi, rfl⟩ := List.mem_iff_getElem.1 ha
      have hi' : i < rs.length := by omega
      have h6 := h5 (rs[i], x.1.parts[i]) (by
        rw [List.mem_iff_getElem]
        exact ⟨i, by simp only [List.length_zip]; omega, by simp⟩)
      have hm : rs[i] ∈ rs := List.getElem_mem _
      refine ⟨_, h2.2 _ hm, h6.1, fun cs hcs => (h2.2 _ hm).exact h6.1 h6.2 ?_⟩
      exact h3.imp (fun h => bracket_part h2.1 h _ hm) (fun h => h cs hcs)
    · rw [h2] at ha
      simp at ha
  have hsplit : ∀ p ∈ pathSplit path, ∃ cs ∈ ps, p = utf8 cs := by
    intro p hp
    rw [p2] at hp
    obtain ⟨cs, h1, rfl⟩ := List.mem_map.1 hp
    exact ⟨cs, h1, rfl⟩
  have hF : Faithful L path := by
    refine ⟨?_, ?_, ?_⟩
    · intro x hx a ha p hp _
      obtain ⟨ts, _, _, h3⟩ := hpart x hx a ha
      obtain ⟨cs, hcs, rfl⟩ := hsplit p hp
      obtain ⟨b, hb, _⟩ := h3 cs hcs
      exact ⟨b, hb⟩
    · intro x hx a ha hi p hp _
      obtain ⟨ts, _, h2, h3⟩ := hpart x hx a ha
      obtain ⟨cs, hcs, rfl⟩ := hsplit p hp
      obtain ⟨b, hb, hb'⟩ := h3 cs hcs
      obtain ⟨w, hw, hf⟩ := h2.plain (List.eq_nil_of_length_eq_zero hi)
      rw [hb, hw]
      congr 1
      rw [Bool.eq_iff_iff, hb', hf, decide_eq_true_eq]
      exact ⟨fun h => by rw [h], fun h => (utf8_inj h).symm⟩
    · intro x hx y hy a ha b hb _ _ hn p hp _
      obtain ⟨ts, h1, h2, h3⟩ := hpart x hx a ha
      obtain ⟨us, k1, k2, k3⟩ := hpart y hy b hb
      obtain ⟨cs, hcs, rfl⟩ := hsplit p hp
      obtain ⟨u, hu, hu'⟩ := h3 cs hcs
      obtain ⟨v, hv, hv'⟩ := k3 cs hcs
      rw [hu, hv]
      congr 1
      rw [Bool.eq_iff_iff, hu', hv']
      exact h1.same k1 h2 k2 hn cs
  obtain ⟨evs, e1, e2⟩ := hm path hF
  refine ⟨evs, e1, ?_, ?_⟩
  · rw [e2.nodup_iff]
    apply List.Pairwise.map (R := fun x y => x.1.node ≠ y.1.node)
    · intro a b hab e
      exact hab (Prod.mk.inj e).1
    · exact hdis.filter _
  · intro e
    rw [e2.mem_iff, List.mem_map]
    have hfit : ∀ x ∈ L, ∀ s rs, parseGGlob s = .ok (.ok x.1) → DottedClear s rs →
        (partsMatch x.1 path = true ↔ DFits (rs.map Prod.snd) ps) := by
      intro x hx s rs hs hc
      obtain ⟨c1, c2⟩ := hc.parts hs
      have hP : ∀ z ∈ rs.zip x.1.parts, GlobOk z.1.2 z.2 ∧ z.2 ∈ x.1.parts :=
        fun z hz => ⟨(c2 z hz).1, (List.of_mem_zip hz).2⟩
      have own : ∀ r ∈ rs, ∀ a, GlobOk r.2 a ∧ a ∈ x.1.parts → ∀ p ∈ ps,
          (a.matches (utf8 p) = .ok true ↔ Fits r.2 p) := by
        intro r hr a ha p hp
        obtain ⟨ts, t1, t2, t3⟩ := hpart x hx a ha.2
        obtain ⟨b, hb, hb'⟩ := t3 p hp
        rw [hb, (hc.2 r hr).same t1 ha.1 t2 rfl p, ← hb']
        simp
      simp only [partsMatch, p2, Bool.and_eq_true, decide_eq_true_eq, List.all_eq_true,
        List.length_map, List.zip_map_right, List.zip_map_left, List.mem_map, DFits, ← c1]
      constructor
      · rintro ⟨⟨_, h1⟩, h2⟩
        refine ⟨h1, ?_⟩
        rintro _ ⟨z, hz, rfl⟩
        exact zip_mem_of (Q := fun (a : Glob) (p : List Char) => utf8 p ≠ [] ∧ a.matches (utf8 p) = .ok true)
          (P := fun (r : List Char × List Tok) a => GlobOk r.2 a ∧ a ∈ x.1.parts)
          (T := fun r p => p ≠ [] ∧ Fits r.2 p) c1 hP (fun r hr a ha p hp hq => by
            refine ⟨by intro e; exact hq.1 (by simp [e]), (own r hr a ha p hp).1 hq.2⟩) (fun x hx => by
              have := h2 _ ⟨x, hx, rfl⟩
              simpa using this) z hz
      · rintro ⟨h1, h2⟩
        refine ⟨⟨p1, h1⟩, ?_⟩
        rintro _ ⟨z, hz, rfl⟩
        have := zip_mem_of' (Q := fun (a : Glob) (p : List Char) => utf8 p ≠ [] ∧ a.matches (utf8 p) = .ok true)
          (P := fun (r : List Char × List Tok) a => GlobOk r.2 a ∧ a ∈ x.1.parts)
          (T := fun r p => p ≠ [] ∧ Fits r.2 p) c1 hP (fun r hr a ha p hp hq => by
            refine ⟨by simpa using hq.1, (own r hr a ha p hp).2 hq.2⟩)
            (fun z hz => h2 (z.1.2, z.2) ⟨z, hz, rfl⟩) z hz
        simpa using this
    constructor
    · rintro ⟨x, hx, rfl⟩
      rw [List.mem_filter] at hx
      refine ⟨x, hx.1, rfl, ?_⟩
      obtain ⟨s, h1, h2, _⟩ := hL x hx.1
      rcases h2 with ⟨rs, h2⟩ | h2
      · exact ⟨s, rs, h1, h2, (hfit x hx.1 s rs h1 h2).1 hx.2⟩
      · have h3 := hx.2
        simp only [partsMatch, h2, p2, Bool.and_eq_true, decide_eq_true_eq, List.length_map] at h3
        exact absurd (List.eq_nil_of_length_eq_zero h3.1.2.symm) hps.1
    · rintro ⟨x, hx, rfl, s, rs, h1, h2, h3⟩
      exact ⟨x, List.mem_filter.2 ⟨hx, (hfit x hx s rs h1 h2).2 h3⟩, rfl⟩

/-- The text of `C11.exReads` is clear; a malformed text; the same parts again with another number
of dots (refused as known). -/
example : ∀ op ∈ [GOp.add (b!"c[b-]*.x[]?..") 4, .add (b!"a..b") 5, .add (b!".") 6],
    ∃ s, op.From s ∧ ((∃ rs, DottedClear s rs) ∨ s = [] ∨ s = b!"." ∨
      ¬ ∃ ps, Dotted s ps ∧ ∀ p ∈ ps, Row GlobPiece p) := by
  have hc : DottedClear (b!"c[b-]*.x[]?..") C11.exReads := by
    refine ⟨C11.exReads_ok, ?_⟩
    have h : ∀ r ∈ C11.exReads, Shape true .plain r.2 ∧ MaxOk r.2 ∧ (∀ t ∈ r.2, t.Ok) ∧
      (∀ t ∈ r.2, t.Tidy) ∧ ∀ t ∈ r.2, t.noStarClass := by decide +kernel
    intro r hr
    obtain ⟨a, b, c, d, e⟩ := h r hr
    exact ⟨a, b, not_onlyStar r.2 c e, c, d⟩
  intro op ho
  simp only [List.mem_cons, List.not_mem_nil, or_false] at ho
  rcases ho with rfl | rfl | rfl
  · exact ⟨_, rfl, .inl ⟨_, hc⟩⟩
  · refine ⟨_, rfl, .inr (.inr (.inr fun h => ?_))⟩
    obtain ⟨g, hg⟩ := ((C53.accepted_iff (b!"a..b")).1).2 (.inr (.inr h))
    have : C53.refusal (b!"a..b") = some (.nodeEmpty (b!"a..b")) := by decide +kernel
    unfold C53.refusal at this
    rw [hg] at this
    simp at this
  · exact ⟨_, rfl, .inr (.inr (.inl rfl))⟩

example : report [.add (b!"c[b-]*.x[]?..") 4, .add (b!"a..b") 5, .add (b!".") 6] (b!"cb1.xя") =
    some ([(b!"cb*.x?", 4)], 1) := by decide +kernel

end C13
end GoMatcher
