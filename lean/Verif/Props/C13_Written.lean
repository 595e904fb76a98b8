import Verif.Props.C13_C15_GTree
import Verif.Props.C07_Node

/-! # C13 for written globs -/

namespace GoMatcher

/-- A part of a dotted glob for which the part matcher is exact (C01) and whose normal form can
be read back (C07). -/
structure PartGood (ts : List Tok) : Prop where
  ok : PartOk ts
  tidy : ∀ t ∈ ts, t.Tidy
  shape : Shape true .plain ts
  max : MaxOk ts
  noStar : ∀ t ∈ ts, t.noStarClass

theorem PartGood.exact {ts : List Tok} (h : PartGood ts) {g : Glob} (hG : GlobOk ts g)
    (hp : parseGlob (utf8 (renderGlob ts)) = .ok (.ok g)) {cs : List Char}
    (hcs : '[' ∉ renderGlob ts ∨ ∀ c ∈ cs, c.toNat ≠ 0xFFFD) :
    ∃ b, g.matches (utf8 cs) = .ok b ∧ (b = true ↔ Fits ts cs) := by
  obtain ⟨b, h1, h2, h3⟩ := matches_spec hG h.shape (not_onlyStar ts h.ok.1 h.noStar) cs
  exact ⟨b, h1, h2, h3 rfl (parse_clean hp hcs) h.max⟩

/-- Equal normal forms, equal meaning. -/
theorem PartGood.same {ts us : List Tok} (h : PartGood ts) (k : PartGood us) {g g' : Glob}
    (hG : GlobOk ts g) (hG' : GlobOk us g') (hn : g.node = g'.node) (cs : List Char) :
    Fits ts cs ↔ Fits us cs := by
  obtain ⟨a, a1, a2, a3, _⟩ := hG.text h.ok.1 h.tidy
  obtain ⟨b, b1, b2, b3, _⟩ := hG'.text k.ok.1 k.tidy
  rw [a2, b2] at hn
  rw [← a3, ← b3, renderGlob_inj a1 b1 (utf8_inj hn)]

/-- A parsed glob with the tokens of its parts. -/
def IsDotted (gts : List (List Tok)) (g : GGlob) : Prop :=
  g.glob = dottedText gts ∧ gts.length = g.parts.length ∧ ∀ x ∈ gts.zip g.parts,
    GlobOk x.1 x.2 ∧ parseGlob (utf8 (renderGlob x.1)) = .ok (.ok x.2)

theorem IsDotted.part {gts : List (List Tok)} {g : GGlob} (h : IsDotted gts g) {a : Glob}
    (ha : a ∈ g.parts) : ∃ ts ∈ gts, GlobOk ts a ∧ parseGlob (utf8 (renderGlob ts)) = .ok (.ok a) := by
  obtain ⟨i, hi, rfl⟩ := List.mem_iff_getElem.1 ha
  have hi' : i < gts.length := by rw [h.2.1]; exact hi
  exact ⟨gts[i], List.getElem_mem _, h.2.2 (gts[i], g.parts[i]) (by
    rw [List.mem_iff_getElem]
    exact ⟨i, by simp only [List.length_zip]; omega, by simp⟩)⟩

/-- The calls `Add(glob, index)` for written globs. -/
def addOps (adds : List (List (List Tok) × Int)) : List GOp :=
  adds.map fun x => .add (dottedText x.1) x.2

/-- The accepted calls, as a sublist of the written globs. -/
theorem runOps_written (adds : List (List (List Tok) × Int))
    (hgood : ∀ x ∈ adds, x.1 ≠ [] ∧ ∀ ts ∈ x.1, PartGood ts) (t0 t : GGlobTree)
    (L0 L : List (GGlob × Int)) (W0 : List (List (List Tok) × Int))
    (h0 : L0.length = W0.length ∧ ∀ z ∈ L0.zip W0, z.1.2 = z.2.2 ∧ IsDotted z.2.1 z.1.1)
    (h : runOps t0 L0 (addOps adds) = .ok (t, L)) :
    ∃ W, W.Sublist adds ∧ L.length = (W0 ++ W).length ∧
      ∀ z ∈ L.zip (W0 ++ W), z.1.2 = z.2.2 ∧ IsDotted z.2.1 z.1.1 := by
  induction adds generalizing t0 L0 W0 with
  | nil =>
    simp only [addOps, List.map_nil, runOps, R.ok.injEq, Prod.mk.injEq] at h
    obtain ⟨_, rfl⟩ := h
    exact ⟨[], List.Sublist.refl _, by simpa using h0.1, by simpa using h0.2⟩
  | cons x adds ih =>
    obtain ⟨t', r, h1, h2⟩ := apply_cases t0 (.add (dottedText x.1) x.2) trivial
    simp only [addOps, List.map_cons, runOps, h1, R.bind_ok] at h
    obtain ⟨hne, hg⟩ := hgood x (by simp)
    obtain ⟨g, hp, hgl, hl, hG, _, _, _, hP⟩ := dotted_parse x.1 hne (fun ts h => (hg ts h).ok)
    have hacc : GOp.accepted r (.add (dottedText x.1) x.2) = [] ∨
        GOp.accepted r (.add (dottedText x.1) x.2) = [(g, x.2)] := by
      by_cases hc : r.err.isSome = true ∨ dottedText x.1 = []
      · exact .inl (by simp only [GOp.accepted]; rw [if_pos hc])
      · exact .inr (by simp only [GOp.accepted]; rw [if_neg hc, hp])
    have hgood' : ∀ y ∈ adds, y.1 ≠ [] ∧ ∀ ts ∈ y.1, PartGood ts := fun y hy => hgood y (by simp [hy])
    rcases hacc with e | e
    · rw [e, List.append_nil] at h
      obtain ⟨W, w1, w2⟩ := ih hgood' _ _ _ h0 h
      exact ⟨W, w1.cons _, w2⟩
    · rw [e] at h
      obtain ⟨W, w1, w2⟩ := ih hgood' _ (L0 ++ [(g, x.2)]) (W0 ++ [x]) ⟨by simp [h0.1], by
        rw [List.zip_append h0.1]
        intro z hz
        rcases List.mem_append.1 hz with hz | hz
        · exact h0.2 z hz
        · simp only [List.zip_cons_cons, List.zip_nil_right, List.mem_singleton] at hz
          subst hz
          exact ⟨rfl, hgl, hl, fun x hx => ⟨hG x hx, hP x hx⟩⟩⟩ h
      refine ⟨x :: W, w1.cons_cons _, ?_⟩
      simpa using w2

theorem faithful_written {L : List (GGlob × Int)} {W : List (List (List Tok) × Int)}
    (hl : L.length = W.length) (hz : ∀ z ∈ L.zip W, z.1.2 = z.2.2 ∧ IsDotted z.2.1 z.1.1)
    (hW : ∀ x ∈ W, ∀ ts ∈ x.1, PartGood ts) {ps : List (List Char)} {path : Str}
    (hsp : pathSplit path = ps.map utf8)
    (hff : (∀ x ∈ W, ∀ ts ∈ x.1, '[' ∉ renderGlob ts) ∨ ∀ p ∈ ps, ∀ c ∈ p, c.toNat ≠ 0xFFFD) :
    Faithful L path := by
  have hpart : ∀ x ∈ L, ∀ a ∈ x.1.parts, ∃ ts, PartGood ts ∧ GlobOk ts a ∧
      parseGlob (utf8 (renderGlob ts)) = .ok (.ok a) ∧
      ('[' ∉ renderGlob ts ∨ ∀ p ∈ ps, ∀ c ∈ p, c.toNat ≠ 0xFFFD) := by
    intro x hx a ha
    obtain ⟨i, hi, rfl⟩ := List.mem_iff_getElem.1 hx
    have hi' : i < W.length := by omega
    have := hz (L[i], W[i]) (by
      rw [List.mem_iff_getElem]
      exact ⟨i, by simp only [List.length_zip]; omega, by simp⟩)
    obtain ⟨ts, h1, h2, h3⟩ := this.2.part ha
    exact ⟨ts, hW _ (List.getElem_mem _) ts h1, h2, h3,
      hff.imp (fun h => h _ (List.getElem_mem _) ts h1) id⟩
  have hpath : ∀ p ∈ pathSplit path, ∃ cs ∈ ps, p = utf8 cs := by
    intro p hp
    rw [hsp] at hp
    obtain ⟨cs, h1, rfl⟩ := List.mem_map.1 hp
    exact ⟨cs, h1, rfl⟩
  refine ⟨?_, ?_, ?_⟩
  · intro x hx a ha p hp _
    obtain ⟨ts, h1, h2, h3, h4⟩ := hpart x hx a ha
    obtain ⟨cs, hcs, rfl⟩ := hpath p hp
    obtain ⟨b, hb, _⟩ := h1.exact h2 h3 (h4.imp id fun h => h cs hcs)
    exact ⟨b, hb⟩
  · intro x hx a ha hi p hp _
    obtain ⟨ts, h1, h2, h3, h4⟩ := hpart x hx a ha
    obtain ⟨cs, hcs, rfl⟩ := hpath p hp
    obtain ⟨b, hb, hb'⟩ := h1.exact h2 h3 (h4.imp id fun h => h cs hcs)
    obtain ⟨w, hw, hf⟩ := h2.plain (List.eq_nil_of_length_eq_zero hi)
    rw [hb, hw]
    congr 1
    rw [Bool.eq_iff_iff, hb', hf, decide_eq_true_eq]
    exact ⟨fun h => by rw [h], fun h => (utf8_inj h).symm⟩
  · intro x hx y hy a ha b hb _ _ hn p hp _
    obtain ⟨ts, h1, h2, h3, h4⟩ := hpart x hx a ha
    obtain ⟨us, k1, k2, k3, k4⟩ := hpart y hy b hb
    obtain ⟨cs, hcs, rfl⟩ := hpath p hp
    obtain ⟨u, hu, hu'⟩ := h1.exact h2 h3 (h4.imp id fun h => h cs hcs)
    obtain ⟨v, hv, hv'⟩ := k1.exact k2 k3 (k4.imp id fun h => h cs hcs)
    rw [hu, hv]
    congr 1
    rw [Bool.eq_iff_iff, hu', hv']
    exact h1.same k1 h2 k2 hn cs

theorem partsMatch_written {gts : List (List Tok)} (hg : ∀ ts ∈ gts, PartGood ts) {g : GGlob}
    (h : IsDotted gts g) {ps : List (List Char)} {path : Str} (h0 : path ≠ [])
    (hsp : pathSplit path = ps.map utf8)
    (hff : (∀ ts ∈ gts, '[' ∉ renderGlob ts) ∨ ∀ p ∈ ps, ∀ c ∈ p, c.toNat ≠ 0xFFFD) :
    partsMatch g path = true ↔ DFits gts ps := by
  obtain ⟨_, hl, hG⟩ := h
  simp only [partsMatch, hsp, Bool.and_eq_true, decide_eq_true_eq, List.all_eq_true,
    List.length_map, List.zip_map_right, List.mem_map, DFits, ← hl]
  constructor
  · rintro ⟨⟨_, h1⟩, h2⟩
    refine ⟨h1, ?_⟩
    exact zip_mem_of (Q := fun (a : Glob) (p : List Char) => utf8 p ≠ [] ∧ a.matches (utf8 p) = .ok true)
      (P := fun ts a => GlobOk ts a ∧ parseGlob (utf8 (renderGlob ts)) = .ok (.ok a))
      (T := fun ts p => p ≠ [] ∧ Fits ts p) hl hG (fun ts hts a ha p hp hq => by
        refine ⟨by intro e; exact hq.1 (by simp [e]), ?_⟩
        obtain ⟨b, hb, hb'⟩ := (hg ts hts).exact ha.1 ha.2 (hff.imp (fun h => h ts hts) fun h => h p hp)
        rw [hb] at hq
        exact hb'.1 (by simpa using hq.2)) (fun x hx => by
          have := h2 _ ⟨x, hx, rfl⟩
          simpa using this)
  · rintro ⟨h1, h2⟩
    refine ⟨⟨h0, h1⟩, ?_⟩
    rintro _ ⟨x, hx, rfl⟩
    have := zip_mem_of' (Q := fun (a : Glob) (p : List Char) => utf8 p ≠ [] ∧ a.matches (utf8 p) = .ok true)
      (P := fun ts a => GlobOk ts a ∧ parseGlob (utf8 (renderGlob ts)) = .ok (.ok a))
      (T := fun ts p => p ≠ [] ∧ Fits ts p) hl hG (fun ts hts a ha p hp hq => by
        refine ⟨by simpa using hq.1, ?_⟩
        obtain ⟨b, hb, hb'⟩ := (hg ts hts).exact ha.1 ha.2 (hff.imp (fun h => h ts hts) fun h => h p hp)
        rw [hb, hb'.2 hq.2]) h2 x hx
    simpa using this

theorem filter_zip {α β γ : Type} (L : List α) (W : List β) (hl : L.length = W.length)
    (p : α → Bool) (q : β → Bool) (f : α → γ) (g : β → γ)
    (h : ∀ z ∈ L.zip W, p z.1 = q z.2 ∧ f z.1 = g z.2) :
    (L.filter p).map f = (W.filter q).map g := by
  induction L generalizing W with
  | nil => cases W <;> simp_all
  | cons a L ih =>
    cases W with
    | nil => simp at hl
    | cons b W =>
      simp only [List.zip_cons_cons, List.forall_mem_cons] at h
      have := ih W (by simpa using hl) h.2
      simp only [List.filter_cons, h.1.1]
      split
      · simp [this, h.1.2]
      · exact this

namespace C13

/-- Written globs: after any calls `Add(glob, index)` with tidy globs of the shapes of C01,
`Match` reports exactly the indices of the accepted globs that the path fits part by part, each
as often as it was accepted (once, see `accepted_nodes_distinct`).

Missing: the globs outside these shapes, see `same_node_wrong` and `literal_star_wrong`, and the
globs for which C01 fails. -/
theorem written_exact_partial (adds : List (List (List Tok) × Int))
    (hgood : ∀ x ∈ adds, x.1 ≠ [] ∧ ∀ ts ∈ x.1, PartGood ts) :
    ∃ t L, ∃ W : List (List (List Tok) × Int), runTree (addOps adds) = .ok (t, L) ∧ W.Sublist adds ∧
      L.map (fun x => (x.1.glob, x.2)) = W.map (fun x => (dottedText x.1, x.2)) ∧
      ∀ ps : List (List Char), PathOk ps →
      ((∀ x ∈ adds, ∀ ts ∈ x.1, '[' ∉ renderGlob ts) ∨ ∀ p ∈ ps, ∀ c ∈ p, c.toNat ≠ 0xFFFD) →
      ∀ path, path = dottedPath ps ∨ path = dottedPath ps ++ b!"." →
      ∃ evs, t.matches path = .ok (evs, evs.length) ∧
        (evs.map Prod.snd).Perm ((W.filter fun x => DFits x.1 ps).map Prod.snd) := by
  obtain ⟨t, L, hr, hm⟩ := match_exact_partial (addOps adds) (by
    intro op hop
    obtain ⟨x, _, rfl⟩ := List.mem_map.1 hop
    trivial)
  obtain ⟨W, w1, w2, w3⟩ := runOps_written adds hgood {} t [] L [] (by simp) hr
  rw [List.nil_append] at w2 w3
  have hW : ∀ x ∈ W, ∀ ts ∈ x.1, PartGood ts := fun x hx => (hgood x (w1.mem hx)).2
  refine ⟨t, L, W, hr, w1, ?_, ?_⟩
  · have := filter_zip L W w2 (fun _ => true) (fun _ => true) (fun x => (x.1.glob, x.2))
      (fun x => (dottedText x.1, x.2)) (fun z hz => ⟨rfl, by
        obtain ⟨h1, h2, _⟩ := w3 z hz
        rw [h1, h2]⟩)
    rwa [List.filter_eq_self.2 (fun _ _ => rfl), List.filter_eq_self.2 (fun _ _ => rfl)] at this
  · intro ps hps hff path hpath
    obtain ⟨p1, p2, _⟩ := C11.path_split hps hpath
    obtain ⟨evs, e1, e2⟩ := hm path (faithful_written w2 w3 hW p2 (hff.imp (fun h x hx => h x (w1.mem hx)) id))
    refine ⟨evs, e1, ?_⟩
    have := e2.map Prod.snd
    rw [List.map_map] at this
    have e := filter_zip L W w2 (fun x => partsMatch x.1 path) (fun x => decide (DFits x.1 ps))
      (Prod.snd ∘ fun x => (x.1.node, x.2)) Prod.snd (fun z hz => by
        obtain ⟨h1, h2⟩ := w3 z hz
        refine ⟨?_, h1⟩
        rw [Bool.eq_iff_iff, decide_eq_true_eq]
        exact partsMatch_written (hW z.2 (List.of_mem_zip hz).2) h2 p1 p2
          (hff.imp (fun h => h _ (w1.mem (List.of_mem_zip hz).2)) id))
    rw [e] at this
    exact this

/-- `web*.{cpu,mem}.p[0-9]?` and `*.{mem,net}.[a-z]*`. -/
def exAdds : List (List (List Tok) × Int) :=
  [(C11.exGts, 7),
   ([[.sub .star], [.alt [['m', 'e', 'm'].map .lit, ['n', 'e', 't'].map .lit]],
     [.sub (.cls [.range 'a' 'z']), .sub .star]], 3)]

theorem exAdds_good : ∀ x ∈ exAdds, x.1 ≠ [] ∧ ∀ ts ∈ x.1, PartGood ts := by
  have h : ∀ x ∈ exAdds, x.1 ≠ [] ∧ ∀ ts ∈ x.1, PartOk ts ∧ (∀ t ∈ ts, t.Tidy) ∧
    Shape true .plain ts ∧ MaxOk ts ∧ ∀ t ∈ ts, t.noStarClass := by decide +kernel
  intro x hx
  refine ⟨(h x hx).1, fun ts hts => ?_⟩
  obtain ⟨a, b, c, d, e⟩ := (h x hx).2 ts hts
  exact ⟨a, b, c, d, e⟩

example : report (addOps exAdds) (b!"web1.mem.p5я.") =
    some ([(b!"web*.{cpu,mem}.p[0-9]?", 7), (b!"*.{mem,net}.[a-z]*", 3)], 2) := by decide +kernel
example : report (addOps exAdds) (b!"wfb1.mem.p5я.") =
    some ([(b!"*.{mem,net}.[a-z]*", 3)], 1) := by decide +kernel

end C13

end GoMatcher
