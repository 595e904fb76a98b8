import Verif.Props.C53_Dotted
import Verif.Props.C08_Text

/-! # C11: all dotted glob texts

The theorems of `C11_C12_GGlob` are about written globs.  Here a dotted glob is any text: parts
with a reading (`Spec/GlobText`), with dots between them and up to two dots at the end. -/

namespace GoMatcher

/-- `w` can be a part of a dotted glob and is read as `ts`. -/
def PartReads (w : List Char) (ts : List Tok) : Prop :=
  (∀ c ∈ w, c.toNat ≠ 0xFFFD ∧ c.toNat ≠ 0) ∧ w ≠ [] ∧ '.' ∉ w ∧ Reading w ts

/-- `s` is the text of the parts `rs`, given with their readings. -/
def DottedReads (s : Str) (rs : List (List Char × List Tok)) : Prop :=
  rs ≠ [] ∧ (∀ r ∈ rs, PartReads r.1 r.2) ∧
    (s = dottedPath (rs.map Prod.fst) ∨ s = dottedPath (rs.map Prod.fst) ++ b!"." ∨
      s = dottedPath (rs.map Prod.fst) ++ b!"..")

theorem DottedReads.dotted {s : Str} {rs : List (List Char × List Tok)} (h : DottedReads s rs) :
    Dotted s (rs.map fun r => utf8 r.1) := by
  obtain ⟨h1, h2, h3⟩ := h
  refine ⟨by simpa using h1, ?_, ?_⟩
  · intro p hp
    obtain ⟨r, hr, rfl⟩ := List.mem_map.1 hp
    obtain ⟨_, h4, h5, _⟩ := h2 r hr
    exact ⟨by simpa using h4, by rw [dot_mem_utf8]; exact h5⟩
  · simpa only [dottedPath, List.map_map, Function.comp_def] using h3

theorem DottedReads.parse {s : Str} {rs : List (List Char × List Tok)} (h : DottedReads s rs) :
    ∃ g, parseGGlob s = .ok (.ok g) ∧ rs.length = g.parts.length ∧
      (∀ x ∈ rs.zip g.parts, GlobOk x.1.2 x.2 ∧ parseGlob (utf8 x.1.1) = .ok (.ok x.2)) ∧
      g.minLen = g.parts.foldl (fun n g => n + g.minLen) 0 ∧
      g.maxLen = g.parts.foldl (fun n g => addMaxLen n g.maxLen) 0 := by
  have hd := h.dotted
  have hacc : ∃ g, parseGGlob s = .ok (.ok g) := by
    rw [(C53.accepted_iff s).1]
    refine .inr (.inr ⟨_, hd, ?_⟩)
    intro p hp
    obtain ⟨r, hr, rfl⟩ := List.mem_map.1 hp
    obtain ⟨h3, _, _, h4⟩ := h.2.1 r hr
    obtain ⟨gl, h5, _⟩ := h4.parse h3
    exact ((C51.accepted_iff _).1).1 ⟨gl, h5⟩
  obtain ⟨g, hg⟩ := hacc
  obtain ⟨h1, h2, _⟩ := C53.parsed s _ hd g hg
  obtain ⟨_, _, _, h4, h5⟩ := parseGGlob_ok hg
  refine ⟨g, hg, by simpa using h1.symm, ?_, h4, h5⟩
  intro x hx
  have hp : parseGlob (utf8 x.1.1) = .ok (.ok x.2) := by
    apply h2 (x.2, utf8 x.1.1)
    rw [List.zip_map_right, List.mem_map]
    refine ⟨(x.2, x.1), ?_, rfl⟩
    obtain ⟨i, hi, e⟩ := List.mem_iff_getElem.1 hx
    simp only [List.length_zip] at hi
    rw [List.mem_iff_getElem]
    refine ⟨i, by simp only [List.length_zip]; omega, ?_⟩
    rw [← e]
    simp
  obtain ⟨h6, _, _, h7⟩ := h.2.1 x.1 (List.of_mem_zip hx).1
  exact ⟨h7.globOk h6 hp, hp⟩

namespace C11

/-- Soundness for all texts whose parts have readings of the weaker shape: a matched path fits part
by part.  Missing: other readings (see C02), parts that describe just the text `*`. -/
theorem match_sound_text_partial {ex : Bool} (s : Str) (rs : List (List Char × List Tok))
    (hs : DottedReads s rs) (hshape : ∀ r ∈ rs, Shape ex .plain r.2)
    (hstar : ∀ r ∈ rs, ¬ ∀ cs, Fits r.2 cs ↔ cs = ['*'])
    (ps : List (List Char)) (hps : PathOk ps)
    (path : Str) (hpath : path = dottedPath ps ∨ path = dottedPath ps ++ b!".") :
    ∃ b, ggMatchText s path = .ok (.ok b) ∧ (b = true → DFits (rs.map Prod.snd) ps) := by
  obtain ⟨g, hg, hl, hG, _⟩ := hs.parse
  obtain ⟨p1, p2, p3⟩ := path_split hps hpath
  have hsafe : ∃ b, g.matches path = .ok b := by
    apply match_ok
    intro a ha p _ _
    obtain ⟨i, hi, rfl⟩ := List.mem_iff_getElem.1 ha
    have hi' : i < rs.length := by omega
    have := hG (rs[i], g.parts[i]) (by
      rw [List.mem_iff_getElem]
      exact ⟨i, by simp only [List.length_zip]; omega, by simp⟩)
    exact matches_safe this.1 (hshape _ (List.getElem_mem _)) p
  obtain ⟨b, hb⟩ := hsafe
  refine ⟨b, by unfold ggMatchText; rw [hg]; simp only [R.bind_ok]; rw [hb]; rfl, ?_⟩
  rintro rfl
  rw [match_iff] at hb
  obtain ⟨_, b2, b3, _⟩ := hb
  rw [p2] at b2 b3
  refine ⟨by rw [List.length_map, hl, b2]; simp, ?_⟩
  have := zip_mem_of (Q := fun (g : Glob) (p : Str) => p ≠ [] ∧ g.matches p = .ok true)
    (P := fun (r : List Char × List Tok) g => GlobOk r.2 g ∧ parseGlob (utf8 r.1) = .ok (.ok g))
    (T := fun r (p : Str) => ∀ q ∈ ps, p = utf8 q → q ≠ [] ∧ Fits r.2 q) hl hG
    (fun r hr g hg p hp hq q hq' e => by
      subst e
      refine ⟨by intro h; exact hq.1 (by simp [h]), ?_⟩
      obtain ⟨b, hb, hs, _⟩ := matches_spec hg.1 (hshape r hr) (hstar r hr) q
      rw [hb] at hq
      exact hs (by simpa using hq.2)) b3
  intro x hx
  rw [List.zip_map_left, List.mem_map] at hx
  obtain ⟨y, hy, rfl⟩ := hx
  have hm : (y.1, utf8 y.2) ∈ rs.zip (ps.map utf8) := by
    rw [List.zip_map_right, List.mem_map]
    exact ⟨y, hy, rfl⟩
  exact this _ hm y.2 (List.of_mem_zip hy).2 rfl

/-- Full statement (not true of the code): for every text with a reading and every path.  Missing:
readings for which C01 fails, and globs of several parts that all bound the length
(`dots_not_counted`). -/
theorem match_exact_text_partial (s : Str) (rs : List (List Char × List Tok))
    (hs : DottedReads s rs) (hshape : ∀ r ∈ rs, Shape true .plain r.2) (hmax : ∀ r ∈ rs, MaxOk r.2)
    (hstar : ∀ r ∈ rs, ¬ ∀ cs, Fits r.2 cs ↔ cs = ['*'])
    (hlen : rs.length = 1 ∨ ∃ r ∈ rs, Unbounded r.2)
    (ps : List (List Char)) (hps : PathOk ps)
    (hff : ∀ x ∈ rs.zip ps, '[' ∉ x.1.1 ∨ ∀ c ∈ x.2, c.toNat ≠ 0xFFFD)
    (path : Str) (hpath : path = dottedPath ps ∨ path = dottedPath ps ++ b!".") :
    ∃ b, ggMatchText s path = .ok (.ok b) ∧ (b = true ↔ DFits (rs.map Prod.snd) ps) := by
  obtain ⟨b, hb, hsd⟩ := match_sound_text_partial s rs hs hshape hstar ps hps path hpath
  refine ⟨b, hb, hsd, ?_⟩
  intro hD
  obtain ⟨g, hg, hl, hG, hmn, hmx⟩ := hs.parse
  obtain ⟨p1, p2, p3⟩ := path_split hps hpath
  unfold ggMatchText at hb
  rw [hg] at hb
  simp only [R.bind_ok] at hb
  suffices h : g.matches path = .ok true by
    rw [h] at hb
    simpa using hb.symm
  rw [match_iff]
  obtain ⟨d1, d2⟩ := hD
  rw [List.length_map] at d1
  have d2' : ∀ x ∈ rs.zip ps, x.2 ≠ [] ∧ Fits x.1.2 x.2 := by
    intro x hx
    apply d2 (x.1.2, x.2)
    rw [List.zip_map_left, List.mem_map]
    exact ⟨x, hx, rfl⟩
  have hlp : g.parts.length = ps.length := by rw [← hl, d1]
  have hmin : ∀ x ∈ g.parts.zip ps, x.1.minLen ≤ ((utf8 x.2).length : Int) :=
    zip_mem_of' (Q := fun g p => g.minLen ≤ ((utf8 p).length : Int))
      (P := fun (r : List Char × List Tok) g => GlobOk r.2 g ∧ parseGlob (utf8 r.1) = .ok (.ok g))
      (T := fun (r : List Char × List Tok) p => p ≠ [] ∧ Fits r.2 p) hl hG
      (fun r _ g hg p _ h => hg.1.min p h.2) d2'
  have hsum : ∀ (gs : List Glob) (ps : List (List Char)), gs.length = ps.length →
      (∀ x ∈ gs.zip ps, x.1.minLen ≤ ((utf8 x.2).length : Int)) →
      (gs.map Glob.minLen).sum ≤ (((ps.map utf8).map List.length).sum : Int) := by
    intro gs
    induction gs with
    | nil => intro ps h _; cases ps <;> simp_all
    | cons g gs ih =>
      intro ps h hx
      cases ps with
      | nil => simp at h
      | cons p ps =>
        simp only [List.zip_cons_cons, List.forall_mem_cons] at hx
        have := ih ps (by simpa using h) hx.2
        simp only [List.map_cons, List.sum_cons] at this ⊢
        omega
  have hpl : (((ps.map utf8).map List.length).sum : Int) ≤ ((dottedPath ps).length : Int) := by
    have := joinByte_length_ge (ps.map utf8)
    unfold dottedPath
    omega
  refine ⟨p1, by rw [p2]; simpa using hlp, ?_, ?_, ?_⟩
  · rw [p2]
    have := zip_mem_of' (Q := fun (g : Glob) (p : List Char) => utf8 p ≠ [] ∧ g.matches (utf8 p) = .ok true)
      (P := fun (r : List Char × List Tok) g => GlobOk r.2 g ∧ parseGlob (utf8 r.1) = .ok (.ok g))
      (T := fun r p => (p ≠ [] ∧ Fits r.2 p) ∧ ('[' ∉ r.1 ∨ ∀ c ∈ p, c.toNat ≠ 0xFFFD))
      hl hG (fun r hr g hg p _ h => by
        refine ⟨by simpa using h.1.1, ?_⟩
        obtain ⟨b, hb, _, he⟩ := matches_spec hg.1 (hshape r hr) (hstar r hr) p
        rw [hb, he rfl (parse_clean hg.2 h.2) (hmax r hr) h.1.2]) (fun x hx => ⟨d2' x hx, hff x hx⟩)
    intro x hx
    rw [List.zip_map_right, List.mem_map] at hx
    obtain ⟨y, hy, rfl⟩ := hx
    exact this y hy
  · rw [p3, hmn, foldl_min]
    have := hsum g.parts ps hlp hmin
    omega
  · rw [p3, hmx]
    have hat : ∀ i (hi : i < rs.length) (hi' : i < g.parts.length), GlobOk rs[i].2 g.parts[i] := by
      intro i hi hi'
      exact (hG (rs[i], g.parts[i]) (by
        rw [List.mem_iff_getElem]
        exact ⟨i, by simp only [List.length_zip]; omega, by simp⟩)).1
    rcases hlen with h1 | ⟨r, hr, hu⟩
    · have h0 := hat 0 (by omega) (by omega)
      have hf := d2' (rs[0], ps[0]'(by omega)) (by
        rw [List.mem_iff_getElem]
        exact ⟨0, by simp only [List.length_zip]; omega, by simp⟩)
      have hm := hmax rs[0] (List.getElem_mem _)
      have eg : g.parts = [g.parts[0]'(by omega)] := List.ext_getElem (by simp; omega) (by
        intro i hi hi'
        have : i = 0 := by simp at hi'; omega
        subst this
        simp)
      have ep : ps = [ps[0]'(by omega)] := List.ext_getElem (by simp; omega) (by
        intro i hi hi'
        have : i = 0 := by simp at hi'; omega
        subst this
        simp)
      have e1 : (dottedPath ps).length = (utf8 (ps[0]'(by omega))).length := by
        conv => lhs; rw [ep]
        rfl
      rw [e1, eg]
      simp only [List.foldl_cons, List.foldl_nil]
      rcases h0.max hm with h | h
      · left; simp [addMaxLen, h]
      · right
        have := h _ hf.2
        dsimp only at this
        unfold addMaxLen
        split <;> omega
    · left
      rw [foldl_max_inf]
      · simp
      · right
        obtain ⟨i, hi, rfl⟩ := List.mem_iff_getElem.1 hr
        have hi' : i < g.parts.length := by omega
        refine ⟨g.parts[i], List.getElem_mem _, ?_⟩
        rcases (hat i hi hi').max (hmax _ hr) with h | h
        · exact h
        · obtain ⟨cs, hf, hn⟩ := hu g.parts[i].maxLen.toNat
          have := h cs hf
          omega

/-- `c[b-]*` and `x[]?`: a class with a free dash, a class without members. -/
def exReads : List (List Char × List Tok) :=
  [("c[b-]*".toList, [.sub (.lit 'c'), .sub (.cls [.range 'b' 'b']), .sub .star]),
   ("x[]?".toList, [.sub (.lit 'x'), .sub .any])]

theorem exReads_ok : DottedReads (b!"c[b-]*.x[]?..") exReads := by
  refine ⟨by decide, ?_, .inr (.inr (by decide +kernel))⟩
  intro r hr
  rcases List.mem_cons.1 hr with rfl | hr
  · refine ⟨by decide, by decide, by decide, .inr ⟨[.lit 'c', .cls [.range 'b' 'b'], .star], ?_, rfl⟩⟩
    exact .cons (p := ['c']) (.lit (by decide)) (.cons (p := ['[', 'b', '-', ']'])
      (.cls (body := ['b', '-']) (es := [('b', 'b')])
        ⟨by decide, .trailing 0 (by decide) (by decide), by decide +kernel⟩ (by simp))
      (.cons (p := ['*']) .star .nil))
  · rw [List.mem_singleton.1 hr]
    refine ⟨by decide, by decide, by decide, .inr ⟨[.lit 'x', .any], ?_, rfl⟩⟩
    exact .cons (p := ['x']) (.lit (by decide)) (.empty (p := ['[', ']'])
      ⟨[], rfl, by decide, .nil, by decide⟩ (.cons (p := ['?']) .any .nil))

example : (∀ r ∈ exReads, Shape true .plain r.2) ∧ (∀ r ∈ exReads, MaxOk r.2) ∧
    (∀ r ∈ exReads, (∀ t ∈ r.2, t.Ok) ∧ ∀ t ∈ r.2, t.noStarClass) := by decide +kernel
example : DFits (exReads.map Prod.snd) ["cb01".toList, "xя".toList] ∧
    ggMatchText (b!"c[b-]*.x[]?..") (b!"cb01.xя.") = .ok (.ok true) ∧
    ggMatchText (b!"c[b-]*.x[]?..") (b!"cb01.x") = .ok (.ok false) := by decide +kernel

end C11
end GoMatcher
