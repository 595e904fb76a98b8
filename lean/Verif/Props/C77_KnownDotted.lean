import Verif.Proofs.NodeDots
import Verif.Props.C07_Pieces
import Verif.Props.C13_C15_GTree
import Verif.Props.C53_Dotted

/-! # C77: a tree of dotted globs recognises a glob that is written in another way -/

namespace GoMatcher.C77

/-- A part: tidy, no dot, only words in braces, and something is left of it when braces with nothing
inside are dropped. -/
structure Part (ts : List Tok) : Prop where
  ok : PartOk ts
  wordy : ∀ t ∈ ts, t.Wordy
  tidy : ∀ t ∈ ts, t.Tidy
  some : pieces ts ≠ []

/-- `s` is the dotted glob with the parts `gts`, with at most two more dots at the end. -/
structure Reads (s : Str) (gts : List (List Tok)) : Prop where
  ne : gts ≠ []
  parts : ∀ ts ∈ gts, Part ts
  written : s = dottedText gts ∨ s = dottedText gts ++ b!"." ∨ s = dottedText gts ++ b!".."

def text (ts : List Tok) : Str := utf8 (renderGlob ts)

noncomputable def form (ts : List Tok) : Str := formText (pieces ts)

theorem Part.form {ts : List Tok} (h : Part ts) : normalForm (text ts) = .ok (.ok (form ts)) :=
  C07.normalForm_pieces ts h.ok.1 h.wordy

theorem Part.again {ts : List Tok} (h : Part ts) : normalForm (C77.form ts) = .ok (.ok (C77.form ts)) := by
  obtain ⟨n, h1, h2⟩ := C07.idempotent_partial ts h.ok.1 h.wordy h.tidy
  rw [C07.normalForm_pieces ts h.ok.1 h.wordy] at h1
  simp only [R.ok.injEq, Except.ok.injEq] at h1
  show normalForm (formText _) = .ok (.ok (formText _))
  rw [h1]
  exact h2

theorem Reads.dotted {s : Str} {gts : List (List Tok)} (h : Reads s gts) : Dotted s (gts.map text) := by
  refine ⟨by simpa using h.ne, fun p hp => ?_, h.written⟩
  obtain ⟨ts, hts, rfl⟩ := List.mem_map.1 hp
  refine ⟨by simpa [text] using (h.parts ts hts).ok.2.1, ?_⟩
  unfold text
  rw [dot_mem_utf8]
  exact (h.parts ts hts).ok.2.2

/-- What is parsed. -/
theorem Reads.parse {s : Str} {gts : List (List Tok)} (h : Reads s gts) :
    ∃ g, parseGGlob s = .ok (.ok g) ∧ g.node = joinByte 46 (gts.map C77.form) ∧ Dotted g.node (gts.map C77.form) := by
  have hd := h.dotted
  obtain ⟨gs, g1, g2⟩ := parts_exist (gts.map text) (by
    intro p hp
    obtain ⟨ts, hts, rfl⟩ := List.mem_map.1 hp
    obtain ⟨g, hg, _⟩ := parse_spec ts (h.parts ts hts).ok.1
    exact ⟨(hd.2.1 _ hp).1, g, hg⟩)
  obtain ⟨s1, s2, _⟩ := hd.split
  obtain ⟨g, hg, _⟩ := parseGGlob_of_loop (s := s) (gs := gs)
    ((ggParseLoop_ok _ _ _ s1).2 (by rw [s2]; exact ⟨g1, g2⟩))
  obtain ⟨p1, p2, _, p4, _⟩ := C53.parsed s _ hd g hg
  have key : ∀ (gts : List (List Tok)) (gs : List Glob), (∀ ts ∈ gts, Part ts) → gs.length = (gts.map text).length →
      (∀ x ∈ gs.zip (gts.map text), parseGlob x.2 = .ok (.ok x.1)) → gs.map Glob.node = gts.map C77.form := by
    intro gts
    induction gts with
    | nil =>
      intro gs _ h _
      cases gs with
      | nil => rfl
      | cons => simp at h
    | cons ts gts ih =>
      intro gs hp hl hz
      cases gs with
      | nil => simp at hl
      | cons g gs =>
        rw [List.map_cons, List.map_cons, ih gs (fun t h => hp t (by simp [h])) (by simpa using hl)
          (fun x hx => hz x (by simp [hx]))]
        have h1 : parseGlob (text ts) = .ok (.ok g) := hz (g, text ts) (by simp)
        have h2 := (hp ts (by simp)).form
        rw [normalForm_ok h1] at h2
        simp only [R.ok.injEq, Except.ok.injEq] at h2
        rw [h2]
  have hn : g.node = joinByte 46 (gts.map C77.form) := by rw [p4, key gts g.parts h.parts p1 p2]
  refine ⟨g, hg, hn, by simpa using h.ne, fun p hp => ?_, .inl hn⟩
  obtain ⟨ts, hts, rfl⟩ := List.mem_map.1 hp
  have hP := h.parts ts hts
  exact ⟨form_ne ts hP.ok.1 hP.wordy hP.tidy hP.some, form_dot ts hP.ok.1 hP.wordy hP.tidy hP.ok.2.2⟩

/-- The text inside an answer of `normalForm`. -/
def unpack : R (Except GErr Str) → Str
  | .ok (.ok n) => n
  | _ => []

theorem map_form {gts : List (List Tok)} (h : ∀ ts ∈ gts, Part ts) :
    (gts.map text).map (unpack ∘ normalForm) = gts.map form ∧
    (gts.map form).map (unpack ∘ normalForm) = gts.map form := by
  constructor <;>
  · rw [List.map_map]
    apply List.map_congr_left
    intro ts hts
    simp only [Function.comp_apply, (h ts hts).form, (h ts hts).again, unpack]

/-- Same normal forms, same pieces. -/
theorem same_pieces {as bs : List (List Tok)} (ha : ∀ ts ∈ as, Part ts) (hb : ∀ ts ∈ bs, Part ts)
    (h : as.map form = bs.map form) : as.map pieces = bs.map pieces := by
  induction as generalizing bs with
  | nil =>
    cases bs with
    | nil => rfl
    | cons => simp at h
  | cons a as ih =>
    cases bs with
    | nil => simp at h
    | cons b bs =>
      simp only [List.map_cons, List.cons.injEq] at h ⊢
      refine ⟨?_, ih (fun t h => ha t (by simp [h])) (fun t h => hb t (by simp [h])) h.2⟩
      have pa := ha a (by simp)
      have pb := hb b (by simp)
      refine (C07.form_iff_partial a b pa.ok.1 pb.ok.1 pa.wordy pb.wordy pa.tidy pb.tidy).1 ?_
      show normalForm (text a) = normalForm (text b)
      rw [pa.form, pb.form, h.1]

/-- The texts a tree filled by `Add` knows are texts given or normal forms of accepted globs. -/
theorem keys (ops : List GOp) (hadd : ∀ op ∈ ops, ∃ s i, op = .add s i) (t : GGlobTree)
    (L : List (GGlob × Int)) (h : runTree ops = .ok (t, L)) :
    (∀ k, t.globs.get k ≠ none → ∃ s, ∃ x ∈ L, GOp.add s x.2 ∈ ops ∧ parseGGlob s = .ok (.ok x.1) ∧
      (k = s ∨ k = x.1.node)) := by
  suffices key : ∀ (ops all : List GOp) (t t' : GGlobTree) (L L' : List (GGlob × Int)),
      (∀ op ∈ ops, op ∈ all ∧ ∃ s i, op = .add s i) → runOps t L ops = .ok (t', L') →
      (∀ k, t.globs.get k ≠ none → ∃ s, ∃ x ∈ L, GOp.add s x.2 ∈ all ∧ parseGGlob s = .ok (.ok x.1) ∧
        (k = s ∨ k = x.1.node)) →
      (∀ k, t'.globs.get k ≠ none → ∃ s, ∃ x ∈ L', GOp.add s x.2 ∈ all ∧ parseGGlob s = .ok (.ok x.1) ∧
        (k = s ∨ k = x.1.node)) from
    key ops ops {} t [] L (fun op ho => ⟨ho, hadd op ho⟩) h (by simp [GoMap.get])
  intro ops all
  induction ops with
  | nil =>
    intro t t' L L' _ h h1
    cases h
    exact h1
  | cons op ops ih =>
    intro t t' L L' ho h h1
    obtain ⟨hall, s, i, rfl⟩ := ho op (by simp)
    obtain ⟨t1, r, e1, e2⟩ := C15.add_refused t s i
    simp only [runOps, GOp.apply, e1, R.bind_ok] at h
    by_cases hr : r.err ≠ none ∨ s = []
    · rw [e2 hr] at h
      have : GOp.accepted r (.add s i) = [] := by
        simp only [GOp.accepted]
        rw [if_pos]
        rcases hr with h | h
        · left; cases hh : r.err <;> simp_all
        · right; exact h
      rw [this, List.append_nil] at h
      exact ih _ _ _ _ (fun op h => ho op (by simp [h])) h h1
    · simp only [not_or, Decidable.not_not] at hr
      obtain ⟨g, a1, _, _, _, _, _, a7, _⟩ := C15.add_accepted t s i hr.2 _ _ e1 hr.1
      have : GOp.accepted r (.add s i) = [(g, i)] := by
        simp [GOp.accepted, hr.1, hr.2, a1]
      rw [this] at h
      refine ih _ _ _ _ (fun op h => ho op (by simp [h])) h ?_
      intro k hk
      by_cases hs : k = s
      · exact ⟨s, (g, i), by simp, hall, a1, .inl hs⟩
      by_cases hn : k = g.node
      · exact ⟨s, (g, i), by simp, hall, a1, .inr hn⟩
      rw [a7 k hs hn] at hk
      obtain ⟨s', x, hx, q⟩ := h1 k hk
      exact ⟨s', x, by simp [hx], q⟩

/-- Full statement (not true of the code): for all dotted globs.  After any `Add` calls with tidy dotted
globs whose braces hold words, `Add` of another one with a free index reports `ErrGlobExist` exactly if
the tree holds a dotted glob with the same pieces in every part, and is accepted otherwise. -/
theorem recognised_partial (ops : List GOp) (hadd : ∀ op ∈ ops, ∃ s i ss, op = .add s i ∧ Reads s ss)
    (t : GGlobTree) (L : List (GGlob × Int)) (h : runTree ops = .ok (t, L)) (u : Str) (us : List (List Tok))
    (hu : Reads u us) (j : Int) (hj : 0 ≤ j) (hfree : ∀ x ∈ L, x.2 ≠ j) :
    ∃ t' r, t.add u j = .ok (t', r) ∧ (r.err = none ∨ r.err = some .globExist) ∧
      (r.err = some .globExist ↔ ∃ s ss, ∃ x ∈ L, GOp.add s x.2 ∈ ops ∧ Reads s ss ∧
        parseGGlob s = .ok (.ok x.1) ∧ ss.map pieces = us.map pieces) := by
  have hadd' : ∀ op ∈ ops, ∃ s i, op = .add s i := fun op ho => by
    obtain ⟨s, i, _, e, _⟩ := hadd op ho
    exact ⟨_, _, e⟩
  obtain ⟨t2, L2, hr, b1, b2⟩ := C15.books_partial ops hadd'
  rw [h] at hr
  simp only [R.ok.injEq, Prod.mk.injEq] at hr
  obtain ⟨rfl, rfl⟩ := hr
  have hidx : t.globsIndex.get j = none := by
    cases hq : t.globsIndex.get j with
    | none => rfl
    | some q =>
      obtain ⟨g', hg', _⟩ := (b1 j q).1 hq
      exact absurd rfl (hfree _ hg')
  have hune : u ≠ [] := by
    rintro rfl
    have := hu.dotted.split.1
    exact this rfl
  obtain ⟨g, hg, hn, hdn⟩ := hu.parse
  obtain ⟨t', r, e1, _⟩ := C15.add_refused t u j
  obtain ⟨_, _, _, q4, q5⟩ := C15.add_error t u j hune t' r e1
  have hex : r.err = some .globExist ↔ t.globs.get u ≠ none ∨ t.globs.get g.node ≠ none := by
    rw [q4]
    constructor
    · rintro ⟨_, h | ⟨_, g', hg', h⟩⟩
      · exact .inl h
      · rw [hg] at hg'
        cases hg'
        exact .inr h
    · rintro (h | h)
      · exact ⟨hj, .inl h⟩
      · exact ⟨hj, .inr ⟨hidx, g, hg, h⟩⟩
  refine ⟨t', r, e1, ?_, ?_⟩
  · by_cases hk : t.globs.get u ≠ none ∨ t.globs.get g.node ≠ none
    · exact .inr (hex.2 hk)
    · simp only [ne_eq, not_or, Decidable.not_not] at hk
      exact .inl (q5.2 ⟨hj, hk.1, hidx, g, hg, hk.2⟩)
  rw [hex]
  constructor
  · intro hk
    have hk' : ∃ k, (k = u ∨ k = g.node) ∧ t.globs.get k ≠ none := by
      rcases hk with hk | hk
      · exact ⟨_, .inl rfl, hk⟩
      · exact ⟨_, .inr rfl, hk⟩
    obtain ⟨k, hku, hk⟩ := hk'
    obtain ⟨s, x, hx, hop, hps, hks⟩ := keys ops hadd' t L h k hk
    obtain ⟨s0, i0, ss, e, hrd⟩ := hadd _ hop
    obtain ⟨rfl, _⟩ := GOp.add.inj e
    refine ⟨s, ss, x, hx, hop, hrd, hps, same_pieces hrd.parts hu.parts ?_⟩
    obtain ⟨g', hg', hn', hdn'⟩ := hrd.parse
    rw [hps] at hg'
    simp only [R.ok.injEq, Except.ok.injEq] at hg'
    rw [hg'] at hks
    obtain ⟨a1, a2⟩ := map_form hu.parts
    obtain ⟨c1, c2⟩ := map_form hrd.parts
    have du : ∃ ps, Dotted k ps ∧ ps.map (unpack ∘ normalForm) = us.map form := by
      rcases hku with rfl | rfl
      · exact ⟨_, hu.dotted, a1⟩
      · exact ⟨_, hdn, a2⟩
    have ds : ∃ ps, Dotted k ps ∧ ps.map (unpack ∘ normalForm) = ss.map form := by
      rcases hks with rfl | rfl
      · exact ⟨_, hrd.dotted, c1⟩
      · exact ⟨_, hdn', c2⟩
    obtain ⟨p, hp1, hp2⟩ := du
    obtain ⟨q, hq1, hq2⟩ := ds
    rw [← hp2, ← hq2, C53.parts_unique k p q hp1 hq1]
  · rintro ⟨s, ss, x, hx, _, hrd, hps, hpc⟩
    right
    obtain ⟨g', hg', hn', _⟩ := hrd.parse
    rw [hps] at hg'
    simp only [R.ok.injEq, Except.ok.injEq] at hg'
    have : g.node = x.1.node := by
      rw [hg', hn, hn']
      have : ∀ l : List (List Tok), l.map form = (l.map pieces).map formText := fun l => by
        rw [List.map_map]; rfl
      rw [this, this, hpc]
    rw [this, b2 x hx]
    simp

/-- `[ba].x*?{q,p}..`, then `[a-b].x?*{p,q,p}`: refused. -/
example : Reads (b!"[ba].x*?{q,p}..") [[.sub (.cls [.one 'b', .one 'a'])],
      [.sub (.lit 'x'), .sub .star, .sub .any, .alt [[.lit 'q'], [.lit 'p']]]] ∧
    Reads (b!"[a-b].x?*{p,q,p}") [[.sub (.cls [.range 'a' 'b'])],
      [.sub (.lit 'x'), .sub .any, .sub .star, .alt [[.lit 'p'], [.lit 'q'], [.lit 'p']]]] ∧
    (do
      let (t, L) ← runTree [.add (b!"[ba].x*?{q,p}..") 4, .add (b!"x") 5]
      let (_, r) ← t.add (b!"[a-b].x?*{p,q,p}") 6
      let (_, r') ← t.add (b!"[a-b].x?*{p,q,}") 6
      let (_, r'') ← t.add (b!"x?*{p,q}.[a-b]") 6
      .ok (L.length = 2 ∧ r.err = some .globExist ∧ r.n = 4 ∧ r'.err = none ∧ r''.err = none : Bool) : R Bool) =
        .ok true := by
  refine ⟨⟨by simp, ?_, .inr (.inr (by decide +kernel))⟩, ⟨by simp, ?_, .inl (by decide +kernel)⟩,
    by decide +kernel⟩
  · simp only [List.forall_mem_cons, List.not_mem_nil, false_imp_iff, implies_true, and_true]
    exact ⟨⟨⟨by decide +kernel, by decide, by decide⟩, by decide +kernel, by decide +kernel, by
        simp [pieces, Tok.pieces, Sub.piece, classOne, ClassElt.only, GPiece.put]⟩,
      ⟨⟨by decide +kernel, by decide, by decide⟩, by decide +kernel, by decide +kernel, by
        simp [pieces, Tok.pieces, Sub.piece, GPiece.put]⟩⟩
  · simp only [List.forall_mem_cons, List.not_mem_nil, false_imp_iff, implies_true, and_true]
    exact ⟨⟨⟨by decide +kernel, by decide, by decide⟩, by decide +kernel, by decide +kernel, by
        simp [pieces, Tok.pieces, Sub.piece, classOne, GPiece.put]⟩,
      ⟨⟨by decide +kernel, by decide, by decide⟩, by decide +kernel, by decide +kernel, by
        simp [pieces, Tok.pieces, Sub.piece, GPiece.put]⟩⟩

/-- After `a.{}`, whose normal form is `a.`, the glob `a.` of one part is refused as known. -/
theorem empty_part_wrong : (do
    let (t, _) ← runTree [.add (b!"a.{}") 1]
    let (_, r) ← t.add (b!"a.") 2
    .ok (r.err = some .globExist : Bool) : R Bool) = .ok true ∧
    parsedWith (b!"a.{}") (fun g => g.parts.length = 2) = true ∧
    parsedWith (b!"a.") (fun g => g.parts.length = 1) = true := by decide +kernel

/-- `b.a[*]` is refused after `b.a*`, though it is another glob. -/
theorem other_glob_wrong : (do
    let (t, _) ← runTree [.add (b!"b.a*") 1]
    let (_, r) ← t.add (b!"b.a[*]") 2
    .ok (r.err = some .globExist : Bool) : R Bool) = .ok true := by decide +kernel

/-- `x.{a*,b?}` is accepted after `x.{[b]?,a*}`, though these are the same alternatives. -/
theorem same_glob_wrong : (do
    let (t, _) ← runTree [.add (b!"x.{[b]?,a*}") 1]
    let (_, r) ← t.add (b!"x.{a*,b?}") 2
    .ok (r.err = none : Bool) : R Bool) = .ok true := by decide +kernel

end GoMatcher.C77
