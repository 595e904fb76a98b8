import Verif.Proofs.Random
import Verif.Props.C01_C03_Match

/-! # C45: random samples of a glob

The random numbers are an arbitrary oracle `ω : Nat → Nat`. -/

namespace GoMatcher

/-- `Parse(glob)` followed by `WriteRandom`: the written text. -/
def sampleText (glob : Str) (ω : Nat → Nat) : R (Except GErr Str) := do
  match ← parseGlob glob with
  | .error e => .ok (.error e)
  | .ok g => do
    let (s, _) ← g.writeRandom ω 0
    .ok (.ok s)

theorem sampleText_ok {glob s : Str} {g : Glob} {ω : Nat → Nat} {j : Nat}
    (h : parseGlob glob = .ok (.ok g)) (hw : g.writeRandom ω 0 = .ok (s, j)) :
    sampleText glob ω = .ok (.ok s) := by
  unfold sampleText
  rw [h]
  simp only [R.bind_ok]
  rw [hw]
  rfl

/-- A class with one character has one code point. -/
theorem classMem_one {es : List ClassElt} {c : Char} (hok : ∀ e ∈ es, e.Ok)
    (hone : ∀ d : Char, ClassMem es d.toNat → d = c) : ∀ d, ClassMem es d → d = c.toNat := by
  rintro d ⟨e, he, hd⟩
  cases e with
  | one a =>
    rw [show d = a.toNat from hd, hone a ⟨_, he, by simp [ClassElt.Mem]⟩]
  | range a b =>
    have hab := (hok _ he).2.2.2.2.1
    have ha := hone a ⟨_, he, by simp only [ClassElt.Mem]; omega⟩
    have hb := hone b ⟨_, he, by simp only [ClassElt.Mem]; omega⟩
    rw [ha, hb] at hd
    simp only [ClassElt.Mem] at hd
    omega

namespace C45

/-- The text written by `WriteRandom` fits between the literal ends that the parser cut off. -/
theorem sample_between (ts : List Tok) (hok : ∀ t ∈ ts, t.Ok) (hs : ∀ t ∈ ts, t.Sampled) :
    ∃ g, parseGlob (utf8 (renderGlob ts)) = .ok (.ok g) ∧ ∃ P S, g.pref = utf8 P ∧ g.suff = utf8 S ∧
      (∀ cs, Fits ts cs → ∃ m, cs = P ++ m ++ S) ∧
      ∀ ω i, ∃ w j, g.writeRandom ω i = .ok (utf8 w, j) ∧ Fits ts (P ++ w ++ S) := by
  obtain ⟨g, hg, hG⟩ := parse_spec ts hok
  refine ⟨g, hg, ?_⟩
  by_cases hi : g.items = []
  · obtain ⟨w, hn, hw⟩ := hG.plain hi
    obtain ⟨h1, h2⟩ := hG.bare hi
    refine ⟨[], [], by rw [h1]; rfl, by rw [h2]; rfl, fun cs _ => ⟨cs, by simp⟩, fun ω i => ?_⟩
    refine ⟨w, i, ?_, by rw [hw]; simp⟩
    rw [Glob.writeRandom, hi, hn]
    rfl
  · obtain ⟨P, S, h1, h2, _, _, hf⟩ := hG.wild hi
    refine ⟨P, S, h1, h2, fun cs h => ?_, fun ω i => ?_⟩
    · obtain ⟨m, e, _⟩ := (hf cs).1 h
      exact ⟨m, e⟩
    · obtain ⟨w, j, hw, hsem⟩ := writeRandoms_gen (hG.gen hs) ω i
      refine ⟨w, j, ?_, (hf _).2 ⟨w, rfl, hsem⟩⟩
      rw [Glob.writeRandom, if_neg (by simpa using hi), hw]

/-- Full statement (not true of the code): for every glob and all random numbers `WriteRandom` writes a
text that fits.  Missing here: globs all of whose texts start (or end) with the same character,
since the code forgets the literal ends, and classes of several members with an ASCII
member; see the counter-examples. -/
theorem sample_fits_partial (ts : List Tok) (hok : ∀ t ∈ ts, t.Ok) (hs : ∀ t ∈ ts, t.Sampled)
    (hfirst : ∃ cs ds, Fits ts cs ∧ Fits ts ds ∧ cs.head? ≠ ds.head?)
    (hlast : ∃ cs ds, Fits ts cs ∧ Fits ts ds ∧ cs.getLast? ≠ ds.getLast?) (ω : Nat → Nat) :
    ∃ w, sampleText (utf8 (renderGlob ts)) ω = .ok (.ok (utf8 w)) ∧ Fits ts w := by
  obtain ⟨g, hg, P, S, _, _, hf, hw⟩ := sample_between ts hok hs
  obtain ⟨w, j, h1, h2⟩ := hw ω 0
  have hP : P = [] := by
    obtain ⟨cs, ds, hc, hd, hne⟩ := hfirst
    obtain ⟨m, rfl⟩ := hf _ hc
    obtain ⟨m', rfl⟩ := hf _ hd
    cases P with
    | nil => rfl
    | cons p P => exact absurd rfl hne
  have hS : S = [] := by
    obtain ⟨cs, ds, hc, hd, hne⟩ := hlast
    obtain ⟨m, rfl⟩ := hf _ hc
    obtain ⟨m', rfl⟩ := hf _ hd
    apply Classical.byContradiction
    intro h
    apply hne
    obtain ⟨q, x, rfl⟩ : ∃ q x, S = q ++ [x] := by
      rcases List.eq_nil_or_concat S with h' | ⟨q, x, e⟩
      · exact absurd h' h
      · exact ⟨q, x, by rw [e, List.concat_eq_append]⟩
    simp
  rw [hP, hS] at h2
  exact ⟨w, sampleText_ok hg h1, by simpa using h2⟩

/-- With the shapes of C01 the sample is also accepted by `Match`. -/
theorem sample_matches_partial (ts : List Tok) (hok : ∀ t ∈ ts, t.Ok) (hs : ∀ t ∈ ts, t.Sampled)
    (hfirst : ∃ cs ds, Fits ts cs ∧ Fits ts ds ∧ cs.head? ≠ ds.head?)
    (hlast : ∃ cs ds, Fits ts cs ∧ Fits ts ds ∧ cs.getLast? ≠ ds.getLast?)
    (hshape : Shape true .plain ts) (hmax : MaxOk ts) (hclass : ∀ t ∈ ts, t.noStarClass)
    (ω : Nat → Nat) :
    ∃ w, sampleText (utf8 (renderGlob ts)) ω = .ok (.ok (utf8 w)) ∧
      (('[' ∉ renderGlob ts ∨ ∀ c ∈ w, c.toNat ≠ 0xFFFD) → matchText (utf8 (renderGlob ts)) (utf8 w) = .ok (.ok true)) := by
  obtain ⟨w, h1, h2⟩ := sample_fits_partial ts hok hs hfirst hlast ω
  refine ⟨w, h1, fun hw => ?_⟩
  obtain ⟨b, hb, hiff⟩ := C01.match_exact_partial ts hok hshape hmax hclass w hw
  rw [hb, hiff.2 h2]

/-- A glob without wildcards is its own sample. -/
theorem sample_plain (glob : Str) (h : ∀ b ∈ glob, isWild b = false) (ω : Nat → Nat) :
    sampleText glob ω = .ok (.ok glob) := by
  have hi : indexWildcard glob = none := indexP_none.2 h
  have hg : ∃ g, parseGlob glob = .ok (.ok g) ∧ g.items = [] ∧ g.node = glob := by
    rw [parseGlob, hi]
    exact ⟨_, rfl, rfl, rfl⟩
  obtain ⟨g, hg, h1, h2⟩ := hg
  refine sampleText_ok (j := 0) hg ?_
  rw [Glob.writeRandom, h1, h2]
  rfl

/-- The second restriction is exact: a class of several members with an ASCII member never gives a
usable sample, whatever the random numbers are. -/
theorem class_wrong (es : List ClassElt) (hok : (Tok.sub (.cls es)).Ok) (hs : ¬ ClassSampled es)
    (ω : Nat → Nat) (w : List Char)
    (h : sampleText (utf8 (renderGlob [.sub (.cls es)])) ω = .ok (.ok (utf8 w))) :
    ¬ Fits [.sub (.cls es)] w := by
  have hok' : ∀ t ∈ [Tok.sub (.cls es)], t.Ok := by
    intro t ht; rw [List.mem_singleton.1 ht]; exact hok
  obtain ⟨g, hg, hG⟩ := parse_spec _ hok'
  have hcls := hG.onlyCls hok.2.1 hs
  rintro ⟨a, b, rfl, ⟨c, rfl, hc⟩, hb⟩
  rw [show b = [] from hb] at h
  -- the glob has items
  have hi : g.items ≠ [] := by
    intro hi
    obtain ⟨v, _, hv⟩ := hG.plain hi
    apply hs
    right
    have hone : ∀ d : Char, ClassMem es d.toNat → v = [d] := fun d hd =>
      ((hv [d]).1 ⟨[d], [], rfl, ⟨d, rfl, hd⟩, rfl⟩).symm
    have hone' : ∀ d : Char, ClassMem es d.toNat → d = c := fun d hd => by
      have := (hone d hd).symm.trans (hone c hc)
      simpa using this
    exact ⟨c.toNat, classMem_one hok.2.1 hone'⟩
  unfold sampleText at h
  rw [hg] at h
  simp only [R.bind_ok] at h
  obtain ⟨⟨s, j⟩, hw, h⟩ := R.bind_eq_ok.1 h
  rw [Glob.writeRandom, if_neg (by simpa using hi)] at hw
  have hsw : s = utf8 [c] := by
    simp only [R.ok.injEq, Except.ok.injEq] at h
    simpa using h
  match hgi : g.items, hi with
  | [], h => exact absurd rfl h
  | x :: xs, _ =>
    rw [hgi, Item.writeRandoms] at hw
    obtain ⟨⟨s1, i1⟩, hx, hw⟩ := R.bind_eq_ok.1 hw
    obtain ⟨⟨s2, i2⟩, _, hw⟩ := R.bind_eq_ok.1 hw
    simp only [R.ok.injEq, Prod.mk.injEq] at hw
    obtain ⟨b, t, e, hlt, hne⟩ := (hcls x (by rw [hgi]; simp)).write_long hok.2.1 hs hok.2.2.1 ω 0 i1 s1 hx
    rw [← hw.1, e, List.cons_append] at hsw
    exact not_single hlt (by simp [hne]) c hsw.symm

/-! ### Examples: the hypotheses are met -/

/-- `?{ab,c*}[а-я]*` -/
def exTs : List Tok :=
  [.sub .any, .alt [[.lit 'a', .lit 'b'], [.lit 'c', .star]], .sub (.cls [.range 'а' 'я']), .sub .star]

example : renderGlob exTs = "?{ab,c*}[а-я]*".toList := by decide +kernel

example : (∀ t ∈ exTs, t.Ok) ∧ Shape true .plain exTs ∧ MaxOk exTs ∧ ∀ t ∈ exTs, t.noStarClass := by
  decide +kernel

example : ∀ t ∈ exTs, t.Sampled := by
  simp only [exTs, List.mem_cons, List.not_mem_nil, or_false, forall_eq_or_imp, forall_eq,
    Tok.Sampled, Sub.Sampled, true_and, and_true]
  left
  rintro c ⟨e, he, hm⟩
  rw [List.mem_singleton.1 he] at hm
  exact Nat.lt_of_lt_of_le (by decide) hm.1

example : (∃ cs ds, Fits exTs cs ∧ Fits exTs ds ∧ cs.head? ≠ ds.head?) ∧
    ∃ cs ds, Fits exTs cs ∧ Fits exTs ds ∧ cs.getLast? ≠ ds.getLast? :=
  ⟨⟨"xabя".toList, "yabя".toList, by decide +kernel⟩, ⟨"xabя".toList, "xabяz".toList, by decide +kernel⟩⟩

example : sampleText (utf8 (renderGlob exTs)) (fun _ => 5) =
    .ok (.ok (utf8 "xcXXXXXXXXXаXXXXXXXXX".toList)) := by decide +kernel

example : ¬ ClassSampled [.one 'a', .range 'а' 'я'] := by
  rintro (h | ⟨c, h⟩)
  · exact absurd (h 97 ⟨_, List.mem_cons_self, rfl⟩) (by decide)
  · have h1 := h 97 ⟨_, List.mem_cons_self, rfl⟩
    have h2 := h 1072 ⟨.range 'а' 'я', by simp, by decide⟩
    omega

/-! ### The restrictions are needed: counter-examples -/

/-- `a*` writes `XXXXXXXXX` whatever the random numbers are. -/
theorem prefix_wrong : let ts : List Tok := [.sub (.lit 'a'), .sub .star]
    (∀ t ∈ ts, t.Ok) ∧ ¬ Fits ts "XXXXXXXXX".toList ∧
    matchText (b!"a*") (b!"XXXXXXXXX") = .ok (.ok false) ∧
    ∀ ω, sampleText (utf8 (renderGlob ts)) ω = .ok (.ok (b!"XXXXXXXXX")) := by
  refine ⟨by decide +kernel, by decide +kernel, by decide +kernel, fun ω => ?_⟩
  have hp : parseGlob (utf8 (renderGlob [.sub (.lit 'a'), .sub .star])) = .ok (.ok
      { glob := b!"a*", node := b!"a*", minLen := 1, maxLen := -1, pref := b!"a", items := [.star 0] }) := by
    rfl
  exact sampleText_ok (j := 0) hp rfl

/-- `*.e` forgets the suffix. -/
theorem suffix_wrong : let ts : List Tok := [.sub .star, .sub (.lit '.'), .sub (.lit 'e')]
    (∀ t ∈ ts, t.Ok) ∧ ¬ Fits ts "XXXXXXXXX".toList ∧
    ∀ ω, sampleText (utf8 (renderGlob ts)) ω = .ok (.ok (b!"XXXXXXXXX")) := by
  refine ⟨by decide +kernel, by decide +kernel, fun ω => ?_⟩
  have hp : parseGlob (utf8 (renderGlob [.sub .star, .sub (.lit '.'), .sub (.lit 'e')])) = .ok (.ok
      { glob := b!"*.e", node := b!"*.e", minLen := 2, maxLen := -1, suff := b!".e", items := [.star 0] }) := by
    rfl
  exact sampleText_ok (j := 0) hp rfl

/-- `[ab]` panics whatever the random numbers are (`rand.Intn(0)`). -/
theorem ascii_class_panics (ω : Nat → Nat) : sampleText (b!"[ab]") ω = .panic := by
  have h : ∃ g rs, parseGlob (b!"[ab]") = .ok (.ok g) ∧ g.items = [.ranges rs] ∧ rs.ranges = [] :=
    ⟨_, _, rfl, rfl, rfl⟩
  obtain ⟨g, rs, h1, h2, h3⟩ := h
  unfold sampleText
  rw [h1]
  simp only [R.bind_ok]
  have hw : g.writeRandom ω 0 = .panic := by
    rw [Glob.writeRandom, h2, if_neg (by simp), Item.writeRandoms, Item.writeRandom,
      RunesRanges.writeRandom, h3]
    rfl
  rw [hw]
  rfl

/-- `[aя]` writes both characters. -/
theorem mixed_class_wrong : let ts : List Tok := [.sub (.cls [.one 'a', .one 'я'])]
    (∀ t ∈ ts, t.Ok) ∧ ¬ Fits ts "aя".toList ∧
    sampleText (utf8 (renderGlob ts)) (fun _ => 0) = .ok (.ok (utf8 "aя".toList)) := by
  decide +kernel

end C45

end GoMatcher
