import Verif.Proofs.RandomAll
import Verif.Props.C45_Random

/-! # C65: every alternative can be drawn

A sample generator that always takes the same alternative also writes texts that fit.  Here every
choice of alternatives is shown to be reached by some random numbers. -/

namespace GoMatcher

namespace C65

open C45

/-- For every choice of alternatives there are random numbers with which the text written fits the
chosen branch, between the literal ends that the parser cut off. -/
theorem branch_between (ts us : List Tok) (hok : ∀ t ∈ ts, t.Ok) (hb : Branch ts us)
    (hs : ∀ u ∈ us, u.Sampled) :
    ∃ g, parseGlob (utf8 (renderGlob ts)) = .ok (.ok g) ∧ ∃ P S, g.pref = utf8 P ∧ g.suff = utf8 S ∧
      ∃ ω w j, g.writeRandom ω 0 = .ok (utf8 w, j) ∧ Fits us (P ++ w ++ S) := by
  obtain ⟨g, hg, hG⟩ := parse_spec ts hok
  exact ⟨g, hg, hG.branch hb hs⟩

/-- Full statement (not true of the code): for every choice of alternatives there are random numbers
with which `WriteRandom` writes a text of the chosen branch.  Missing here: as in
`C45.sample_fits_partial`; the empty word of a list of words (`empty_never`); alternatives
beside one that is just a star (`star_hides`). -/
theorem branch_partial (ts us : List Tok) (hok : ∀ t ∈ ts, t.Ok) (hb : Branch ts us)
    (hs : ∀ u ∈ us, u.Sampled)
    (hfirst : ∃ cs ds, Fits ts cs ∧ Fits ts ds ∧ cs.head? ≠ ds.head?)
    (hlast : ∃ cs ds, Fits ts cs ∧ Fits ts ds ∧ cs.getLast? ≠ ds.getLast?) :
    ∃ ω w, sampleText (utf8 (renderGlob ts)) ω = .ok (.ok (utf8 w)) ∧ Fits us w := by
  obtain ⟨g, hg, hG⟩ := parse_spec ts hok
  obtain ⟨P, S, hp, hsf, ω, w, j, hw, hfit⟩ := hG.branch hb hs
  refine ⟨ω, w, sampleText_ok hg hw, ?_⟩
  have key : P = [] ∧ S = [] := by
    by_cases hi : g.items = []
    · obtain ⟨h1, h2⟩ := hG.bare hi
      rw [h1] at hp
      rw [h2] at hsf
      exact ⟨(utf8_eq_nil _).1 hp.symm, (utf8_eq_nil _).1 hsf.symm⟩
    · obtain ⟨P', S', h1, h2, _, _, hf⟩ := hG.wild hi
      obtain rfl : P = P' := utf8_inj (hp.symm.trans h1)
      obtain rfl : S = S' := utf8_inj (hsf.symm.trans h2)
      constructor
      · obtain ⟨cs, ds, hc, hd, hne⟩ := hfirst
        obtain ⟨m, rfl, _⟩ := (hf _).1 hc
        obtain ⟨m', rfl, _⟩ := (hf _).1 hd
        cases P with
        | nil => rfl
        | cons p P => exact absurd rfl hne
      · obtain ⟨cs, ds, hc, hd, hne⟩ := hlast
        obtain ⟨m, rfl, _⟩ := (hf _).1 hc
        obtain ⟨m', rfl, _⟩ := (hf _).1 hd
        apply Classical.byContradiction
        intro h
        apply hne
        rcases List.eq_nil_or_concat S with h' | ⟨q, x, e⟩
        · exact absurd h' h
        · rw [e, List.concat_eq_append]
          simp
  rw [key.1, key.2] at hfit
  simpa using hfit

/-! ### Example: the hypotheses are met -/

/-- `?{ab,c*}{,d,ef}*`, branch `?ab` `ef` `*` -/
def brTs : List Tok :=
  [.sub .any, .alt [[.lit 'a', .lit 'b'], [.lit 'c', .star]], .alt [[], [.lit 'd'], [.lit 'e', .lit 'f']], .sub .star]

def brUs : List Tok :=
  [.sub .any, .sub (.lit 'a'), .sub (.lit 'b'), .sub (.lit 'e'), .sub (.lit 'f'), .sub .star]

example : (∀ t ∈ brTs, t.Ok) ∧ Branch brTs brUs ∧ ∀ u ∈ brUs, u.Sampled :=
  ⟨by decide +kernel,
    .sub (.alt (a := [.lit 'a', .lit 'b']) (by simp) ⟨by decide, by simp⟩
      (.alt (a := [.lit 'e', .lit 'f']) (by simp) ⟨by decide, by simp⟩ (.sub .nil))),
    by simp [brUs, Tok.Sampled, Sub.Sampled]⟩

example : (∃ cs ds, Fits brTs cs ∧ Fits brTs ds ∧ cs.head? ≠ ds.head?) ∧
    ∃ cs ds, Fits brTs cs ∧ Fits brTs ds ∧ cs.getLast? ≠ ds.getLast? :=
  ⟨⟨"xab".toList, "yab".toList, by decide +kernel⟩, ⟨"xabd".toList, "xabef".toList, by decide +kernel⟩⟩

example : sampleText (utf8 (renderGlob brTs)) (fun k => if k = 0 then 0 else 1) =
    .ok (.ok (utf8 "xabefXXXXXXXXX".toList)) := by decide +kernel

/-! ### The restrictions are needed -/

/-- The empty word of a list is never drawn: `?{,a}` always writes `xa`. -/
theorem empty_never : let ts : List Tok := [.sub .any, .alt [[], [.lit 'a']]]
    (∀ t ∈ ts, t.Ok) ∧ Fits ts "x".toList ∧
    ∀ ω, sampleText (utf8 (renderGlob ts)) ω = .ok (.ok (b!"xa")) := by
  refine ⟨by decide +kernel, by decide +kernel, fun ω => ?_⟩
  have hp : ∃ g, parseGlob (utf8 (renderGlob [.sub .any, .alt [[], [.lit 'a']]])) = .ok (.ok g) ∧
      ∃ l, g.items = [.any 1, .list l] ∧ l.vals = [b!"a"] := ⟨_, rfl, _, rfl, rfl⟩
  obtain ⟨g, hg, l, hi, hv⟩ := hp
  refine sampleText_ok (j := 1) hg ?_
  rw [Glob.writeRandom, hi, if_neg (by simp), Item.writeRandoms, Item.writeRandom]
  simp only [R.bind_ok]
  rw [Item.writeRandoms, Item.writeRandom, StringList.writeRandom, hv]
  unfold randIntn
  simp [Item.writeRandoms, Nat.mod_one]

/-- An alternative that is just a star hides the others: `?{ab,*}` always writes `xXXXXXXXXX`. -/
theorem star_hides : let ts : List Tok := [.sub .any, .alt [[.lit 'a', .lit 'b'], [.star]]]
    (∀ t ∈ ts, t.Ok) ∧ ¬ Fits [.sub .any, .sub (.lit 'a'), .sub (.lit 'b')] "xXXXXXXXXX".toList ∧
    ∀ ω, sampleText (utf8 (renderGlob ts)) ω = .ok (.ok (b!"xXXXXXXXXX")) := by
  refine ⟨by decide +kernel, by decide +kernel, fun ω => ?_⟩
  have hp : ∃ g, parseGlob (utf8 (renderGlob [.sub .any, .alt [[.lit 'a', .lit 'b'], [.star]]])) = .ok (.ok g) ∧
      g.items = [.star 1] := ⟨_, rfl, rfl⟩
  obtain ⟨g, hg, hi⟩ := hp
  refine sampleText_ok (j := 0) hg ?_
  rw [Glob.writeRandom, hi, if_neg (by simp), Item.writeRandoms, Item.writeRandom]
  rfl

end C65

end GoMatcher
