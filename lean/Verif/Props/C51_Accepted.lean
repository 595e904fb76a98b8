import Verif.Props.C01_Text
import Verif.Proofs.BytesParse

/-! # C51: the byte strings that `Parse` accepts

`Row GlobPiece s` (see `Spec/GlobBytes`) says that `s` is a row of well-formed pieces. -/

namespace GoMatcher
namespace C51

/-- Every byte string, UTF-8 or not: accepted if and only if it is a row of well-formed pieces;
otherwise there is an error. -/
theorem accepted_iff (s : Str) :
    ((∃ g, parseGlob s = .ok (.ok g)) ↔ Row GlobPiece s) ∧
    ((∃ e, parseGlob s = .ok (.error e)) ↔ ¬ Row GlobPiece s) := by
  refine ⟨parse_accept s, ?_⟩
  rw [← parse_accept s]
  obtain ⟨r, hr⟩ := parseGlob_total s
  cases r with
  | ok g => simp [hr]
  | error e => simp [hr]

/-- No piece is the beginning of another one. -/
theorem piece_prefix {p q r r' : Str} (hp : GlobPiece p) (hq : GlobPiece q)
    (e : p ++ r = q ++ r') : p = q ∧ r = r' := by
  rcases hp.cases with ⟨b, rfl, hf⟩ | ⟨body, rfl, hb, _⟩ | ⟨body, rfl, hb, _⟩ <;>
    rcases hq.cases with ⟨b', rfl, hf'⟩ | ⟨body', rfl, hb', _⟩ | ⟨body', rfl, hb', _⟩ <;>
    simp only [List.cons_append, List.nil_append, List.append_assoc, List.cons.injEq] at e
  · exact ⟨by rw [e.1], e.2⟩
  · exact absurd e.1 hf.1
  · exact absurd e.1 hf.2.2.1
  · exact absurd e.1.symm hf'.1
  · obtain ⟨rfl, rfl⟩ := first_split hb hb' e.2
    exact ⟨rfl, rfl⟩
  · exact absurd e.1 (by decide)
  · exact absurd e.1.symm hf'.2.2.1
  · exact absurd e.1 (by decide)
  · obtain ⟨rfl, rfl⟩ := first_split hb hb' e.2
    exact ⟨rfl, rfl⟩

theorem piece_ne_nil {p : Str} (hp : GlobPiece p) : p ≠ [] := by
  rcases hp.cases with ⟨b, rfl, hf⟩ | ⟨body, rfl, hb, _⟩ | ⟨body, rfl, hb, _⟩ <;> simp

/-- A byte string is cut into pieces in one way only. -/
theorem pieces_unique (ps qs : List Str) (hp : ∀ p ∈ ps, GlobPiece p) (hq : ∀ q ∈ qs, GlobPiece q)
    (e : ps.flatten = qs.flatten) : ps = qs := by
  induction ps generalizing qs with
  | nil =>
    cases qs with
    | nil => rfl
    | cons q qs =>
      simp only [List.flatten_nil, List.flatten_cons, List.nil_eq, List.append_eq_nil_iff] at e
      exact absurd e.1 (piece_ne_nil (hq q (by simp)))
  | cons p ps ih =>
    cases qs with
    | nil =>
      simp only [List.flatten_nil, List.flatten_cons, List.append_eq_nil_iff] at e
      exact absurd e.1 (piece_ne_nil (hp p (by simp)))
    | cons q qs =>
      simp only [List.flatten_cons] at e
      obtain ⟨rfl, h⟩ := piece_prefix (hp p (by simp)) (hq q (by simp)) e
      rw [ih qs (fun x hx => hp x (by simp [hx])) (fun x hx => hq x (by simp [hx])) h]

/-- `a<0xFF>{*,[}`: not UTF-8, and a malformed alternative behind `*`. -/
def exBytes : Str := [97, 0xFF, 123, 42, 44, 91, 125]

theorem exBytes_row : Row GlobPiece exBytes :=
  ⟨[[97], [0xFF], [123, 42, 44, 91, 125]], rfl, by
    intro p hp
    simp only [List.mem_cons, List.not_mem_nil, or_false] at hp
    rcases hp with rfl | rfl | rfl
    · exact .inl (.inl ⟨97, rfl, by decide⟩)
    · exact .inl (.inl ⟨0xFF, rfl, by decide⟩)
    · refine .inr ⟨[[42], [91]], by decide, by decide, by decide, .inr (.inl ⟨by decide, ?_⟩)⟩
      intro b t h hlt
      simp only [List.mem_cons, List.cons.injEq, List.not_mem_nil, or_false] at h
      rcases h with ⟨rfl, _⟩ | ⟨rfl, _⟩ <;> exact absurd hlt (by decide)⟩

example : ∃ g, parseGlob exBytes = .ok (.ok g) ∧ g.pref = [97, 0xFF] := ⟨_, rfl, rfl⟩

/-- `[z-a]` is no piece. -/
example : ¬ Row GlobPiece (b! "x[z-a]") := by
  rw [← (accepted_iff _).2]
  exact ⟨_, rfl⟩

/-- U+FFFD may stand anywhere; in a class it is no start of a range. -/
example : ClassBytes (utf8 [Char.ofNat 0xFFFD, 'a', '-', 'c']) :=
  ⟨[Char.ofNat 0xFFFD, 'a', '-', 'c'], [('a', 'c')], by decide +kernel,
    .skip (.inr rfl) (.range 0 (by decide) (by decide) (by decide) .nil), by
      intro a b h
      simp only [List.mem_cons, Prod.mk.injEq, List.not_mem_nil, or_false] at h
      rw [h.1, h.2]
      decide⟩

end C51
end GoMatcher
