import Verif.Proofs.ClassScan
import Verif.Props.C42_C43_Lists

/-! # C43: what `IntersectGlobs` returns, for every list of byte strings -/

namespace GoMatcher
namespace C43

theorem intersectInner_true {g0 : Str} {pos c0 : Nat} {rest : List Str}
    (hc : (decodeRune (g0.drop pos)).1 = c0) (hs : stopRune c0 = false)
    (h : intersectInner g0 pos c0 rest = true) : ∃ g ∈ rest, g.length ≤ pos := by
  induction rest with
  | nil => simp [intersectInner] at h
  | cons g gs ih =>
    rw [intersectInner] at h
    split at h
    · exact ⟨g, by simp, by omega⟩
    · dsimp only at h
      rw [hc, if_neg (by simp), if_neg (by simp [hs])] at h
      obtain ⟨x, hx, h1⟩ := ih h
      exact ⟨x, by simp [hx], h1⟩

theorem stopRune_char {c : Char} : stopRune c.toNat = true ↔
    c.toNat = 0xFFFD ∨ c ∈ ['[', ']', '{', '}', '*', '?'] := by
  have hc : ∀ d : Char, c.toNat = d.toNat ↔ c = d := fun d =>
    ⟨fun h => Char.toNat_val_inj (c := c) (d := d) h, fun h => by rw [h]⟩
  simp only [stopRune, Bool.or_eq_true, decide_eq_true_eq, List.mem_cons,
    List.not_mem_nil, or_false, ← hc, or_assoc]
  rfl

theorem intersectLoop_exact (g0 : Str) (rest : List Str) (fuel : Nat) (ds : List Char) (u : Str)
    (he : g0 = utf8 ds ++ u) (hf : u.length < fuel) :
    ∃ (cs : List Char) (tail : Str), u = utf8 cs ++ tail ∧
      intersectLoop g0 rest fuel (utf8 ds).length = .ok (utf8 (ds ++ cs)) ∧
      (∀ c ∈ cs, c.toNat ≠ 0xFFFD ∧ c ∉ ['[', ']', '{', '}', '*', '?']) ∧
      (∀ pre c post, cs = pre ++ c :: post → ∀ g ∈ rest, (utf8 (ds ++ pre)).length < g.length) ∧
      (tail = [] ∨ RunesRanges.Stuck tail ∨
        (∃ c t, tail = utf8 [c] ++ t ∧ c ∈ ['[', ']', '{', '}', '*', '?']) ∨
        ∃ g ∈ rest, g.length ≤ (utf8 (ds ++ cs)).length) := by
  induction fuel generalizing ds u with
  | zero => omega
  | succ fuel ih =>
    have hdrop : g0.drop (utf8 ds).length = u := by rw [he, List.drop_left]
    have htake : g0.take (utf8 ds).length = utf8 ds := by rw [he, List.take_left]
    have hle : (utf8 ds).length ≤ g0.length := by rw [he]; simp
    have stop : ∀ (hw : stopRune (decodeRune u).1 = true ∨
          intersectInner g0 (utf8 ds).length (decodeRune u).1 rest = true),
        intersectLoop g0 rest (fuel + 1) (utf8 ds).length = .ok (utf8 (ds ++ [])) := by
      intro hw
      rw [intersectLoop]
      simp only [sliceFrom, hle, if_true, R.bind_ok, sliceTo, hdrop, htake, List.append_nil]
      split
      · rfl
      · rename_i h
        rw [if_pos (hw.resolve_left h)]
    rcases RunesRanges.first_cases u with h | ⟨h1, h2, _⟩ | ⟨c, t, h1, h2, h3⟩
    · subst h
      exact ⟨[], [], rfl, stop (.inl (by decide)), by simp, by simp, .inl rfl⟩
    · exact ⟨[], u, rfl, stop (.inl (by rw [h2]; decide)), by simp, by simp, .inr (.inl h1)⟩
    · by_cases hs : stopRune c.toNat = true
      · exact ⟨[], u, rfl, stop (.inl (by rw [h3]; exact hs)), by simp, by simp,
          .inr (.inr (.inl ⟨c, t, h1, (stopRune_char.1 hs).resolve_left h2⟩))⟩
      · by_cases hi : intersectInner g0 (utf8 ds).length (decodeRune u).1 rest = true
        · obtain ⟨g, hg, hl⟩ := intersectInner_true (by rw [hdrop]) (by rw [h3]; simpa using hs) hi
          exact ⟨[], u, rfl, stop (.inr hi), by simp, by simp,
            .inr (.inr (.inr ⟨g, hg, by simpa using hl⟩))⟩
        · have hin := intersectInner_false (by simpa using hi)
          have hu1 : utf8 (ds ++ [c]) = utf8 ds ++ utf8 [c] := utf8_append _ _
          have hpos : 0 < (utf8 [c]).length := by
            rw [utf8_cons]
            have := encodeRune_pos c.toNat
            simp; omega
          obtain ⟨cs, tail, e1, e2, e3, e4, e5⟩ := ih (ds ++ [c]) t
            (by rw [hu1, he, h1, List.append_assoc])
            (by rw [h1, List.length_append] at hf; omega)
          refine ⟨c :: cs, tail, ?_, ?_, ?_, ?_, ?_⟩
          · rw [h1, e1, ← List.append_assoc, ← utf8_append]
            rfl
          · rw [intersectLoop]
            simp only [sliceFrom, hle, if_true, R.bind_ok, hdrop]
            rw [h3] at hi ⊢
            simp only [hs, hi, Bool.false_eq_true, if_false]
            rw [← List.length_append, ← hu1, e2]
            simp
          · intro x hx
            rcases List.mem_cons.1 hx with rfl | hx
            · exact ⟨h2, fun h => hs (stopRune_char.2 (.inr h))⟩
            · exact e3 x hx
          · intro pre x post e g hg
            cases pre with
            | nil => simpa using hin g hg
            | cons y pre =>
              rw [List.cons_append, List.cons.injEq] at e
              have := e4 pre x post e.2 g hg
              rw [e.1, List.append_assoc] at this
              exact this
          · simpa using e5

/-- `IntersectGlobs` on every non-empty list of byte strings.  It returns the longest beginning of
the first glob that consists of characters other than U+FFFD and wildcards, and whose last character
starts within every other glob.  The texts of the other globs do not matter, only their lengths. -/
theorem intersect_exact (g0 : Str) (rest : List Str) :
    ∃ (cs : List Char) (tail : Str), g0 = utf8 cs ++ tail ∧
      intersectGlobs (g0 :: rest) = .ok (utf8 cs) ∧
      (∀ c ∈ cs, c.toNat ≠ 0xFFFD ∧ c ∉ ['[', ']', '{', '}', '*', '?']) ∧
      (∀ pre c post, cs = pre ++ c :: post → ∀ g ∈ rest, (utf8 pre).length < g.length) ∧
      (tail = [] ∨ (tail ≠ [] ∧ ∀ (c : Char) t, tail = utf8 [c] ++ t → c.toNat = 0xFFFD) ∨
        (∃ c t, tail = utf8 [c] ++ t ∧ c ∈ ['[', ']', '{', '}', '*', '?']) ∨
        ∃ g ∈ rest, g.length ≤ (utf8 cs).length) := by
  obtain ⟨cs, tail, h1, h2, h3, h4, h5⟩ := intersectLoop_exact g0 rest (g0.length + 1) [] g0 rfl (by omega)
  exact ⟨cs, tail, h1, h2, h3, h4, h5⟩

/-- The property holds when the other globs begin with the literal beginning of the first one. -/
theorem intersect_common_partial (g0 : Str) (rest : List Str) (l : List Char) (t : Str)
    (h0 : g0 = utf8 l ++ t) (hl : ∀ c ∈ l, c.toNat ≠ 0xFFFD ∧ c ∉ ['[', ']', '{', '}', '*', '?'])
    (ht : t = [] ∨ ∃ c u, t = utf8 [c] ++ u ∧ c ∈ ['[', ']', '{', '}', '*', '?'])
    (hr : ∀ g ∈ rest, utf8 l <+: g) :
    ∃ p, intersectGlobs (g0 :: rest) = .ok p ∧ ∀ g ∈ g0 :: rest, p <+: g := by
  obtain ⟨cs, tail, h1, h2, h3, h4, h5⟩ := intersect_exact g0 rest
  clear h4 h5
  refine ⟨_, h2, ?_⟩
  have hp : utf8 cs <+: utf8 l := by
    clear h2 hr
    rw [h0] at h1
    clear h0
    induction cs generalizing l with
    | nil => exact List.nil_prefix
    | cons c cs ih =>
      have hdec : ∀ (d : Char) (ds : List Char) (x : Str), decodeRune (utf8 (d :: ds) ++ x) =
          (d.toNat, (encodeRune d.toNat).length) := by
        intro d ds x
        rw [utf8_cons, List.append_assoc, decodeRune_encode (Char.runeOk d)]
      cases l with
      | nil =>
        exfalso
        rcases ht with rfl | ⟨d, u, rfl, hd⟩
        · have := congrArg List.length h1
          rw [utf8_cons] at this
          have := encodeRune_pos c.toNat
          simp at *
        · have e := congrArg decodeRune h1
          have hx : utf8 [] ++ (utf8 [d] ++ u) = utf8 (d :: []) ++ u := rfl
          rw [hx, hdec, hdec, Prod.mk.injEq] at e
          have := Char.toNat_val_inj (c := d) (d := c) e.1
          subst this
          exact (h3 d (by simp)).2 hd
      | cons d ds =>
        have e := congrArg decodeRune h1
        rw [hdec, hdec, Prod.mk.injEq] at e
        have := Char.toNat_val_inj (c := d) (d := c) e.1
        subst this
        rw [utf8_cons d ds, utf8_cons d cs, List.append_assoc, List.append_assoc] at h1
        have := ih ds (fun x hx => hl x (by simp [hx])) (List.append_cancel_left h1)
          (fun x hx => h3 x (by simp [hx]))
        rw [utf8_cons d ds, utf8_cons d cs]
        exact (List.prefix_append_right_inj _).2 this
  intro g hg
  rcases List.mem_cons.1 hg with rfl | hg
  · exact ⟨tail, h1.symm⟩
  · exact hp.trans (hr g hg)

/-- `aя[b]`, `xyzt` -/
example : intersectGlobs [b! "aя[b]", b! "xy"] = .ok (b! "aя") ∧
    intersectGlobs [b! "aя[b]", b! "x"] = .ok (b! "a") ∧
    intersectGlobs [b! "aя" ++ [0xFF], b! "xyzt"] = .ok (b! "aя") := by decide +kernel
example : b! "ab*" = utf8 ['a', 'b'] ++ b! "*" ∧ b! "*" = utf8 ['*'] ++ [] ∧
    utf8 ['a', 'b'] <+: b! "ab?c" ∧ intersectGlobs [b! "ab*", b! "ab?c"] = .ok (b! "ab") := by
  decide +kernel

end C43
end GoMatcher
