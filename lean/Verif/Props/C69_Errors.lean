import Verif.Proofs.QueryFaults
import Verif.Props.C53_Dotted
import Verif.Props.C52_Queries

/-! # C69: what the errors of the parsers say

`Spec/Faults` and `Spec/QueryFaults` describe the error of a text without the parser. -/

namespace GoMatcher
namespace C69

/-- `glob.Parse` on every byte string: the error, with the text it carries. -/
theorem glob_error (s : Str) (e : GErr) : parseGlob s = .ok (.error e) ↔ Reports e s :=
  parse_error_iff

/-- `gglob.Parse` on every byte string. -/
theorem dotted_error (s : Str) (e : GGErr) : parseGGlob s = .ok (.error e) ↔ NodeReports e s :=
  parseGGlob_error_iff

/-- `ParseSeriesByTag` on every byte string. -/
theorem query_error (lib : GoLib) (q : Str) (e : TagErr) :
    parseSeriesByTag lib q = .ok (.error e) ↔ QueryReports lib e q :=
  query_error_iff

/-! ## The messages -/

/-- The message `m` about the piece `seg` of a glob. -/
def GlobSays (m seg : Str) : Prop :=
  m = b!"node type 'rune' mismatch: " ++ seg ∨ m = b!"node type 'list' mismatch: " ++ seg ∨
    m = b!"glob contain unclosed node segment: " ++ seg

/-- The message `m` about the piece `seg` of a query. -/
def QuerySays (m seg : Str) : Prop :=
  m = b!"wrong seriesByTag call: " ++ seg ∨ m = b!"wrong seriesByTag expr: " ++ seg ∨
    m = b!"overflow seriesByTag expr: " ++ seg ∨
    m = b!"seriesByTag node contains no childs or Terminated: []string{" ++ seg ∨ GlobSays m seg

theorem infix_trans {a b c : Str} (h : a <:+: b) (h' : b <:+: c) : a <:+: c := h.trans h'

theorem part_infix {parts : List Str} {a : Str} (h : a ∈ parts) :
    a <:+: List.intercalate [44] parts := by
  rw [intercalate_joinByte]
  induction parts with
  | nil => cases h
  | cons c l ih =>
    cases l with
    | nil =>
      rw [List.mem_singleton.1 h]
      exact ⟨[], [], by simp [joinByte]⟩
    | cons d l =>
      rcases List.mem_cons.1 h with rfl | h
      · exact ⟨[], 44 :: joinByte 44 (d :: l), by simp [joinByte]⟩
      · obtain ⟨x, y, e⟩ := ih h
        exact ⟨c ++ 44 :: x, y, by rw [joinByte, ← e]; simp⟩

theorem fault_names {e : GErr} {w : Str} (h : Fault e w) :
    ∃ seg, seg <:+: w ∧ ¬ Row GlobPiece seg ∧ GlobSays e.text seg := by
  induction h with
  | openClass h => exact ⟨_, List.infix_rfl, glob_class_open h, .inl rfl⟩
  | badClass h hc =>
    refine ⟨_, ⟨[], _, by rw [List.nil_append, List.append_assoc]; rfl⟩, ?_, .inl rfl⟩
    intro hr
    exact hc ((glob_class (r := []) h).1 hr).1
  | openList h => exact ⟨_, List.infix_rfl, glob_brace_open h, .inr (.inl rfl)⟩
  | close h => exact ⟨_, List.infix_rfl, glob_close h, .inr (.inr rfl)⟩
  | @alternative e parts v p w q h1 hv h2 h3 h4 e1 hp hf ih =>
    obtain ⟨seg, h5, h6⟩ := ih
    refine ⟨seg, infix_trans h5 (infix_trans ?_ (infix_trans (part_infix hv) ?_)), h6⟩
    · exact ⟨p, [], by simp [e1]⟩
    · exact ⟨[123], 125 :: q, by simp⟩

theorem reports_names {e : GErr} {s : Str} (h : Reports e s) :
    ∃ seg, seg <:+: s ∧ ¬ Row GlobPiece seg ∧ GlobSays e.text seg := by
  rcases h with ⟨p, c, t, rfl, hc, hpt, rfl⟩ | ⟨p, w, q, rfl, hp, hf, _⟩
  · refine ⟨c :: t, ⟨p, [], by simp⟩, ?_, .inr (.inr rfl)⟩
    have : Reports (.unclosed (c :: t)) (c :: t) :=
      .inl ⟨[], c, t, rfl, hc, fun b hb => hpt b (by simpa using .inr hb), rfl⟩
    exact this.notRow
  · obtain ⟨seg, h1, h2⟩ := fault_names hf
    exact ⟨seg, infix_trans h1 ⟨p, q, rfl⟩, h2⟩

/-- The message of an error of `glob.Parse` ends with a piece of the glob that on its own is not
well formed (`Parse` refuses it, C51). -/
theorem glob_message (s : Str) (e : GErr) (h : parseGlob s = .ok (.error e)) :
    ∃ seg, seg <:+: s ∧ (∃ e', parseGlob seg = .ok (.error e')) ∧
      GlobSays e.text seg := by
  obtain ⟨seg, h1, h2, h3⟩ := reports_names (parse_error_iff.1 h)
  exact ⟨seg, h1, (C51.accepted_iff seg).2.2 h2, h3⟩

theorem node_names {path s : Str} {e : GGErr} (h : NodeFault path e s) :
    (e.text = b!"empty node in path: " ++ path ∧ (s.head? = some 46 ∨ [46, 46] <:+: s)) ∨
    ∃ seg, seg <:+: s ∧ 46 ∉ seg ∧ ¬ Row GlobPiece seg ∧ GlobSays e.text seg := by
  have sub : ∀ {p : Str} {e : GErr}, 46 ∉ p → Reports e p →
      ∃ seg, seg <:+: p ∧ 46 ∉ seg ∧ ¬ Row GlobPiece seg ∧
        GlobSays (GGErr.part e).text seg := by
    intro p e hp h
    obtain ⟨seg, h1, h2, h3⟩ := reports_names h
    exact ⟨seg, h1, fun hm => hp (h1.subset hm), h2, h3⟩
  induction h with
  | empty => exact .inl ⟨rfl, .inl rfl⟩
  | last _ h2 h3 => exact .inr (sub h2 h3)
  | @part e p t _ h2 h3 =>
    obtain ⟨seg, h4, h5⟩ := sub h2 h3
    exact .inr ⟨seg, infix_trans h4 ⟨[], 46 :: t, by simp⟩, h5⟩
  | @next e p t h1 h2 h3 _ ih =>
    have hi : t <:+: p ++ 46 :: t := ⟨p ++ [46], [], by simp⟩
    rcases ih with ⟨h4, h5⟩ | ⟨seg, h4, h5⟩
    · refine .inl ⟨h4, .inr ?_⟩
      rcases h5 with h5 | h5
      · cases t with
        | nil => cases h5
        | cons x t =>
          simp only [List.head?_cons, Option.some.injEq] at h5
          subst h5
          exact ⟨p, t, by simp⟩
      · exact infix_trans h5 hi
    · exact .inr ⟨seg, infix_trans h4 hi, h5⟩

/-- The message of an error of `gglob.Parse` names the path, without a last dot, and the path
begins with a dot or has two dots in a row; or it ends with a piece of a node that is not well
formed. -/
theorem dotted_message (s : Str) (e : GGErr) (h : parseGGlob s = .ok (.error e)) :
    (∃ t, (s = t ∨ s = t ++ [46]) ∧ e.text = b!"empty node in path: " ++ t ∧
      (t.head? = some 46 ∨ [46, 46] <:+: t)) ∨
    ∃ seg, seg <:+: s ∧ 46 ∉ seg ∧ (∃ e', parseGlob seg = .ok (.error e')) ∧
      GlobSays e.text seg := by
  rcases parseGGlob_error_iff.1 h with ⟨_, h1⟩ | ⟨t, rfl, h1⟩
  · rcases node_names h1 with ⟨h2, h3⟩ | ⟨seg, h2, h3, h4, h5⟩
    · exact .inl ⟨s, .inl rfl, h2, h3⟩
    · exact .inr ⟨seg, h2, h3, (C51.accepted_iff seg).2.2 h4, h5⟩
  · rcases node_names h1 with ⟨h2, h3⟩ | ⟨seg, h2, h3, h4, h5⟩
    · exact .inl ⟨t, .inr rfl, h2, h3⟩
    · exact .inr ⟨seg, infix_trans h2 ⟨[], [46], by simp⟩, h3, (C51.accepted_iff seg).2.2 h4, h5⟩

theorem list_names {q s : Str} {n : Nat} {e : TagErr} (h : ListFault q n e s) :
    ∃ seg, QuerySays e.text seg ∧ (seg = q ∨ seg <:+: s) := by
  induction h with
  | stray _ => exact ⟨_, .inr (.inr (.inr (.inl rfl))), .inr List.infix_rfl⟩
  | @quote n c t _ _ => exact ⟨t, .inr (.inr (.inr (.inl rfl))), .inr ⟨[c], [], by simp⟩⟩
  | over _ _ _ => exact ⟨q, .inr (.inr (.inl rfl)), .inl rfl⟩
  | @sep n e c s _ _ ih =>
    obtain ⟨seg, h1, h2⟩ := ih
    exact ⟨seg, h1, h2.imp id fun h => infix_trans h ⟨[c], [], by simp⟩⟩
  | @skip n e c s _ _ ih =>
    obtain ⟨seg, h1, h2⟩ := ih
    exact ⟨seg, h1, h2.imp id fun h => infix_trans h ⟨[c, c], [], by simp⟩⟩
  | @text n e c w s _ _ _ _ ih =>
    obtain ⟨seg, h1, h2⟩ := ih
    exact ⟨seg, h1, h2.imp id fun h => infix_trans h ⟨c :: w ++ [c], [], by simp⟩⟩

theorem quoted_infix {s : Str} {cs : List Str} (h : QuotedList s cs) {c : Str} (hc : c ∈ cs) :
    c <:+: s := by
  induction h with
  | nil => cases hc
  | @sep x s cs _ _ ih => exact infix_trans (ih hc) ⟨[x], [], by simp⟩
  | @empty x s cs _ _ ih => exact infix_trans (ih hc) ⟨[x, x], [], by simp⟩
  | @text x w s cs _ _ _ _ ih =>
    rcases List.mem_cons.1 hc with rfl | hc
    · exact ⟨[x], x :: s, by simp⟩
    · exact infix_trans (ih hc) ⟨x :: w ++ [x], [], by simp⟩

theorem value_infix {c k v : Str} {op : TagOp} (h : CondText c k op v) : v <:+: c := by
  obtain ⟨k0, v0, rfl, _, _, _, _, ⟨a, b, _, _, rfl⟩, _⟩ := h
  exact ⟨k0 ++ opSign op ++ utf8 a, utf8 b, by simp⟩

theorem cond_names {lib : GoLib} {e : TagErr} {c : Str} (h : CondFault lib e c) :
    ∃ seg, QuerySays e.text seg ∧ seg <:+: c := by
  cases h with
  | noOp _ => exact ⟨c, .inr (.inl rfl), List.infix_rfl⟩
  | noKey _ => exact ⟨_, .inr (.inl rfl), List.infix_rfl⟩
  | @badOp k r _ _ _ => exact ⟨r, .inr (.inl rfl), ⟨k, [], by simp⟩⟩
  | regexp hc _ _ => exact ⟨_, .inr (.inl rfl), value_infix hc⟩
  | glob hc _ hr =>
    obtain ⟨seg, h1, h2, h3⟩ := reports_names hr
    exact ⟨seg, .inr (.inr (.inr (.inr h3))), infix_trans h1 (value_infix hc)⟩

/-- The message of an error of `ParseSeriesByTag` ends with a piece of the query. -/
theorem query_message (lib : GoLib) (q : Str) (e : TagErr)
    (h : parseSeriesByTag lib q = .ok (.error e)) : ∃ seg, QuerySays e.text seg ∧ seg <:+: q := by
  rcases query_error_iff.1 h with ⟨rfl, _⟩ | ⟨s, ⟨m, n, hq⟩, h1⟩ | ⟨l, c, r, ⟨m, n, s, hq, h1⟩, _, _, h2⟩
  · exact ⟨q, .inl rfl, List.infix_rfl⟩
  · obtain ⟨seg, h2, h3⟩ := list_names h1
    refine ⟨seg, h2, ?_⟩
    rcases h3 with rfl | h3
    · exact List.infix_rfl
    · exact infix_trans h3 ⟨List.replicate m 32 ++ b!"seriesByTag(", b!")" ++ List.replicate n 32,
        by rw [hq]; simp only [List.append_assoc]⟩
  · obtain ⟨seg, h3, h4⟩ := cond_names h2
    refine ⟨seg, h3, infix_trans h4 (infix_trans (quoted_infix h1 (by simp)) ?_)⟩
    exact ⟨List.replicate m 32 ++ b!"seriesByTag(", b!")" ++ List.replicate n 32,
      by rw [hq]; simp only [List.append_assoc]⟩

/-! ## Examples -/

/-- A reversed range behind a class and a list. -/
example : parseGlob (b! "a[bc]{d,e}[z-a]*f") = .ok (.error (.mismatch (b! "rune") (b! "[z-a]"))) := rfl

/-- Only the text up to the last special byte is named, … -/
example : parseGlob (b! "a*]bc") = .ok (.error (.unclosed (b! "]"))) := rfl

/-- … unless the special byte is alone. -/
example : parseGlob (b! "a]bc") = .ok (.error (.unclosed (b! "]bc"))) := rfl

/-- Of two faulty alternatives the one is named that comes first in the order of bytes. -/
example : parseGlob (b! "{b[,a]}") = .ok (.error (.unclosed (b! "]"))) := rfl

/-- The same text by the specification. -/
example : Reports (.unclosed (b! "]")) (b! "{b[,a]}") := (glob_error _ _).1 rfl

example : parseGGlob (b! "a..b.") = .ok (.error (.nodeEmpty (b! "a..b"))) :=
  (dotted_error _ _).2 (.inr ⟨b! "a..b", rfl,
    .next (p := b! "a") (t := b! ".b") (by decide) (by decide)
      ((C51.accepted_iff _).1.1 ⟨_, rfl⟩) .empty⟩)

example : ListFault (b! "q") 1 (.notTerminated (b! "b=c")) (b! "'a=b',\"b=c") :=
  .text (w := b! "a=b") (s := b! ",\"b=c") (c := 39) (by decide) (by decide) (by decide)
    (.sep (by decide) (.quote (by decide) (by decide)))

example (lib : GoLib) : parseSeriesByTag lib (b! "seriesByTag('a=b', 'c~d')") =
    .ok (.error (.exprInvalid (b! "~d"))) :=
  (query_error _ _ _).2 (.inr (.inr ⟨[b! "a=b"], b! "c~d", [],
    ⟨0, 0, b! "'a=b', 'c~d'", rfl,
      .text (w := b! "a=b") (q := 39) (.inl rfl) (by decide) (by decide)
        (.sep (.inr rfl) (.sep (.inl rfl) (.text (w := b! "c~d") (q := 39) (.inl rfl) (by decide)
          (by decide) .nil)))⟩, by decide, (by
      intro x hx e' hf
      rw [List.mem_singleton.1 hx, ← term_error_iff] at hf
      cases hf),
    .badOp (k := b! "c") (r := b! "~d") (by decide) (by unfold OpByte; decide) (.inl rfl)⟩))

end C69
end GoMatcher
