import Verif.Proofs.Builder
import Verif.Proofs.Escape

/-! # C66: writers that share a builder do not disturb each other

All statements speak about a builder with arbitrary earlier content `buf`.  The texts on the right
sides are those of the other properties (`Unescape` of C48, `termsText` of C46, the class texts of
C61), so these theorems also carry those properties over to the buffered functions. -/

namespace GoMatcher

namespace C66

open Escape

/-- `UnescapeTo` of a text with `%` or `+` returns what `Unescape` returns, and appends just that. -/
theorem unescapeTo_appends (s : Str) (buf : Builder) (h : 37 ∈ s ∨ 43 ∈ s) :
    unescapeToB s buf = (Unescape s, buf ++ Unescape s) := by
  unfold unescapeToB Unescape
  cases hi : unescapeSet.index s with
  | none =>
    have hn := indexP_none.1 hi
    rcases h with h | h
    · have := hn _ h; rw [unescapeSet_contains] at this; simp at this
    · have := hn _ h; rw [unescapeSet_contains] at this; simp at this
  | some i => exact unescapeB_eq _ _ _

/-- Any other text is returned as it is, and the builder is not touched. -/
theorem unescapeTo_keeps (s : Str) (buf : Builder) (h : 37 ∉ s ∧ 43 ∉ s) :
    unescapeToB s buf = (s, buf) := by
  unfold unescapeToB
  have : unescapeSet.index s = none := by
    refine indexP_none.2 fun c hc => ?_
    rw [unescapeSet_contains, decide_eq_false_iff_not]
    rintro (rfl | rfl)
    · exact h.1 hc
    · exact h.2 hc
  rw [this]

/-- In both cases the string returned is that of `Unescape`, whatever the builder holds. -/
theorem unescapeTo_returns (s : Str) (buf : Builder) : (unescapeToB s buf).1 = Unescape s := by
  by_cases h : 37 ∈ s ∨ 43 ∈ s
  · rw [unescapeTo_appends s buf h]
  · rw [not_or] at h
    rw [unescapeTo_keeps s buf h]
    unfold Unescape
    have : unescapeSet.index s = none := by
      refine indexP_none.2 fun c hc => ?_
      rw [unescapeSet_contains, decide_eq_false_iff_not]
      rintro (rfl | rfl)
      · exact h.1 hc
      · exact h.2 hc
    rw [this]

/-- `UnescapeNameTo` returns the unescaped name, and the name behind `__name__=`; the latter is what
it appends. -/
theorem unescapeNameTo_appends (s : Str) (buf : Builder) :
    unescapeNameToB s buf =
      ((Unescape s, b!"__name__=" ++ Unescape s), buf ++ (b!"__name__=" ++ Unescape s)) := by
  unfold unescapeNameToB Unescape
  cases unescapeSet.index s with
  | none =>
    dsimp only
    rw [Builder.writeStr, Builder.writeStr, Builder.from_append, List.append_assoc,
      Builder.from_append]
  | some i =>
    dsimp only
    rw [unescapeB_eq, Builder.writeStr, List.append_assoc, Builder.from_append]

/-- `WriteString` of an item appends what `String` returns, and returns that too. -/
theorem item_appends (it : Item) (buf : Builder) :
    it.writeStringB buf = (it.stringB, buf ++ it.stringB) := by
  rw [Item.stringB, Item.writeStringB_eq, Item.writeStringB_eq]

/-- The written form of an item used in the other files is `String`. -/
theorem item_string (it : Item) : it.stringB = it.writeString := by
  rw [Item.stringB, Item.writeStringB_eq]

/-- The loop of `Parse` that builds `Node` (glob.go:274-276): the texts of the items in order. -/
theorem items_append (l : List Item) (buf : Builder) :
    Item.writeItemsB l buf = buf ++ (l.map Item.stringB).flatten := by
  rw [Item.writeItemsB_eq]
  congr 1
  induction l with
  | nil => rfl
  | cons x l ih => rw [Item.writeItems, ih, List.map_cons, List.flatten_cons, item_string]

/-- Character classes. -/
theorem class_appends (rs : RunesRanges) (buf : Builder) :
    rs.writeStringB buf = buf ++ rs.stringB ∧ rs.stringB = rs.writeString := by
  constructor <;> simp [RunesRanges.stringB, RunesRanges.writeStringB_eq]

/-- Sets of ASCII characters, both written forms. -/
theorem ascii_appends (s : ASCIISet) (buf : Builder) :
    (s.writeStringB buf = buf ++ s.stringB ∧ s.stringB = s.writeString) ∧
    s.writeStringAllB buf = buf ++ s.stringAllB ∧ s.stringAllB = s.writeStringAll := by
  simp [ASCIISet.stringB, ASCIISet.stringAllB, ASCIISet.writeStringB_eq, ASCIISet.writeStringAllB,
    ASCIISet.writeAllLoopB_eq, ASCIISet.writeStringAll]

/-- Queries. -/
theorem query_appends (ts : List TTerm) (buf : Builder) :
    termsWriteB ts buf = buf ++ termsText ts := termsWriteB_eq ts buf

/-- Any number of texts unescaped into one builder: each call returns its own text. -/
theorem unescape_many (ss : List Str) (buf : Builder) :
    (ss.foldl (fun (r : List Str × Builder) s =>
        (r.1 ++ [(unescapeToB s r.2).1], (unescapeToB s r.2).2)) ([], buf)).1 = ss.map Unescape := by
  have h : ∀ (ss : List Str) (out : List Str) (buf : Builder),
      (ss.foldl (fun (r : List Str × Builder) s =>
        (r.1 ++ [(unescapeToB s r.2).1], (unescapeToB s r.2).2)) (out, buf)).1 =
        out ++ ss.map Unescape := by
    intro ss
    induction ss with
    | nil => simp
    | cons s ss ih =>
      intro out buf
      rw [List.foldl_cons, ih, unescapeTo_returns]
      simp
  simpa using h ss [] buf

/-! ### Examples -/

example : unescapeToB (b!"a%20b+c%4") (b!"old") = (b!"a b c%4", b!"olda b c%4") := by decide +kernel
example : unescapeToB (b!"ab") (b!"old") = (b!"ab", b!"old") := by decide +kernel
example : unescapeNameToB (b!"a%2Eb") (b!"x") = ((b!"a.b", b!"__name__=a.b"), b!"x__name__=a.b") := by
  decide +kernel
example : (Item.group [.str (b!"ab"), .chain [.star 1, .byte 99] 0 0] 0 0).writeStringB (b!"x") =
    (b!"{ab,*?c}", b!"x{ab,*?c}") := by decide +kernel
example : (37 ∈ b!"a%20" ∨ 43 ∈ b!"a%20") ∧ (37 ∉ b!"ab" ∧ 43 ∉ b!"ab") := by decide

end C66

end GoMatcher
