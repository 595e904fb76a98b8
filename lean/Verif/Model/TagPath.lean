import Verif.Model.Escape
import Verif.Model.GoMap

/-! # Model of tagged paths (`gtags/tagged_term.go:311-481`)

The `Graphite…` functions and the plain ones differ only in the separators: `;` and `;`, or
`?` and `&`.  The model has one function with the separators as parameters. -/

namespace GoMatcher

/-- `Tag` (tagged_term.go:398-401). -/
structure Tag where
  key : Str
  value : Str
  deriving DecidableEq, Repr

/-- `ErrPathInvalid` (errors.go:35-38). -/
structure ErrPathInvalid where
  node : Str
  reason : Str
  deriving DecidableEq, Repr

/-- `ErrPathInvalid.Error` (errors.go:40-42). -/
def ErrPathInvalid.text (e : ErrPathInvalid) : Str :=
  b!"invalid path: '" ++ e.node ++ b!"' " ++ e.reason

/-- `strings.Cut(s, sep)` for a one-byte separator: text before, text after, found. -/
def cutByte (sep : UInt8) : Str → Str × Str × Bool
  | [] => ([], [], false)
  | c :: t =>
    if c = sep then ([], t, true)
    else
      let r := cutByte sep t
      (c :: r.1, r.2.1, r.2.2)

theorem cutByte_length (sep : UInt8) (s : Str) (h : s ≠ []) :
    (cutByte sep s).2.1.length < s.length := by
  induction s with
  | nil => exact absurd rfl h
  | cons c t ih =>
    rw [cutByte]
    split
    · simp
    · cases t with
      | nil => simp [cutByte]
      | cons d t =>
        have := ih (by simp)
        simp only [List.length_cons] at this ⊢
        omega

theorem cutByte_length_le (sep : UInt8) (s : Str) :
    (cutByte sep s).2.1.length ≤ s.length := by
  cases s with
  | nil => simp [cutByte]
  | cons c t => exact Nat.le_of_lt (cutByte_length sep _ (by simp))

/-- `NextTag` (tagged_term.go:382-388, `sep` is `&`) and `GraphiteNextTag` (390-396, `sep` is
`;`): tag, value, rest, found. -/
def nextTag (sep : UInt8) (tags : Str) : Str × Str × Str × Bool :=
  let r := cutByte 61 tags
  if r.2.2 then
    let q := cutByte sep r.2.1
    (r.1, q.1, q.2.1, true)
  else (r.1, [], r.2.1, false)

theorem nextTag_length (sep : UInt8) (s : Str) (h : s ≠ []) :
    (nextTag sep s).2.2.1.length < s.length := by
  have h1 := cutByte_length 61 s h
  unfold nextTag
  dsimp only
  split
  · have := cutByte_length_le sep (cutByte 61 s).2.1
    dsimp only
    omega
  · exact h1

/-- The error of the loops (tagged_term.go:327, 352, 375, 419, 442, 467); the variable `kv`
is never assigned. -/
def errNoDelim : ErrPathInvalid := ⟨[], b!"not delimited with ="⟩

/-- Loop of `PathTags` (tagged_term.go:415-422) and `GraphitePathTags` (371-378): the
appended tags and the error of the loop. -/
def pathTagsLoop (sep : UInt8) (args : Str) : List Tag × Option ErrPathInvalid :=
  match args with
  | [] => ([], none)
  | c :: t =>
    let r := nextTag sep (c :: t)
    if r.2.2.2 then
      let q := pathTagsLoop sep r.2.2.1
      (⟨Escape.Unescape r.1, Escape.Unescape r.2.1⟩ :: q.1, q.2)
    else ([], some errNoDelim)
termination_by args.length
decreasing_by exact nextTag_length _ _ (by simp)

/-- `"__name__"`. -/
def nameKey : Str := b!"__name__"

/-- `PathTags` (tagged_term.go:404-424; separators `?` and `&`) and `GraphitePathTags`
(360-380; separators `;` and `;`): tags and error.  The reason of the first error is
`"not found in " + name` in `PathTags` (407) and `"not found"` in `GraphitePathTags` (363). -/
def pathTags (nameSep sep : UInt8) (path : Str) : List Tag × Option ErrPathInvalid :=
  let r := cutByte nameSep path
  let err := if !r.2.2 ∨ r.1.contains 61 then
    some ⟨b!"name", if nameSep = 63 then b!"not found in " ++ r.1 else b!"not found"⟩ else none
  let q := pathTagsLoop sep r.2.1
  (⟨nameKey, Escape.Unescape r.1⟩ :: q.1, q.2.or err)

/-- Loop of `PathTagsMap` (tagged_term.go:437-445), `PathTagsMapB` (462-470) and the Graphite
variants (322-330, 347-355): the map after the loop and the error of the loop. -/
def pathTagsMapLoop (sep : UInt8) (args : Str) (tags : GoMap Str Str) :
    GoMap Str Str × Option ErrPathInvalid :=
  match args with
  | [] => (tags, none)
  | c :: t =>
    let r := nextTag sep (c :: t)
    if r.2.2.2 then
      pathTagsMapLoop sep r.2.2.1 (tags.set (Escape.Unescape r.1) (Escape.Unescape r.2.1))
    else (tags, some errNoDelim)
termination_by args.length
decreasing_by exact nextTag_length _ _ (by simp)

/-- `PathTagsMap` (tagged_term.go:427-447) and `GraphitePathTagsMap` (312-332). -/
def pathTagsMap (nameSep sep : UInt8) (path : Str) : GoMap Str Str × Option ErrPathInvalid :=
  let r := cutByte nameSep path
  let err := if !r.2.2 ∨ r.1.contains 61 then some ⟨b!"name", b!"not found"⟩ else none
  let tags : GoMap Str Str := []
  let q := pathTagsMapLoop sep r.2.1 (tags.set nameKey (Escape.Unescape r.1))
  (q.1, q.2.or err)

/-- `PathTagsMapB` (tagged_term.go:450-472) and `GraphitePathTagsMapB` (335-357): the content
of the map afterwards and the error. -/
def pathTagsMapB (nameSep sep : UInt8) (path : Str) (tags : GoMap Str Str) :
    GoMap Str Str × Option ErrPathInvalid :=
  let r := cutByte nameSep path
  let err := if !r.2.2 ∨ r.1.contains 61 then some ⟨b!"name", b!"not found"⟩ else none
  let tags := tags.foldl (fun m kv => m.delete kv.1) tags
  let q := pathTagsMapLoop sep r.2.1 (tags.set nameKey (Escape.Unescape r.1))
  (q.1, q.2.or err)

/-- `TagsMap` (tagged_term.go:475-481). -/
def tagsMap (tags : List Tag) : GoMap Str Str := tags.foldl (fun m t => m.set t.key t.value) []

end GoMatcher
