import Verif.Model.Glob
import Verif.Model.TagPath

/-! # Model of `seriesByTag` queries (`gtags/tagged_term.go:14-310`) -/

namespace GoMatcher

/-- `TaggedTermOp` (tagged_term.go:16-23). -/
inductive TagOp where
  | eq | mt | ne | nm
  deriving DecidableEq, Repr

/-- The constants (tagged_term.go:19-22). -/
def TagOp.num : TagOp → Nat
  | .eq => 1
  | .mt => 2
  | .ne => 3
  | .nm => 4

/-- `TaggedTermOp.String` (tagged_term.go:25-31). -/
def TagOp.text : TagOp → Str
  | .eq => b!"="
  | .mt => b!"=~"
  | .ne => b!"!="
  | .nm => b!"!=~"

/-- `TaggedTerm` (tagged_term.go:33-40).  A compiled regular expression is represented by
its source text. -/
structure TTerm where
  key : Str := []
  op : TagOp := .eq
  value : Str := []
  hasWildcard : Bool := false
  glob : Option Glob := none
  re : Option Str := none

/-- What the comparison of `sort.Slice` looks at. -/
def TTerm.id (t : TTerm) : Str × TagOp × Str := (t.key, t.op, t.value)

/-- The comparison function given to `sort.Slice` (tagged_term.go:291-306): `terms[i] < terms[j]`. -/
def TTerm.less (a b : TTerm) : Bool :=
  if a.key = b.key then
    if a.op = b.op then strLt a.value b.value
    else a.op.num < b.op.num
  else if a.key = nameKey then true
  else if b.key = nameKey then false
  else strLt a.key b.key

/-- The parts of the Go library that the model does not describe further: the regular
expression engine (`regexp.Compile` succeeds, `MatchString`) and the order in which
`sort.Slice`, which is not stable, leaves terms that compare equal. -/
structure GoLib where
  reCompiles : Str → Bool
  reMatch : Str → Str → Bool
  sortTerms : List TTerm → List TTerm
  sort_perm : ∀ l, (sortTerms l).Perm l
  sort_sorted : ∀ l, (sortTerms l).Pairwise fun a b => TTerm.less b a = false

/-- Errors of the query parser (`gtags/errors.go`, `glob/errors.go`). -/
inductive TagErr where
  | queryInvalid (s : Str) | exprInvalid (s : Str) | exprOverflow (s : Str)
  | notTerminated (s : Str) | glob (e : GErr)
  deriving DecidableEq, Repr

/-- `Error` of these errors (gtags/errors.go:7-9, 15-17, 23-25, 31-33). -/
def TagErr.text : TagErr → Str
  | .queryInvalid s => b!"wrong seriesByTag call: " ++ s
  | .exprInvalid s => b!"wrong seriesByTag expr: " ++ s
  | .exprOverflow s => b!"overflow seriesByTag expr: " ++ s
  | .notTerminated s => b!"seriesByTag node contains no childs or Terminated: []string{" ++ s
  | .glob e => e.text

/-- `TaggedTerm.WriteString` (tagged_term.go:42-46). -/
def TTerm.text (t : TTerm) : Str := t.key ++ t.op.text ++ t.value

/-- The loop of `TaggedTermList.WriteString` (tagged_term.go:107-114). -/
def termTexts : List TTerm → Str
  | [] => []
  | [t] => b!"'" ++ t.text ++ b!"'"
  | t :: ts => b!"'" ++ t.text ++ b!"'" ++ b!"," ++ termTexts ts

/-- `TaggedTermList.String` (tagged_term.go:105-123). -/
def termsText (ts : List TTerm) : Str := b!"seriesByTag(" ++ termTexts ts ++ b!")"

/-- `TaggedTerm.build` (tagged_term.go:55-76). -/
def TTerm.build (lib : GoLib) (t : TTerm) : R (Except TagErr TTerm) :=
  if t.op = .mt ∨ t.op = .nm then
    if lib.reCompiles t.value then .ok (.ok { t with re := some t.value })
    else .ok (.error (.exprInvalid t.value))
  else if GoMatcher.hasWildcard t.value then do
    match ← parseGlob t.value with
    | .error e => .ok (.error (.glob e))
    | .ok g =>
      if g.items.length = 0 then
        .ok (.ok { t with value := g.node, glob := none, hasWildcard := false })
      else .ok (.ok { t with value := g.node, glob := some g, hasWildcard := true })
  else .ok (.ok t)

/-- `term.Glob.Match(v)`; a nil `Glob` panics. -/
def TTerm.globMatch (t : TTerm) (v : Str) : R Bool :=
  match t.glob with
  | some g => g.matches v
  | none => .panic

/-- `term.Re.MatchString(v)`; a nil `Re` panics. -/
def TTerm.reMatch (lib : GoLib) (t : TTerm) (v : Str) : R Bool :=
  match t.re with
  | some r => .ok (lib.reMatch r v)
  | none => .panic

/-- `!x`. -/
def R.not : R Bool → R Bool
  | .ok b => .ok !b
  | .panic => .panic
  | .timeout => .timeout

/-- `TaggedTerm.Match` (tagged_term.go:78-100). -/
def TTerm.matches (lib : GoLib) (t : TTerm) (v : Str) : R Bool :=
  match t.op with
  | .eq => if t.hasWildcard then t.globMatch v else .ok (v = t.value)
  | .ne => if t.hasWildcard then (t.globMatch v).not else .ok (!decide (v = t.value))
  | .mt => t.reMatch lib v
  | .nm => (t.reMatch lib v).not

/-- `TaggedTermList.MatchByTagsMap` (tagged_term.go:126-138). -/
def matchByTagsMap (lib : GoLib) (terms : List TTerm) (tags : GoMap Str Str) : R Bool :=
  match terms with
  | [] => .ok true
  | t :: ts =>
    match tags.get t.key with
    | some v => do
      let m ← t.matches lib v
      if !m then .ok false else matchByTagsMap lib ts tags
    | none => if t.op ≠ .ne ∧ t.op ≠ .nm then .ok false else matchByTagsMap lib ts tags

/-- The scan of `MatchByTags` (tagged_term.go:153-157): the rest of the tags from the first one with
this key on. -/
def scanTag (key : Str) : List Tag → List Tag
  | [] => []
  | t :: ts => if t.key = key then t :: ts else scanTag key ts

/-- `TaggedTermList.MatchByTags` (tagged_term.go:141-172); `tags` is `tags[i:]`.  When the key
of `tags[i]` is the key of the term, the scan stops at once. -/
def matchByTags (lib : GoLib) (terms : List TTerm) (tags : List Tag) : R Bool :=
  match terms with
  | [] => .ok true
  | t :: ts =>
    match tags with
    | [] => if t.op = .ne ∨ t.op = .nm then matchByTags lib ts [] else .ok false
    | g :: gs =>
      match scanTag t.key (g :: gs) with
      | [] => if t.op = .ne ∨ t.op = .nm then matchByTags lib ts [] else .ok false
      | h :: hs => do
        let m ← t.matches lib h.value
        if !m then .ok false else matchByTags lib ts (h :: hs)

/-- `parseString` (tagged_term.go:174-193): the quoted text and the rest, or the error; `s[0]`
panics on the empty string. -/
def parseQuoted (s : Str) : R (Except TagErr (Str × Str)) :=
  match s with
  | [] => .panic
  | q :: t =>
    if q ≠ 39 ∧ q ≠ 34 then .ok (.error (.notTerminated s))
    else
      let r := cutByte q t
      if r.2.2 then .ok (.ok (r.1, r.2.1)) else .ok (.error (.notTerminated t))

theorem parseQuoted_length {s a e : Str} (h : parseQuoted s = .ok (.ok (a, e))) :
    e.length < s.length := by
  cases s with
  | nil => simp [parseQuoted] at h
  | cons q t =>
    simp only [parseQuoted] at h
    split at h
    · simp at h
    · split at h
      · simp only [R.ok.injEq, Except.ok.injEq, Prod.mk.injEq] at h
        rw [← h.2]
        have := cutByte_length_le q t
        simp only [List.length_cons]
        omega
      · simp at h

/-- The loop of `seriesByTagArgs` (tagged_term.go:208-229); `room` is `len(args) - n`. -/
def argsLoop (query : Str) (room : Nat) (e : Str) : R (Except TagErr (List Str)) :=
  match e with
  | [] => .ok (.ok [])
  | c :: t =>
    if c = 39 ∨ c = 34 then
      match h : parseQuoted (c :: t) with
      | .ok (.ok (arg, rest)) =>
        have := parseQuoted_length h
        if arg = [] then argsLoop query room rest
        else match room with
          | 0 => .ok (.error (.exprOverflow query))
          | room + 1 => do
            match ← argsLoop query room rest with
            | .error e => .ok (.error e)
            | .ok as => .ok (.ok (arg :: as))
      | .ok (.error e) => .ok (.error e)
      | .panic => .panic
      | .timeout => .timeout
    else if c = 32 ∨ c = 44 then argsLoop query room t
    else .ok (.error (.notTerminated (c :: t)))
termination_by e.length

/-- `strings.Trim(s, " ")`. -/
def trimBlank (s : Str) : Str := ((s.dropWhile (· = 32)).reverse.dropWhile (· = 32)).reverse

/-- `seriesByTagArgs` (tagged_term.go:195-231) with `size` places for arguments. -/
def seriesByTagArgs (query : Str) (size : Nat) : R (Except TagErr (List Str)) :=
  let e := trimBlank query
  if !hasPrefix e (b!"seriesByTag(") then .ok (.error (.queryInvalid query))
  else if e.getLast? ≠ some 41 then .ok (.error (.queryInvalid query))
  else argsLoop query size ((e.drop 12).dropLast)

/-- The encodings of the characters that `unicode.IsSpace` accepts. -/
def spaceEnc : List Str :=
  [[9], [10], [11], [12], [13], [32], [0xC2, 0x85], [0xC2, 0xA0], [0xE1, 0x9A, 0x80],
   [0xE2, 0x80, 0x80], [0xE2, 0x80, 0x81], [0xE2, 0x80, 0x82], [0xE2, 0x80, 0x83],
   [0xE2, 0x80, 0x84], [0xE2, 0x80, 0x85], [0xE2, 0x80, 0x86], [0xE2, 0x80, 0x87],
   [0xE2, 0x80, 0x88], [0xE2, 0x80, 0x89], [0xE2, 0x80, 0x8A], [0xE2, 0x80, 0xA8],
   [0xE2, 0x80, 0xA9], [0xE2, 0x80, 0xAF], [0xE2, 0x81, 0x9F], [0xE3, 0x80, 0x80]]

/-- Removes encodings from the list from the front of the text, as long as there are any;
`n` bounds the number of rounds. -/
def trimFront (enc : List Str) : Nat → Str → Str
  | 0, s => s
  | n + 1, s =>
    match enc.find? (fun e => e.isPrefixOf s) with
    | some e => trimFront enc n (s.drop e.length)
    | none => s

/-- `strings.TrimSpace`.  The Go function decodes runes from both ends; a rune is removed when it is
white space.  The encodings of white space are complete UTF-8 sequences, so a text starts
(ends) with such a rune exactly when it starts (ends) with one of these byte sequences. -/
def trimSpace (s : Str) : Str :=
  let a := trimFront spaceEnc s.length s
  (trimFront (spaceEnc.map List.reverse) a.length a.reverse).reverse

/-- The bytes `=`, `~`, `!` (tagged_term.go:255). -/
def isOpByte (c : UInt8) : Bool := c = 61 ∨ c = 126 ∨ c = 33

/-- Operator and value of a condition; `s` starts at the first of these bytes
(tagged_term.go:260-280). -/
def parseOp (key s : Str) : Except TagErr TTerm :=
  if hasPrefix s (b!"=") then
    if hasPrefix s (b!"=~") then .ok { key := key, op := .mt, value := trimSpace (s.drop 2) }
    else .ok { key := key, op := .eq, value := trimSpace (s.drop 1) }
  else if hasPrefix s (b!"!=") then
    if hasPrefix s (b!"!=~") then .ok { key := key, op := .nm, value := trimSpace (s.drop 3) }
    else .ok { key := key, op := .ne, value := trimSpace (s.drop 2) }
  else .error (.exprInvalid s)

/-- The key of a condition (tagged_term.go:259, 282-284). -/
def condKey (s : Str) : Str :=
  let key := trimSpace s
  if key = b!"name" then nameKey else key

/-- Splitting one condition (tagged_term.go:253-284): key, operator, value, before `build`. -/
def parseCondition (s : Str) : Except TagErr TTerm :=
  match indexP isOpByte s with
  | none => .error (.exprInvalid s)
  | some pos =>
    if pos < 1 then .error (.exprInvalid s)
    else parseOp (condKey (s.take pos)) (s.drop pos)

/-- The loop of `ParseTaggedConditions` (tagged_term.go:252-287). -/
def conditionsLoop (lib : GoLib) : List Str → R (Except TagErr (List TTerm))
  | [] => .ok (.ok [])
  | c :: cs =>
    match parseCondition c with
    | .error e => .ok (.error e)
    | .ok t => do
      match ← t.build lib with
      | .error e => .ok (.error e)
      | .ok t => do
        match ← conditionsLoop lib cs with
        | .error e => .ok (.error e)
        | .ok ts => .ok (.ok (t :: ts))

/-- `ParseTaggedConditions` (tagged_term.go:246-309). -/
def parseConditions (lib : GoLib) (conditions : List Str) : R (Except TagErr (List TTerm)) := do
  match ← conditionsLoop lib conditions with
  | .error e => .ok (.error e)
  | .ok ts => .ok (.ok (lib.sortTerms ts))

/-- `ParseSeriesByTag` (tagged_term.go:233-244). -/
def parseSeriesByTag (lib : GoLib) (query : Str) : R (Except TagErr (List TTerm)) := do
  match ← seriesByTagArgs query 128 with
  | .error e => .ok (.error e)
  | .ok cs => parseConditions lib cs

end GoMatcher
