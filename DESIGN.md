# Formal model of go-matcher

This directory holds a Lean 4 model of msaf1980/go-matcher and machine-checked
proofs of the properties listed in `properties.jsonl`.  `MANIFEST.json` maps
each property to the theorems that state it.

## Trusted base

* Lean's kernel (4.33.0) and the standard axioms `propext`, `Classical.choice`,
  `Quot.sound` (`AXIOMS.md` lists them per theorem).  No axiom is added, nothing is left `sorry`, and neither
  `native_decide` nor `bv_decide` is used.
* The hand translation of the Go code into the definitions of
  `lean/Verif/Model/*`.  Every definition cites the Go lines it models, and says
  where it simplifies.
* The meaning given to the Go standard library functions the code calls
  (`strings.Index`, `strings.Split`, `sort.Strings`, `utf8.DecodeRuneInString`,
  ...).  They are written out as Lean functions in `lean/Verif/Basic.lean`,
  `lean/Verif/Utf8.lean` and next to the code that uses them.
* The specifications in `lean/Verif/Spec/*` and in the theorem statements.

## Modelling decisions

* A Go `string`/`[]byte` is `Str = List UInt8`.  Nothing assumes valid UTF-8
  unless a theorem says so.  A rune is a natural number.  `int` is an unbounded
  integer (no overflow: lengths are far below 2^63).
* A Go panic and an exhausted step budget are visible results:
  `R a = ok a | panic | timeout`.  Matchers are fuel-structured; a theorem
  shows that the fuel given at the top level is always sufficient, so `timeout`
  is never the answer of the top-level function where the Go function
  terminates.  Where the Go code loops forever the theorem says that every fuel
  gives `timeout`.
* Pointers to shared items are values (the code mutates items only while
  parsing one glob).  Trees of pointers are nested inductive types and insertion
  is a functional update.
* A Go map is an association list with functional update; no theorem depends on
  iteration order of Go maps.  `Store` is modelled by the list of calls made on
  it plus the returned count.
* `sort.Strings`, `sort.Slice` are modelled by insertion sort.  The orders used
  are total on the compared fields, so the result does not depend on the
  algorithm (equal elements are indistinguishable).
* `regexp` and the unstable `sort.Slice` of query terms are parameters of the tag
  model (`GoLib` in `Model/TagTerm.lean`): a compile and a match function with
  no assumption, and a sort routine that returns some sorted permutation.
  Theorems hold for every value of the parameter.
* `math/rand` is an arbitrary oracle `Nat → Nat` (`Model/Random.lean`).
* In `Model/Expand.lean` the number of combinations is computed with 64-bit
  wrap-around and `make` panics for a negative size and for more than 2^48
  bytes, since the real code does reach these limits (45 lists are enough).
* `RunesRangeMerge` compacts its slice in place, and so does the model
  (`mergeInner`, `mergeOuter`); `Proofs/Merge` shows that the sorted list is walked once.

## Not modelled

* Allocation, capacity growth (`Grow`, `make(.., cap)`), aliasing of slices after
  `append`, the unsafe string/bytes conversion, concurrency (the library starts
  no goroutine), error texts (the error kind is kept), `Dump` helpers
  for tests, benchmark and generator code.

## Layout

* `lean/Verif/Basic.lean`, `Utf8.lean`: result type, byte strings, library functions.
* `lean/Verif/Model/*`: the code, function by function.
* `lean/Verif/Spec/*`: the small specifications the theorems are read against:
  `GlobLang` (tokens, their text and their meaning over characters; the shapes of C01/C02),
  `Class` (members of a class), `ClassText` and `GlobText` (how any text is read), `Expand` (choices), `Dotted`, `Tidy`, `Stars`, `Sampled`.
* `lean/Verif/Proofs/*`: lemmas.
* `lean/Verif/Props/*`: the property theorems, one namespace per property, each with an
  example that meets its hypotheses and with the counter-examples.
* `lean/Verif/Tests/*`: the repository's own test tables evaluated on the model.
  These are tests of the translation, not proofs.
* `seeded/LOG.jsonl`: mistakes planted into the model, and which theorems noticed.

## How globs are described

The repository has no written grammar.  `Spec/GlobLang` gives one: a glob is a list of tokens
(literal, `?`, `*`, class, braces with alternatives that are themselves token lists without
braces).  `renderGlob` writes it, `Fits` is its meaning.  `Tok.Ok` says which tokens the syntax can
express.  Written globs do not include texts the code reads in its own way: a single alternative
with wildcards (`{a*}` is literal text), classes with a leading, trailing or doubled `-`, empty
classes, commas or `}` in classes inside braces.  `Spec/GlobText` covers these: `GlobText`
relates any text to the tokens it is read as, and C51 shows that texts without reading are
refused.  U+FFFD and NUL are left out there.  `Spec/GlobBytes` says for every byte string, valid
UTF-8 or not, into which pieces it must be cut to be accepted.  `Spec/Faults` says of every byte
string that cannot be cut so which part of it is at fault, and `Spec/QueryFaults` does the same for
dotted globs, conditions and calls.  Parsing (C05) and termination (C04)
are proved for every byte string, without tokens.

`Shape true` lists the token sequences on which the matcher is exact and `Shape false` those on which it is
sound and does not panic.  All brace-free globs satisfy both.

## Properties: what is modelled and how it is proved

"Refuted" means that a theorem shows the listed property false of the code, with a concrete input.

| id | status | what is proved | how |
|----|--------|----------------|-----|
| C01 | partial, refuted | `Match` is exact for all brace-free texts (or the text describes just `*`) and for the shapes `Shape true`, from tokens and from texts; texts with U+FFFD only if the glob has no class | item semantics, invariant of the search with its list of continuations, parser theorems `parse_spec`, `parse_text` |
| C02 | partial, refuted | no false positives for `Shape false`, on every UTF-8 text | same induction, weaker invariant |
| C03 | partial, refuted | no panic on any byte string for `Shape false`, hence for all brace-free texts; none for globs without `*` (any bytes) or without `?` and U+FFFD | panics are results of the model; separate induction without UTF-8 |
| C04 | proved | linear depth bound for all item sequences and byte strings | measure: text + items + continuations |
| C05 | proved | `Parse` is total on every byte string | checked slicing in the model |
| C06 | partial, refuted | `MinLen` always; `MaxLen` unless a star is not last in an alternative | sums over the parsed items |
| C07 | partial, refuted | for tidy globs the normal form is a written glob with the same meaning; if braces hold only words it is its own normal form, and two globs share it exactly if they have the same pieces (`Spec/Skeleton`) | printing each item gives tokens again; the printed items are a function of the pieces (`Proofs/NodePieces`) and are read back to the same pieces (`Proofs/NodeTwice`) |
| C08 | partial, refuted | after every history: sound for `Shape false`, exact for `Shape true` unless a star glob begins another one or a glob has no wildcard; for written globs and for arbitrary texts by their readings, refused ones included | tree search against the set of paths, insertion keeps the set |
| C09 | partial, refuted | returns on every byte string unless a star stands inside braces before their end; for written globs and arbitrary texts | depth bound as in C04 |
| C10 | partial, refuted | all of it for `Add`; `AddGlob` records the empty string | invariant over histories |
| C11 | partial, refuted | exact description for every value; as claimed for one part or an unbounded part, for written globs and for any text whose parts have a reading within C01 | recursion on dots |
| C12 | partial, refuted | equality, given the length without the trailing dot | same |
| C13 | partial, refuted | the calls are a permutation of the matching accepted globs if parts with equal node text answer alike; written globs within C07; histories of arbitrary texts whose accepted members have clear readings; for all globs: exactly what is reported (a wild part goes by the part of the first glob that shares the path down to it) and when matching returns (`C13_Exact`) | nested tree against the list of globs; the tree as a map from key paths to globs (`GTreeExact`) |
| C14 | proved | same calls, same order, same count | induction on the tree |
| C15 | partial, refuted | all of it for `Add` | invariant over histories |
| C16 | partial, refuted | `PathLevel`, `PathSplit` in full; `PathSplitB` drops two dots | recursion on dots |
| C17 | proved | round trip | induction, table of 256 bytes |
| C18 | partial, refuted | exact description; the last byte is lost when it is plain and the byte before it is escaped | induction |
| C19 | proved | safe alphabet, injective | from C17 |
| C20, C21 | proved | round trip; slice and map agree on every byte string | induction on the tags |
| C22 | partial | query level, regular expressions and plain values in full; glob values within C01; from the query text to the answer (`C52.meaning_partial`) | |
| C23 | partial, refuted | sorted tags: equal with no absent negative term before a present one; the answer in the other case exactly (`C23.slice_exact`) | resumed search |
| C24 | proved | for every sort routine and any two query texts with the same conditions (`text_order_independent`) | sorted permutations agree |
| C25 | partial, refuted | every history of `Add` with non-empty keys: exact, up to conditions that stand in for those with the same text (`map_stand_ins_partial`, `slice_stand_ins_partial`), and when it returns; from the query texts to the reports (`text_partial`) | tree of keys against list of queries; every node leads to a report (`Proofs/TagLive`) |
| C26 | partial, refuted | exact difference between slices and maps: the query without conditions | same |
| C27 | partial, refuted | non-empty keys | binary search invariant |
| C28 | partial, refuted | all of it for `Add` | invariant over histories |
| C29 | partial, refuted | no empty key; all malformed queries; exactly which texts panic on an empty tree (`first_add_panics_iff`) | |
| C30 | partial, refuted | ordered product up to 2^44 combinations; exact list for every byte string (`C30.text_exact`) | iterator state; pieces of a text |
| C31 | partial, refuted | every byte string while limit times largest list fits an int; exact list under any limits (`C31.text_exact`) | |
| C32 | partial, refuted | one result; text determined for every byte string (`C32.text_exact`, `C32.as_written_iff`) | |
| C33 | partial, refuted | exact condition for the panics on every byte string (`C33.panics_iff`); no endless loop | |
| C34 | partial, refuted | first of `Expand`, determined for every byte string (`C34.try_text`); repeated use without `try` | |
| C35 | proved | set semantics of the bit words | bit lemmas |
| C36 | proved | sorted, disjoint, not adjacent, same members above NUL | sort and merge invariant |
| C37 | partial, refuted | acceptance and membership for every class text, any bytes (`class_exact`); the property as written for classes without U+FFFD and free dashes | induction on the reading of the text, binary search invariant |
| C38 | partial, refuted | what is returned on every byte string (`C38.index_wide`, `C38.index_ascii`, `C38.indexByte_wide`): the claim up to the first U+FFFD; `IndexByte` loops | |
| C39 | partial, refuted | exact on every text (`C39.endsWith_exact`, `C39.startsWith_exact`); the claim without U+FFFD, except the offset of `EndsWith` for ASCII | decoder lemmas |
| C40 | proved | both directions | decoder lemmas |
| C41 | proved | fold over calls | |
| C42 | proved | same set, sorted, no duplicates | in-place loop invariant |
| C43 | partial, refuted | what is returned for every list (`C43.intersect_exact`): a prefix of the first glob only | |
| C44 | partial, refuted | written globs without special members of classes | C30 and meaning of tokens |
| C45 | partial, refuted | every oracle: no fixed first or last character, classes single or non-ASCII | generation lemma per item; see C65 for the choices |
| C46 | partial, refuted | printable terms; exactly which conditions can be read back (`condition_stable_iff`) | print and reparse |
| C47 | partial, refuted | no dot within brackets; exact for every byte string (`C47.text_exact`) | |
| C48 | partial, refuted | every `%` starts an escape; exact description of the rest | |
| C49 | proved | filters and word tests of every word list that `NewItemList` builds | invariant of the scan over the words |
| C50 | partial, refuted | longest common prefix of valid UTF-8 texts | induction on the first text |
| C51 | proved | every byte string is accepted iff it can be cut into pieces, in one way; the tokens the pieces stand for, for texts without U+FFFD and NUL | parser loop against the cut, in both directions |
| C52 | proved | every byte string: accepted iff it is a list of well-formed conditions in quotes; the terms stand for the conditions | `Spec/Query` describes the text; each parser step is shown equivalent to it |
| C53 | proved | every byte string: accepted iff empty, one dot, or non-empty accepted parts with single dots between and at most two at the end; parts, node and lengths of the result | part loop against the cut at dots; C51 for the parts |
| C54 | proved | any list of `Add` calls that all go through, any order, any subject | `Equal` is equality of items up to cached sizes (`Proofs/Bare`, `Sized`); two insertions commute up to the order of children (`TreeOrder`), and a search does not depend on that order (`TreeOrderMatch`); induction on the permutation (`TreePerm`) |
| C55 | proved | any history, any subject | all queries in the tree come from accepted calls; the search only reports queries of the tree (`TreeOnly`) |
| C56 | proved | dotted globs and tag queries, any history, any subject | every stored entry of the tree comes from an accepted call; the search only reports stored entries (`GTreeOnly`) |
| C57 | partial, refuted | which orders are accepted and what later calls report: all lists; what is matched: if wild parts with the same normal form are written the same | accepted lists are pairwise compatible; the exact description of C13 (`C13_Exact`) does not depend on the order then |
| C58 | partial, refuted | one call: all groups but `__name__` alone; `find`: all; whole trees: no `__name__`, or one in front of every query | the place loop is a search for the first larger key (`TagGroups`); induction on the tree and on the calls |
| C59 | partial, refuted | what later calls report: all lists; which orders are accepted: conditions with keys; what is matched, and whether the search returns: conditions with the same text compare alike | as C57, with the stand-ins of C25 (`TagExact`) |
| C60 | partial, refuted | `Query`, `Path`: every byte string; `QueryTo`, `PathTo`: what is appended for every byte string (the claim but for the lost byte of C18) | table of the 256 bytes and induction |
| C61 | partial, refuted | `StringAll`: exact for every set, read back without NUL and DEL; `String`: no NUL, not both `~` and DEL, `-` only with both neighbours | runs of the writer as class elements (`NodeClass`), C37 |
| C62 | partial, refuted | queries whose globs are clear (C25), any series of texts | C20, C21, C25, C26 put together |
| C63 | proved | any history of calls on GGlobTree and GTagsTree, one more call | insertion at a fresh path seen by the search (`Proofs/Grown`, `Proofs/TagGrown`) |
| C64 | partial, refuted | any text and bytes; one query, many queries with keys, or many dotted globs | one-query trees are chains (`link_map`, `link_parts`); literal parts have exact lengths (`Proofs/LitLen`); C13, C57, C25, C59 for many |
| C65 | partial, refuted | every glob and choice of alternatives | `Proofs/RandomAll`: the parser keeps tokens and items aligned (`Layout`), every item of a choice is written by some numbers (`sels_write`) |
| C66 | proved | every content of the builder, every text, item, class, set, query | writers with an explicit builder (`Model/Builder`) shown to append the texts of the other models |
| C67 | partial, refuted | every written glob and every glob text read by `GlobText false` | `Proofs/Attained`: the sizes recorded by the parser are the sizes of members, words and alternatives it has seen; `Proofs/AttainedSem`: each item has a text of its minimal and of its maximal size; `Proofs/LongTexts`: globs with a star have texts of any length |
| C68 | partial, refuted | every text, every expression of its parse | `Proofs/ExprIter`: ranges of parsed classes are well formed (`parseExpr_fine`), a range without U+FFFD stays at its end (`appendNext_going`); rounds from `Proofs/Expand` |
| C69 | proved | every byte string | `Proofs/Faults`: `faults` follows the three parser functions by induction on fuel; `Reports.unique`: only one error fits (pieces are prefix free); `Proofs/QueryFaults` for dotted globs and queries |
| C70 | partial, refuted | what every byte string is read as, with the exact error; the property if every part has a `=` | `Pairs` describes the cut; determinism by inversion |
| C71 | partial, refuted | at most 2(len(s)+1)(len(glob)+1) steps without braces, every byte string; exponential with braces | `Model/Steps` counts along the run; a failed search behind a star always sets `abortGready`, so each part between stars is searched once (`steps_calm`) |
| C72 | partial, refuted | the wildcard helpers on every byte string; at most 2n-1 items for n opening bytes, attained for every n; the reserved room n is too small | scans by runes and bytes agree since wide runes have no byte below 128 (`Proofs/RuneScan`); every item takes an opening byte or is a literal behind one that does (`Proofs/ItemsRoom`) |
| C73 | partial, refuted | one star run on UTF-8 text, or a star only as the last byte on any bytes, or words in braces of which none begins another one: at most one call of `Store`, in every tree; with more stars exactly (n choose k) calls for `*a*…a*` | an index is stored at the end of one path of the tree (`Proofs/TreeOnceHist`), and along items of fixed width a text is shared out in one way (`Proofs/TreeOnce`, `Proofs/TreeOnceChars`); of words apart only one begins a text (`Proofs/TreeOnceWords`); the exact number by Pascal's recursion |
| C74 | proved | `GGlobTree` and `GTagsTree`: after every history, no index is reported twice by one call, and there are at most as many reports as accepted additions | an index stands at one node only because a used index is refused (`gg_occ`, `parseItems_occ` in `Proofs/TreesOnce`), and a walk visits each node at most once (`atMost_…`); the bound by C56 |
| C75 | partial, refuted | `GlobTree.Add` with a free index: refused as known exactly if the text or its normal form is one of an accepted glob (all texts); for tidy globs whose braces hold only words exactly if a glob with the same pieces is held | invariant of the map `Globs` over the history, with C07 |
| C76 | proved | the stores of C41 with backing arrays, lengths and capacities (`Model/StoreMem`) and `Grow`; `append` may pick any new capacity; the list model used elsewhere is shown to agree | invariant "length within the array", induction over the calls |
| C77 | partial, refuted | `GGlobTree.Add` with a free index, tidy dotted globs whose braces hold only words and whose parts do not vanish: refused as known exactly if a dotted glob with the same pieces in every part is held | normal forms of parts hold no dot and are not empty (`Proofs/NodeDots`), so the joined form is cut into them again; C07 and C53 |
| C78 | partial, refuted | `GTagsTree.Add` with a free index: a query with the conditions of a held one, in any order, is always refused; for queries that can be printed and read back it is refused only then | the sorted list of conditions is determined by the conditions, so the normal texts agree (`same_text`); reading the normal text back (C46) gives the converse; C28 for the maps |

No property is listed as not applicable.

## Disagreements between the code and its claims

Each line names the theorem that shows it.  Go lines are cited at the model definitions.

* `[*]` matches everything, since `Match` tests the node text `*` (`C01.class_star_wrong`).
* `*{[],a?}` refuses `xyz`: an alternative of empty classes becomes an empty chain, which behind a
  star only matches at the end of the text (`C01.empty_class_wrong`); `*{,a?}` accepts it.
* `{a*b,c}` has maximal length 1 and refuses `axxb` (`C01.max_len_wrong`, `C06.max_len_wrong`).
* `*{a,b}c*` misses `aacb`, `*{a,b}?` misses `aab` (`C01.star_list_wrong`); `*{*a,b}` misses `a`
  (`C01.star_group_star_wrong`); `*[а-я]` misses `�я` (`C01.replacement_char_wrong`).
* `{a*}` is literal text (`C01.single_alternative_wrong`).
* `*{*??,x}` accepts `я` (`C02.star_group_any_wrong`).
* Some globs panic while matching (`C03.any_behind_star_panics`, `C03.replacement_char_panics`).
* Normal forms lose the meaning: `a[*]` is printed as `a*`, a class run that ends in DEL is cut, a run across
  a UTF-8 width is printed as a range the parser refuses, `{a*,[a]*}` becomes literal text
  (`C07.*_wrong`); printing is not idempotent (`C07.not_idempotent`).
* Batch globs without wildcards are never reported and overwrite each other (`C08.plain_wrong`); `a*`
  is no longer reported for `ab` once `a*b*` has been added (`C08.star_prefix_wrong`, `C08.star_class_prefix_wrong`);
  `*{*?b,c}` is reported for `b` (`C08.star_group_any_wrong`); one glob may be reported twice (`C08.stored_twice`).
* `{a*b,c}` in the batch matcher loops for ever on `ab` (`C09.star_in_braces_loops`), `*{?,a}` panics on `a`
  (`C09.any_behind_star_panics`).
* `AddGlob`/`AddTerms` bind the index to the empty string (`C10.addGlob_wrong`, `C15.addGlob_wrong`,
  `C28.addTerms_wrong`).
* `a.b` as dotted glob refuses the path `a.b`: dots are not counted in `MaxLen` (`C11.dots_not_counted`).
* `PathSplitB` accepts `a..` and `.` (`C16.pathSplitB_double_dot`); `Match` and `MatchByParts` differ on `a..`
  (`C12.empty_part_wrong`, `C14.empty_part_wrong`) and on a trailing dot with the full length (`C12.trailing_dot_wrong`).
* Part globs with equal node text share one matcher (`C13.same_node_wrong`); the part `[*]` (`C13.literal_star_wrong`).
* `QueryTo("a b")` writes `a+`: the last byte is lost (`C18.queryTo_loses`, `C18.queryTo_wrong`).
* A negative tag condition with an absent tag breaks the slice search (`C23.absent_key_wrong`).
* Tag terms with equal text share one comparison (`C25.shared_term_wrong`); the query without
  conditions (`C25.empty_query_wrong`, `C26.empty_query_wrong`); blank keys (`C27.empty_key_wrong`, `C29.empty_key_panics`).
* A new group next to `__name__` alone is put in front of it (`C58.name_wrong`), and later calls then append a second group
  for the same key (`C58.tree_wrong`, `C58.twice_wrong`).  The order of `Add` calls can matter (`C57.order_wrong`, `C59.order_wrong`,
  `C59.order_panic_wrong`).
* `Expand` panics for `{}` and for 45 lists (`C33.*_panic`), loses U+FFFD (`C30.replacement_char_lost`) and U+0000 (`C30.nul_lost`),
  exceeds its limit when the product wraps (`C31.wrapped_product_wrong`), keeps its position after `try` (`C34.try_keeps_position`);
  a class with U+FFFD inside a range ends early and goes on after `io.EOF` (`C68.count_wrong`).
* `[a-]` and `[-a]` do not contain `-` (`C37.dash_wrong`)
* `[�]` contains nothing (`C37.replacement_char_wrong`); a class with U+FFFD in a range does not find it at either end
  (`C39.replacement_char_wrong`), and `Index` stops there (`C38.index_stops_at_FFFD`).
* `IndexByte` of a class with a non-ASCII member loops at an ASCII byte outside it (`C38.indexByte_loops`);
  `EndsWith` returns a wrong offset (`C39.endsWith_ascii_wrong`).
* `RunesRangeMerge` drops a range that ends at NUL (`C36.merge_drops_nul`); `NewAllStore` without `Init` reports 0 as minimum
  (`C41.allStore_new_min_wrong`).  Both lie outside the quantifiers of C36 and C41.
* `Expand` turns `[)-+]` into globs one of which is `*` (`C44.special_member_wrong`); dots within lists do not count
  for the depth (`C47.inner_dot_wrong`).
* Some normalised queries do not parse back to the same terms (`C46.*_wrong`).
* `IntersectGlobs` compares the first glob with itself: `abc*` and `xyz` give `abc` (`C43.intersect_not_common`).
* `WriteRandom` forgets the literal ends and cannot sample ASCII classes (`C45.*_wrong`, `C45.ascii_class_panics`). It never draws the empty word of a list, nor alternatives beside a lone star
  (`C65.empty_never`, `C65.star_hides`).
* `{a,aa}{a,aa}…` needs exponential time to refuse `aa…ab` (`C71.braces_steps`).
* The batch tree passes one glob to `Store` many times in one `Match`: `*a*a*` on `aaaa` six times, and exponentially
  often in general (`C73.stars_exact`, `C73.no_polynomial`), so `IndexStore` and `StringStore` hold duplicates and the
  returned count is too large.
* The room `Parse` reserves for items is too small for `?a?` (`C72.reserved_exceeded`); the slice grows.
* In `n?x&b=1` the part `x` becomes part of the key `x&b`; the error for a part without `=` never shows it (`C70.missing_part`, `C70.unnamed_part`).
* `interceptionLeft` takes undecodable bytes for U+FFFD: no common prefix, or a panic (`C50.undecodable_*`).
* The normal form of the dotted glob `a.{}` is `a.`, so the tree then refuses `a.` as known (`C77.empty_part_wrong`).
* `Unescape` copies three bytes at a malformed `%` (`C48.bad_escape_wrong`).
* `ASCIISet.StringAll` forgets NUL and DEL (`C61.stringAll_wrong`); `ASCIISet.String` forgets NUL, leaves a run that ends in DEL
  open, and puts `-` where the reader takes it for a range (`C61.string_wrong`).

## Coverage of the code

The functions that parse, match, add, expand and escape in `glob`, `gglob`, `gtags`, `expand`,
`pkg/items`, `pkg/escape` and `pkg/utils` are modelled, with the exceptions below (found by comparing the list of Go
functions with the citations in the model).

* Not modelled: `runesRangeExpandMust` (only called by tests), `ErrUnsupportedExp`, `ErrNodeNotEnd`, `ErrGlobNotExpanded`
  and `NewNodeItem` (called by nothing), `LoadPatterns` and the test package `pkg/tests`, the slice helpers of
  `pkg/utils/utils.go`.
* Modelled inline where they are called and not as separate definitions: `Len`, `IsOptional` of word lists and groups,
  the `Append*` methods of single items, `hasName`, the wildcard wrappers of `gglob/utils.go`.
* Wrappers that return a field: `Glob.String`, `Glob.Raw`.