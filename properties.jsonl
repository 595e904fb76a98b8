{"id": "C01", "title": "Glob match is exactly the glob language", "statement": "For a glob accepted by glob.Parse, Glob.Match(s) returns true if and only if s can be cut into consecutive pieces that fit the glob's tokens in order: literal text fits itself, ? fits one character, * fits any run of characters, [..] fits one character of the class, {a,b,..} fits one of its alternatives.", "quantifier": "every glob built from literals, ?, *, classes and lists, and every valid UTF-8 string of any length", "why_tests_cant": "The matcher is a backtracking search with greedy skips and early aborts; a missed or spurious match depends on the interplay of an unbounded glob with an unbounded string.", "anchors": ["glob/glob.go:Parse", "glob/glob.go:Glob.Match", "pkg/items/items.go:matchItems", "pkg/items/items.go:matchStarItems", "pkg/items/wildcard.go:NextWildcardItem"]}
{"id": "C02", "title": "Glob match has no false positives", "statement": "If Glob.Match(s) returns true then s really belongs to the language of the glob (same meaning of tokens as C01).", "quantifier": "every glob accepted by Parse and every valid UTF-8 string", "why_tests_cant": "A false positive can hide behind one particular combination of star, group and multi-byte runes.", "anchors": ["pkg/items/items.go:matchItems", "pkg/items/items.go:matchStarItems", "glob/glob.go:Glob.Match"]}
{"id": "C03", "title": "Matching never panics", "statement": "Glob.Match and items.MatchItems return a boolean and never panic, whatever string is matched.", "quantifier": "every glob accepted by Parse and every byte string", "why_tests_cant": "Panics sit in branches (forwarded find, unsupported find, slice bounds) reached only by particular item sequences.", "anchors": ["pkg/items/items.go:matchItems", "pkg/items/items.go:matchStarItems", "pkg/items/any.go:Any.Find", "pkg/items/rune.go:Rune.Find"]}
{"id": "C04", "title": "Single-glob matching terminates", "statement": "items.MatchItems and Glob.Match return after finitely many steps, and a depth bound linear in the length of the string plus the size of the pattern suffices.", "quantifier": "every item sequence (including nested groups and chains) and every byte string", "why_tests_cant": "Non-termination cannot be observed by a finite test run, and no finite set of inputs excludes it.", "anchors": ["pkg/items/items.go:matchItems", "pkg/items/items.go:matchStarItems"]}
{"id": "C05", "title": "glob.Parse is total: a glob or an error, never a panic", "statement": "glob.Parse returns either an error or a matcher for every input; in particular the internal 'must be empty values in list' panic and all slice operations are safe.", "quantifier": "every byte string given as glob", "why_tests_cant": "The panic guard depends on sortedness of a split list of arbitrary length.", "anchors": ["glob/glob.go:Parse", "pkg/items/wildcard.go:NextWildcardItem", "pkg/items/stringlist.go:NewItemList", "pkg/items/stringlist.go:ListExpand"]}
{"id": "C06", "title": "MinLen and MaxLen bound every matching string", "statement": "If s belongs to the language of a parsed glob then len(s) >= MinLen, and len(s) <= MaxLen when MaxLen is not -1, so the length pre-checks in Match never reject a matching string.", "quantifier": "every glob of the supported grammar and every matching string", "why_tests_cant": "The bounds are accumulated over arbitrarily many tokens with mixed rune widths.", "anchors": ["glob/glob.go:Parse", "glob/glob.go:Glob.Match", "pkg/items/utils.go:AddMaxLen", "pkg/items/chain.go:Chain.Append", "pkg/items/group.go:NewGroup"]}
{"id": "C07", "title": "Normalised globs keep the meaning", "statement": "Glob.Node (the normalised text under which globs are de-duplicated and reported) denotes the same language as the original glob: parsing Node again gives a glob that matches exactly the same strings and has the same Node.", "quantifier": "every glob of the supported grammar and every string", "why_tests_cant": "Two different globs collapse in batch matchers as soon as their normal forms coincide; only a proof over all globs shows that this is harmless.", "anchors": ["glob/glob.go:Parse", "pkg/utils/asciiset.go:ASCIISet.WriteString", "pkg/items/stringlist.go:StringList.WriteString"]}
{"id": "C08", "title": "The glob batch matcher agrees with single globs", "statement": "After any sequence of GlobTree.Add/AddGlob, GlobTree.Match(s, store) stores a (Query, Index) pair exactly for those accepted globs whose own Glob.Match(s) is true.", "quantifier": "every history of additions and every string", "why_tests_cant": "The tree shares prefixes, suffixes and items between globs, so the result for one glob may depend on which other globs were added.", "anchors": ["glob/tree.go:addGlob", "glob/tree.go:GlobTree.Match", "pkg/items/tree.go:TreeItem.Match", "pkg/items/tree.go:TreeItem.match", "pkg/items/tree.go:TreeItem.matchStar"]}
{"id": "C09", "title": "The glob batch matcher terminates", "statement": "GlobTree.Match returns after finitely many steps without panicking.", "quantifier": "every set of added globs and every string", "why_tests_cant": "An endless loop needs one particular item inside a group; a test that never tries it never notices.", "anchors": ["pkg/items/tree.go:matchItemsInTree", "pkg/items/tree.go:matchStarItemsInTree", "pkg/items/tree.go:TreeItem.matchStar"]}
{"id": "C10", "title": "GlobTree bookkeeping", "statement": "GlobTree.Add/AddGlob: a negative index, an index already in use, a glob (or normal form) already present, or an unparsable glob is refused with the matching error and leaves the tree unchanged; a successful add binds index to the normal form, the normal form and raw glob to the index, and no index is ever bound to two globs.", "quantifier": "every history of Add and AddGlob calls", "why_tests_cant": "The two maps must stay consistent over all histories, including interleaved failures.", "anchors": ["glob/tree.go:GlobTree.Add", "glob/tree.go:GlobTree.AddGlob"]}
{"id": "C11", "title": "Dotted glob match is part-wise match", "statement": "GGlob.Match(path) is true exactly when path (one trailing dot ignored) has as many dot-separated non-empty parts as the glob and every part is matched by the corresponding part glob.", "quantifier": "every dotted glob accepted by gglob.Parse and every path", "why_tests_cant": "The length pre-check uses sums over parts and dots; its error only shows for particular lengths.", "anchors": ["gglob/gglob.go:GGlob.Match", "gglob/gglob.go:Parse", "gglob/utils.go:PathLevel"]}
{"id": "C12", "title": "GGlob.Match agrees with MatchByParts", "statement": "For a path without empty parts, g.Match(path) = g.MatchByParts(PathSplit(path), len(path)) .", "quantifier": "every parsed dotted glob and every path", "why_tests_cant": "Two separately written loops have to agree on every path.", "anchors": ["gglob/gglob.go:GGlob.Match", "gglob/gglob.go:GGlob.MatchByParts", "gglob/utils.go:PathSplit"]}
{"id": "C13", "title": "The dotted batch matcher is exactly the list of single matchers", "statement": "After any sequence of GGlobTree.Add/AddGlob calls, GGlobTree.Match(path, store) stores exactly the (Query, Index) pairs of the accepted globs whose parts match the parts of the path, each exactly once, and returns their number.", "quantifier": "every history of Add/AddGlob calls and every path", "why_tests_cant": "The tree is shared between globs; correctness must hold for any set of globs in any insertion order.", "anchors": ["gglob/gtree.go:addGGlob", "gglob/gtree.go:GTreeItem.MatchItems", "gglob/gtree.go:GGlobTree.Match"]}
{"id": "C14", "title": "GGlobTree.Match agrees with MatchByParts", "statement": "For a path without empty parts, GGlobTree.Match(path, store) and GGlobTree.MatchByParts(PathSplit(path), store) make the same stores in the same order and return the same count.", "quantifier": "every reachable tree and every path", "why_tests_cant": "Two separately written recursions over the shared tree have to agree for every tree.", "anchors": ["gglob/gtree.go:GTreeItem.MatchItems", "gglob/gtree.go:GTreeItem.MatchItemsByParts"]}
{"id": "C15", "title": "GGlobTree bookkeeping", "statement": "GGlobTree.Add/AddGlob: refused additions (negative index, used index, known glob, parse error, empty string) change nothing and report the matching error; accepted ones bind index and normal form to each other; indexes are never re-bound.", "quantifier": "every history of Add and AddGlob calls", "why_tests_cant": "Map consistency is a statement about all histories.", "anchors": ["gglob/gtree.go:GGlobTree.Add", "gglob/gtree.go:GGlobTree.AddGlob"]}
{"id": "C16", "title": "Path splitting", "statement": "PathLevel's count equals the number of parts PathSplit returns; joining the parts of PathSplit with dots gives back the path without its trailing dot; no part contains a dot; PathSplitB with ok=true yields the same parts as PathSplit and succeeds exactly when no part is empty.", "quantifier": "every byte string used as path", "why_tests_cant": "Boundary cases (leading, trailing, doubled dots) are unbounded in number.", "anchors": ["gglob/utils.go:PathLevel", "gglob/utils.go:PathSplit", "gglob/utils.go:PathSplitB", "gglob/utils.go:HasEmptyParts"]}
{"id": "C17", "title": "Unescape inverts Query escaping", "statement": "escape.Unescape(escape.Query(s)) = s.", "quantifier": "every byte string, valid UTF-8 or not", "why_tests_cant": "Round trips must hold for all bytes in all positions and lengths.", "anchors": ["pkg/escape/url.go:escape", "pkg/escape/url.go:shouldEscape", "pkg/escape/unescape.go:unescape", "pkg/escape/unescape.go:Unescape"]}
{"id": "C18", "title": "Streaming escapers write what the string escapers return", "statement": "QueryTo(s, buf) appends exactly Query(s) to buf, and PathTo(s, buf) appends exactly Path(s).", "quantifier": "every byte string and every buffer content", "why_tests_cant": "The two implementations differ in the handling of the tail after the last escaped byte.", "anchors": ["pkg/escape/url.go:escapeTo", "pkg/escape/url.go:escape", "pkg/escape/escape.go"]}
{"id": "C19", "title": "Escaped text is safe and escaping is injective", "statement": "The output of Query contains only unreserved characters (letters, digits, - _ . ~), '+', and '%' followed by two upper-case hex digits; two different strings have different escapes.", "quantifier": "every byte string", "why_tests_cant": "Quantifies over all strings and pairs of strings.", "anchors": ["pkg/escape/url.go:shouldEscape", "pkg/escape/url.go:escape", "pkg/escape/escape.go:Query"]}
{"id": "C20", "title": "Tagged path round trip", "statement": "A path written as Query(name)?Query(k1)=Query(v1)&... is split by PathTags into exactly [__name__=name, k1=v1, ...] without error; the same holds for GraphitePathTags with ';' separators.", "quantifier": "every name and every list of key/value byte strings", "why_tests_cant": "Keys and values may contain every delimiter and escape character.", "anchors": ["gtags/tagged_term.go:PathTags", "gtags/tagged_term.go:GraphitePathTags", "gtags/tagged_term.go:NextTag", "pkg/escape/unescape.go:Unescape"]}
{"id": "C21", "title": "Slice and map path parsers agree", "statement": "For every path, PathTagsMap(path) equals TagsMap(PathTags(path)) with an error in one exactly when in the other; PathTagsMapB leaves in a reused map exactly what PathTagsMap returns; likewise for the Graphite variants.", "quantifier": "every byte string used as tagged path, every previous content of the reused map", "why_tests_cant": "Five separately written loops have to agree, including on malformed input and leftovers in the reused map.", "anchors": ["gtags/tagged_term.go:PathTags", "gtags/tagged_term.go:PathTagsMap", "gtags/tagged_term.go:PathTagsMapB", "gtags/tagged_term.go:TagsMap"]}
{"id": "C22", "title": "seriesByTag match semantics", "statement": "TaggedTermList.MatchByTagsMap(tags) is true exactly when every term holds: a positive term (= or =~) needs its tag present with a matching value, a negative term (!= or !=~) holds when the tag is absent or its value does not match.", "quantifier": "every term list, every tag map, every regexp engine", "why_tests_cant": "Any number of terms over any tags.", "anchors": ["gtags/tagged_term.go:TaggedTermList.MatchByTagsMap", "gtags/tagged_term.go:TaggedTerm.Match"]}
{"id": "C23", "title": "Slice matching of a query agrees with map matching", "statement": "For tags sorted with __name__ first and distinct keys, TaggedTermList.MatchByTags(tags) equals MatchByTagsMap(TagsMap(tags)) for every parsed query.", "quantifier": "every query accepted by ParseSeriesByTag and every sorted tag slice", "why_tests_cant": "The slice version walks terms and tags in parallel with one cursor; the failing case needs an absent key before a present one.", "anchors": ["gtags/tagged_term.go:TaggedTermList.MatchByTags", "gtags/tagged_term.go:TaggedTermList.MatchByTagsMap"]}
{"id": "C24", "title": "Query parsing is order independent", "statement": "The parsed and normalised form of a seriesByTag query does not depend on the order in which its conditions are written: terms are sorted by key (__name__ first), operator and value.", "quantifier": "every list of conditions and every permutation of it", "why_tests_cant": "Permutations of arbitrary length.", "anchors": ["gtags/tagged_term.go:ParseTaggedConditions", "gtags/tagged_term.go:ParseSeriesByTag"]}
{"id": "C25", "title": "The tag batch matcher (map form) is exactly the list of single queries", "statement": "After any sequence of GTagsTree.Add calls, MatchByTagsMap(tags, store) with non-empty tags stores exactly the (Query, Index) pairs of the accepted queries that match the tags, each exactly once, and returns their number.", "quantifier": "every history of Add calls and every tag map", "why_tests_cant": "The tree shares common term prefixes between queries; the key groups are maintained by a hand-written ordered insert.", "anchors": ["gtags/tree.go:GTagsTree.Add", "gtags/items.go:TaggedItem.Parse", "gtags/items.go:TaggedItem.findOrAppend", "gtags/items.go:TaggedItem.MatchByTagsMap"]}
{"id": "C26", "title": "The tag batch matcher agrees on slices and maps", "statement": "For tags sorted with __name__ first and distinct keys, GTagsTree.MatchByTags(tags, store) makes the same stores and returns the same count as MatchByTagsMap on the same tags.", "quantifier": "every reachable tree and every sorted tag slice", "why_tests_cant": "Lookup is a hand-written binary search resumed from the last position.", "anchors": ["gtags/items.go:TaggedItem.MatchByTags", "gtags/items.go:find", "gtags/tree.go:GTagsTree.MatchByTags"]}
{"id": "C27", "title": "Tag lookup finds exactly the present keys", "statement": "The resumed binary search over sorted tags returns the position of the key when it is present and -1 otherwise, for any resume position it can be given.", "quantifier": "every sorted tag slice, key and start position", "why_tests_cant": "Slices of every length and every start position.", "anchors": ["gtags/items.go:find"]}
{"id": "C28", "title": "GTagsTree bookkeeping", "statement": "GTagsTree.Add: refused additions leave the tree unchanged and report the matching error; accepted ones bind index and normalised query to each other and never re-bind an index. Queries added with AddTerms match like queries added with Add.", "quantifier": "every history of Add/AddTerms calls", "why_tests_cant": "Map consistency and reachability of the stored query over all histories.", "anchors": ["gtags/tree.go:GTagsTree.Add", "gtags/tree.go:GTagsTree.AddTerms"]}
{"id": "C29", "title": "Adding a tag query never panics", "statement": "GTagsTree.Add returns an error for a malformed query and never panics.", "quantifier": "every byte string given as query, every reachable tree", "why_tests_cant": "The panic needs a key that becomes empty after trimming.", "anchors": ["gtags/tree.go:GTagsTree.Add", "gtags/items.go:TaggedItem.findOrAppend", "gtags/tagged_term.go:ParseTaggedConditions"]}
{"id": "C30", "title": "Expansion is the cartesian product", "statement": "Expand(in, -1, 0) of a pattern made of literals, lists and classes returns every choice of one alternative per list/class, concatenated in order, listed in lexicographic order of the choices, with nothing missing and nothing extra.", "quantifier": "every sequence of literals, lists and classes of any length", "why_tests_cant": "The result is exponential in the number of lists; the resettable iterators are re-entered in nested fashion.", "anchors": ["expand/expand.go:Expand", "expand/expand.go:expand", "expand/expression.go:Expression.appendNext", "expand/runes.go:runes.next"]}
{"id": "C31", "title": "Expansion respects the limit", "statement": "Expand(in, max, depth) with max > 0 returns at least one and at most max strings.", "quantifier": "every input, every positive max, every depth", "why_tests_cant": "The bound must hold for products of arbitrarily many factors.", "anchors": ["expand/expand.go:expand", "expand/expression.go:Expression.count"]}
{"id": "C32", "title": "max = 0 disables expansion", "statement": "Expand(in, 0, depth) returns exactly one string, with every list and class kept as written.", "quantifier": "every input", "why_tests_cant": "All inputs.", "anchors": ["expand/expand.go:expand", "expand/expand.go:ParseExpr"]}
{"id": "C33", "title": "Expand never panics", "statement": "Expand and ExpandTry return a result for every input.", "quantifier": "every byte string, max and depth", "why_tests_cant": "Slice indexing on the parsed expression list fails only for particular inputs.", "anchors": ["expand/expand.go:ParseExpr", "expand/expression.go:getExpression"]}
{"id": "C34", "title": "Expand, ExpandTry and repeated use of parsed expressions", "statement": "ExpandTry returns exactly one string and it is the first one of Expand; a parsed expression list can be expanded repeatedly with the same result.", "quantifier": "every parsed input, max, depth and any number of repeated calls", "why_tests_cant": "The iterators inside the expressions are mutable state that survives a call.", "anchors": ["expand/expand.go:Expressions.Expand", "expand/expand.go:ExpandTry", "expand/expression.go:Expression.reset"]}
{"id": "C35", "title": "ASCIISet is a set of ASCII bytes", "statement": "After any sequence of Add calls, Contains(c) is true exactly when c < 128 was added; Add of a non-ASCII byte returns false and changes nothing; MakeASCIISet succeeds exactly when all bytes are ASCII; Index/LastIndex return the first/last position of a member; Count counts the non-zero members and returns the smallest.", "quantifier": "every sequence of additions and every byte string", "why_tests_cant": "Bit arithmetic over 32-bit words for all bytes and histories.", "anchors": ["pkg/utils/asciiset.go:ASCIISet.Add", "pkg/utils/asciiset.go:ASCIISet.Contains", "pkg/utils/asciiset.go:MakeASCIISet", "pkg/utils/asciiset.go:ASCIISet.Index", "pkg/utils/asciiset.go:ASCIISet.LastIndex", "pkg/utils/asciiset.go:ASCIISet.Count"]}
{"id": "C36", "title": "Range merging preserves the set of runes", "statement": "RunesRangeMerge returns ranges that are sorted, pairwise disjoint and not adjacent, and that contain exactly the runes contained in the input ranges.", "quantifier": "every list of well-formed ranges (First <= Last) above NUL", "why_tests_cant": "Any number and overlap structure of ranges.", "anchors": ["pkg/utils/runesranges.go:RunesRangeMerge", "expand/runes.go:runesRangeMerge"]}
{"id": "C37", "title": "Class membership is exact", "statement": "After RunesRangeExpand of a class made of single characters and ranges, Contains(c) is true exactly when c is one of the characters or lies in one of the ranges; the binary search over merged ranges never misses.", "quantifier": "every class text and every rune", "why_tests_cant": "Binary search over arbitrarily many ranges.", "anchors": ["pkg/utils/runesranges.go:RunesRangeExpand", "pkg/utils/runesranges.go:RunesRanges.Contains", "pkg/utils/runesranges.go:RunesRanges.ContainsUnicode"]}
{"id": "C38", "title": "Class search finds the first member", "statement": "RunesRanges.Index(s) returns the position, rune and width of the first character of s that belongs to the class, or -1; IndexByte gives the same answer on the same bytes.", "quantifier": "every class and every valid UTF-8 string", "why_tests_cant": "A scan over arbitrary strings; the byte version loops forever on some inputs, which no terminating test shows.", "anchors": ["pkg/utils/runesranges.go:RunesRanges.Index", "pkg/utils/runesranges.go:RunesRanges.IndexByte"]}
{"id": "C39", "title": "Class prefix and suffix checks", "statement": "StartsWith(s) returns the first character and the offset just after it when it belongs to the class, else -1; EndsWith(s) returns the last character and the offset where it starts when it belongs to the class, else -1.", "quantifier": "every class and every string", "why_tests_cant": "ASCII and multi-byte cases take different branches.", "anchors": ["pkg/utils/runesranges.go:RunesRanges.StartsWith", "pkg/utils/runesranges.go:RunesRanges.EndsWith"]}
{"id": "C40", "title": "Rune skipping", "statement": "StringSkipRunes(s, n) returns the byte offset after the first n characters, or -1 when s has fewer than n; StringSkipRunesLast(s, n) returns the offset before the last n characters, or -1.", "quantifier": "every valid UTF-8 string and every n", "why_tests_cant": "All mixtures of rune widths.", "anchors": ["pkg/utils/string.go:StringSkipRunes", "pkg/utils/string.go:StringSkipRunesLast"]}
{"id": "C41", "title": "Stores report the same matches", "statement": "After any sequence of Store(query, index) calls with non-negative indexes on an initialised AllStore, S holds the queries and Index the indexes in call order, and Min holds the smallest index, or -1 when nothing was stored; Init forgets everything.", "quantifier": "every sequence of Store calls", "why_tests_cant": "Any history.", "anchors": ["pkg/items/store.go:MinStore.Store", "pkg/items/store.go:AllStore.Store", "pkg/items/store.go:IndexStore.Store", "pkg/items/store.go:StringStore.Store"]}
{"id": "C42", "title": "List expansion keeps exactly the alternatives", "statement": "ListExpand of {a,b,..} returns the comma-separated alternatives sorted and without duplicates: the same set of strings as written.", "quantifier": "every list text", "why_tests_cant": "In-place de-duplication on arbitrarily long lists.", "anchors": ["pkg/items/stringlist.go:ListExpand", "pkg/items/stringlist.go:removeDuplicated"]}
{"id": "C43", "title": "IntersectGlobs is a common literal prefix", "statement": "IntersectGlobs(globs) returns a prefix, free of wildcard characters, that is common to all the globs.", "quantifier": "every list of globs", "why_tests_cant": "Quantifies over all lists of strings.", "anchors": ["pkg/items/utils.go:IntersectGlobs"]}
{"id": "C44", "title": "Expansion preserves the language", "statement": "A string matches the glob `in` exactly when it matches one of the globs returned by Expand(in, max, depth).", "quantifier": "every input of the supported grammar, every max and depth, every string", "why_tests_cant": "Combines two independent parsers over all inputs.", "anchors": ["expand/expand.go:Expand", "glob/glob.go:Parse", "glob/glob.go:Glob.Match"]}
{"id": "C45", "title": "Generated samples match", "statement": "Glob.WriteRandom writes a string that the glob matches (its documentation: 'generate random matched string').", "quantifier": "every parsed glob and every outcome of the random choices", "why_tests_cant": "Random choices are sampled, never exhausted, by tests.", "anchors": ["glob/glob.go:Glob.WriteRandom", "pkg/items/items.go:Item.WriteRandom", "pkg/items/runesranges.go:RunesRanges.WriteRandom"]}
{"id": "C46", "title": "Normalised queries are stable", "statement": "The normalised text of a query (TaggedTermList.String) parses back to the same terms, so a query and its normalised form are recognised as the same query.", "quantifier": "every query whose conditions contain no quote characters", "why_tests_cant": "All condition lists.", "anchors": ["gtags/tagged_term.go:TaggedTermList.WriteString", "gtags/tagged_term.go:ParseSeriesByTag", "gtags/tagged_term.go:seriesByTagArgs"]}
{"id": "C47", "title": "Expansion depth", "statement": "Expand(in, -1, depth) with depth = d > 0 expands lists and classes only in the first d dot-separated nodes and keeps the rest as written.", "quantifier": "every input of literals, lists and classes, every positive depth", "why_tests_cant": "All positions of dots relative to lists.", "anchors": ["expand/expand.go:expand", "expand/expand.go:Expressions.Expand"]}
{"id": "C48", "title": "Unescape decodes percent escapes", "statement": "Unescape(s) reads s from left to right, turns '+' into a space and '%XY' with two hexadecimal digits of either case into the byte with that value, and copies every other byte.", "quantifier": "every byte string", "why_tests_cant": "There are 484 digit pairs in mixed case and arbitrarily many ways to place malformed escapes next to well-formed ones.", "anchors": ["pkg/escape/unescape.go:unescape", "pkg/escape/unescape.go:unhex", "pkg/escape/unescape.go:isPercentEscape"]}
{"id": "C49", "title": "First-symbol tests and word tests of a list are exact filters", "statement": "For a word list built by NewItemList: MatchFirst(s) = false implies that no non-empty word is a prefix of s; FindFirst(s) = -1 (supported) implies that no non-empty word occurs in s, and any other supported result is at or before the first occurrence of every word; MatchN(s, n) returns the length of word n when it is a prefix of s and -1 otherwise; FindN(s, n) returns its first occurrence or -1; Map() has exactly the given words as keys.", "quantifier": "every list of words accepted by NewItemList as a word list, every byte string, every position", "why_tests_cant": "The filters must never reject a text that a word matches, for any set of words and any text.", "anchors": ["pkg/items/stringlist.go:StringList.FindFirst", "pkg/items/stringlist.go:StringList.MatchFirst", "pkg/items/stringlist.go:StringList.FindN", "pkg/items/stringlist.go:StringList.MatchN", "pkg/items/stringlist.go:StringList.Map", "pkg/items/stringlist.go:NewItemList"]}
{"id": "C50", "title": "interceptionLeft is the longest common prefix", "statement": "interceptionLeft(a) returns the longest string of whole characters that is a prefix of every string of a (the empty string for an empty list), and does not panic.", "quantifier": "every list of byte strings", "why_tests_cant": "Any number of strings of any length, including undecodable bytes.", "anchors": ["pkg/items/stringlist.go:interceptionLeft"]}
{"id": "C51", "title": "Parse accepts exactly the readable glob texts", "statement": "glob.Parse accepts a text if and only if it can be cut into tokens: single characters other than []{}*?, the wildcards ? and *, closed classes all of whose ranges are ascending and stay within one UTF-8 width, and closed braces. Braces are fine when all alternatives are equal (then they are literal text), when one alternative is * and the alternatives that sort before it can be read, or when all alternatives can be read. The reading is unique.", "quantifier": "every glob text", "why_tests_cant": "Any text of any length; the rules interact (empty classes, dashes, equal alternatives, * among the alternatives), so a finite list of accepted and refused texts does not settle the rest.", "anchors": ["glob/glob.go:Parse", "pkg/items/wildcard.go:NextWildcardItem"]}
{"id": "C52", "title": "ParseSeriesByTag accepts exactly the well-formed queries", "statement": "ParseSeriesByTag accepts a byte string if and only if, up to outer blanks, it is seriesByTag( followed by a list and ), where the list consists of blanks, commas and texts in single or double quotes (without that quote inside), at most 128 of the texts are not empty, and each of these is a condition: a non-empty text without =, ~ and !, then =, =~, != or !=~ (the longest that fits), then the value; white space around key and value is dropped and the key name stands for __name__; regular expressions compile and globs are well formed. Everything else is an error. The conditions and their parts are determined by the text, and the returned terms stand for the conditions one for one, sorted with __name__ first.", "quantifier": "every byte string and every regexp engine", "why_tests_cant": "Any number of conditions, separators and quotes in any order, and any bytes in keys and values.", "anchors": ["gtags/tagged_term.go:ParseSeriesByTag", "gtags/tagged_term.go:seriesByTagArgs", "gtags/tagged_term.go:parseString", "gtags/tagged_term.go:ParseTaggedConditions", "gtags/tagged_term.go:TaggedTerm.build"]}
{"id": "C53", "title": "gglob.Parse accepts exactly the dotted sequences of glob texts", "statement": "gglob.Parse accepts a byte string if and only if it is empty, a single dot, or made of non-empty parts with one dot between any two of them and at most two dots at the end, where every part is a text glob.Parse accepts. Everything else is an error. The parts are determined by the text; the result holds the parsed parts in order, their node texts joined with dots, the sum of the minimal lengths, and as maximal length -1 if some part is unbounded and the sum otherwise.", "quantifier": "every byte string", "why_tests_cant": "Any number of parts, dots at any place and undecodable bytes; only finitely many texts can be tried.", "anchors": ["gglob/gglob.go:Parse"]}
{"id": "C54", "title": "The order of Add calls on a GlobTree does not matter", "statement": "If a list of Add(glob, index) calls on an empty GlobTree all report no error, then the same calls in any other order report no error either, and both trees behave alike: Match returns on one if and only if it returns on the other, with the same count and the same calls to the store up to their order; a store that keeps the smallest index ends with the same index; and any further Add reports the same normalized text, index and error.", "quantifier": "every list of texts and indexes, every reordering of it, every subject byte string", "why_tests_cant": "The tree shares prefixes, suffixes and items between globs in the order they arrive; the number of lists and orders is unbounded, and only a few orders of a few lists can be tried.", "anchors": ["glob/tree.go:Add", "glob/tree.go:addGlob", "pkg/items/store.go:LocateChildTreeItem", "pkg/items/tree.go:Match"]}
{"id": "C55", "title": "A GlobTree reports only what was added", "statement": "After any calls of Add and AddGlob, Match on any subject only passes pairs to the store that consist of the node text and the index of one and the same accepted call; no index is negative.", "quantifier": "every history of Add and AddGlob calls, with any texts and any Glob values, and every subject byte string", "why_tests_cant": "Any number of calls and any subject; a pair with a stale index or a foreign text may show up only for one combination of shared tree nodes.", "anchors": ["glob/tree.go:Add", "glob/tree.go:AddGlob", "glob/tree.go:addGlob", "pkg/items/tree.go:Match"]}
{"id": "C56", "title": "A tree of dotted globs and a tree of tag queries report only what was added", "statement": "After any calls of Add and AddGlob on a GGlobTree, Match and MatchByParts only pass pairs to the store that consist of the node text and the index of one and the same accepted call; after any calls of Add and AddTerms on a GTagsTree, MatchByTagsMap and MatchByTags only pass pairs that consist of the normalized query text and the index of one and the same accepted call. No index is negative.", "quantifier": "every history of calls with any texts, globs and terms, every path, every tag map and tag list", "why_tests_cant": "Any number of calls and any subject; a pair with a stale index or a foreign text may show up only for one combination of shared tree nodes.", "anchors": ["gglob/gtree.go:Add", "gglob/gtree.go:Match", "gglob/gtree.go:MatchByParts", "gtags/tree.go:Add", "gtags/tree.go:MatchByTagsMap", "gtags/tree.go:MatchByTags"]}
{"id": "C57", "title": "The order of Add calls on a GGlobTree does not matter", "statement": "If a list of Add(glob, index) calls on an empty GGlobTree all report no error, then the same calls in any other order report no error either, and both trees behave alike: Match and MatchByParts return on one if and only if they return on the other, with the same count and the same calls to the store up to their order; and any further Add reports the same normalized text, index and error.", "quantifier": "every list of texts and indexes, every reordering of it, every path", "why_tests_cant": "Nodes of the tree are shared between dotted globs in the order they arrive; the number of lists and orders is unbounded, and only a few orders of a few lists can be tried.", "anchors": ["gglob/gtree.go:Add", "gglob/gtree.go:addGGlob", "gglob/gtree.go:Match", "gglob/gtree.go:MatchByParts"]}
{"id": "C58", "title": "Groups of a tag tree are kept in order", "statement": "TaggedItem.findOrAppend called with a non-empty key on groups that are in order (__name__ first, the other keys in byte order, every key once) leaves groups that are in order, with the given key at the returned position, all other groups unchanged, and a new group only if the key was not there; TaggedItem.find then answers with the position of a key if it is there and with -1 otherwise, from every start position. After any calls of Add and AddTerms on a GTagsTree the groups of the root and of every item below it are in order.", "quantifier": "every list of groups, every key, every start position; every history of calls", "why_tests_cant": "A hand-written binary search with a special case for __name__; a wrong position shows only for some keys on some lists, and only in later insertions.", "anchors": ["gtags/items.go:findOrAppend", "gtags/items.go:TaggedItem.find", "gtags/items.go:TaggedItem.Parse", "gtags/tree.go:Add", "gtags/tree.go:AddTerms"]}
{"id": "C59", "title": "The order of Add calls on a GTagsTree does not matter", "statement": "If a list of Add(query, index) calls on an empty GTagsTree all report no error, then the same calls in any other order report no error either, and both trees behave alike: MatchByTagsMap and MatchByTags return the same count and make the same calls to the store up to their order; and any further Add reports the same normalized text, index and error.", "quantifier": "every list of queries and indexes, every reordering of it, every tag map, every sorted tag list", "why_tests_cant": "Items of the tree are shared between queries in the order they arrive; the number of lists and orders is unbounded.", "anchors": ["gtags/tree.go:Add", "gtags/items.go:TaggedItem.Parse", "gtags/tree.go:MatchByTagsMap", "gtags/tree.go:MatchByTags"]}
{"id": "C60", "title": "Escaping works byte by byte", "statement": "Query(s) is the concatenation over the bytes of s of: the byte itself for letters, digits and - _ . ~; '+' for a blank; '%' and two upper-case hex digits (high digit first) for every other byte. Path(s) likewise, but also keeps $ & + , / : ; = @ and writes a blank as %20. QueryTo and PathTo append that text to the buffer.", "quantifier": "every byte string, every buffer content", "why_tests_cant": "Round trips alone do not fix the escaped form; it must be right for every byte at every position and the three exits of escape must agree.", "anchors": ["pkg/escape/url.go:shouldEscape", "pkg/escape/url.go:escape", "pkg/escape/url.go:escapeTo", "pkg/escape/escape.go:Query", "pkg/escape/escape.go:Path", "pkg/escape/escape.go:QueryTo", "pkg/escape/escape.go:PathTo"]}
{"id": "C61", "title": "The written forms of an ASCIISet describe the set", "statement": "StringAll lists the members of the set in ascending order, each once, and MakeASCIISet(StringAll) has the same members; '[' + String + ']' read by RunesRangeExpand is accepted and has exactly the members of the set.", "quantifier": "every ASCIISet value", "why_tests_cant": "There are 2^128 sets; the writer merges runs with an open run at the end of its loop, and the reader gives '-' a meaning.", "anchors": ["pkg/utils/asciiset.go:ASCIISet.WriteString", "pkg/utils/asciiset.go:ASCIISet.WriteStringAll", "pkg/utils/runesranges.go:RunesRangeExpand"]}
{"id": "C62", "title": "A series written as a path is reported for exactly the queries it satisfies", "statement": "Let any queries be added to an empty GTagsTree and let a series with a name and a list of tags be written as Query(name)?Query(k)=Query(v)&... or Query(name);Query(k)=Query(v);.... Then PathTagsMap (GraphitePathTagsMap) reads the path without error and MatchByTagsMap on its result stores exactly the accepted queries with conditions all of whose conditions hold for the series (the last value of a key counts), each once, and returns their number; if the tags are in order, PathTags and MatchByTags do the same, with the query without conditions stored in front.", "quantifier": "every list of Add calls, every series", "why_tests_cant": "Composes escaping, path parsing, query parsing, tree insertion and tree search over unbounded inputs.", "anchors": ["gtags/tagged_term.go:PathTagsMap", "gtags/tagged_term.go:PathTags", "gtags/tree.go:Add", "gtags/tree.go:MatchByTagsMap", "gtags/tree.go:MatchByTags", "pkg/escape/escape.go:Query"]}
{"id": "C63", "title": "Adding a query changes the reports only by that query", "statement": "After any history of Add, AddGlob and AddTerms calls, one more call leaves every later search with the same calls of Store in the same order and the same count, or with these plus exactly one call for the newly accepted query (counted once); a search that returns after the call returned before it. This holds for Match and MatchByParts of GGlobTree, MatchByTagsMap, and MatchByTags on tags in order of keys (there the query without conditions is stored first and not counted).", "quantifier": "every history of calls, every further call, every path or set of tags", "why_tests_cant": "Histories are unbounded and an insertion may share any part of the existing tree; a test fixes one tree.", "anchors": ["gglob/gtree.go:Add", "gglob/gtree.go:AddGlob", "gglob/gtree.go:Match", "gglob/gtree.go:MatchByParts", "gtags/tree.go:Add", "gtags/tree.go:AddTerms", "gtags/tree.go:MatchByTagsMap", "gtags/tree.go:MatchByTags", "gtags/items.go:Parse"]}
{"id": "C64", "title": "A tree reports a query exactly when the query by itself matches", "statement": "If one query is added to an empty GTagsTree or GGlobTree and accepted, MatchByTagsMap (MatchByTags on tags in order of keys; MatchByParts; Match) stores it once and counts it exactly if MatchByTagsMap of its parsed terms (MatchByParts of the parsed glob) says true, and gives an answer exactly if that does. With any number of accepted dotted globs or tag queries, each one is reported exactly if it matches by itself, and the search gives an answer exactly if each of them does.", "quantifier": "every query text (any bytes), every index, every history of Add and AddGlob calls, every set of tags, every list of parts", "why_tests_cant": "Compares two different search algorithms on unboundedly many texts and inputs, invalid UTF-8 and panics included.", "anchors": ["gtags/tree.go:Add", "gtags/tree.go:MatchByTagsMap", "gtags/tree.go:MatchByTags", "gtags/tagged_term.go:TaggedTermList.MatchByTagsMap", "gglob/gtree.go:Add", "gglob/gtree.go:MatchByParts", "gglob/gtree.go:Match", "gglob/gglob.go:GGlob.MatchByParts"]}
{"id": "C65", "title": "Every alternative can be drawn as a sample", "statement": "For every way of choosing one alternative of each brace expression of a glob there are random numbers with which Glob.WriteRandom writes a text of the chosen branch.", "quantifier": "every glob (any number of brace expressions and alternatives), every choice of alternatives", "why_tests_cant": "The number of choices grows without bound, and a random draw cannot show that a choice is reachable or never reached.", "anchors": ["glob/glob.go:Glob.WriteRandom", "pkg/items/items.go:Item.WriteRandom", "pkg/items/group.go:Group.WriteRandom", "pkg/items/stringlist.go:StringList.WriteRandom"]}
{"id": "C66", "title": "Writers that share a builder do not disturb each other", "statement": "Called with a builder that already holds some text, UnescapeTo, UnescapeNameTo and the WriteString methods of items, character classes, ASCII sets, terms and term lists keep that text, append a text that does not depend on it, and (where they return a string) return exactly that text: for UnescapeTo what Unescape returns (nothing is appended if there is no '%' and no '+'), for UnescapeNameTo the unescaped name and '__name__=' with it, for WriteString what String returns.", "quantifier": "every earlier content of the builder, every byte string, every item (nested to any depth), class, set and list of terms", "why_tests_cant": "Tests start with an empty builder or a few contents; the functions return slices of the builder from a remembered position, which must be right for every content and every loop exit.", "anchors": ["pkg/escape/unescape.go:unescape", "pkg/escape/unescape.go:UnescapeTo", "pkg/escape/unescape.go:UnescapeNameTo", "pkg/items/items.go:Item.WriteString", "pkg/items/group.go:Group.WriteString", "pkg/items/stringlist.go:StringList.WriteString", "pkg/items/chain.go:Chain.WriteString", "pkg/utils/asciiset.go:ASCIISet.WriteString", "pkg/utils/runesranges.go:RunesRanges.WriteString", "gtags/tagged_term.go:TaggedTermList.WriteString"]}
{"id": "C67", "title": "MinLen and MaxLen are the lengths of a shortest and a longest text", "statement": "MinLen of a parsed glob is the byte length of a shortest text the glob stands for (so it is 0 exactly if the empty text fits). Without a star MaxLen is the byte length of a longest such text. MaxLen is -1 exactly if there are texts of every length.", "quantifier": "every accepted glob text and all the texts it stands for", "why_tests_cant": "A shortest and a longest text have to be compared with all other texts of the glob, which are unboundedly many, for globs of any number of wildcards and alternatives.", "anchors": ["glob/glob.go:Parse", "pkg/items/stringlist.go:NewItemList", "pkg/items/group.go:NewGroup", "pkg/items/chain.go:Chain.Append", "pkg/items/runesranges.go:NewRunesRanges"]}
{"id": "C68", "title": "An expression of package expand is an iterator over its replacements", "statement": "For every expression that ParseExpr returns, repeated calls of appendNext append its replacements in order (the body, the words of the list, the members of the class), count() of them, then report io.EOF, and go on reporting it; reset() restores the expression; minLen() is the length of the first replacement, -1 for a wildcard.", "quantifier": "every text, every expression of its parse, every buffer given to appendNext", "why_tests_cant": "Texts, buffers and the number of calls are unbounded; the state of the iterator after the end of the iteration is not looked at by any test.", "anchors": ["expand/expression.go:Expression.appendNext", "expand/expression.go:Expression.reset", "expand/expression.go:Expression.count", "expand/expression.go:Expression.minLen", "expand/runes.go:runes.next"]}
{"id": "C69", "title": "An error of a parser names the fault", "statement": "For every text that glob.Parse, gglob.Parse or ParseSeriesByTag refuses, the kind of the error and the text it carries are those of the first fault: the class that is not closed or has a bad range, the list that is not closed, the bracket or brace without partner (of several faulty alternatives the first one in the order of bytes); the path with an empty node; the quote that is not closed, the stray text, the condition, operator or value that is not well formed. The message ends with a piece of the text, and for a glob that piece is itself refused.", "quantifier": "every byte string, every regular expression engine", "why_tests_cant": "The tests check for a few wrong globs that there is an error, and compare messages for fewer still; which fault is named depends on the order of alternatives and on the text around it.", "anchors": ["glob/glob.go:Parse", "pkg/items/wildcard.go:NextWildcardItem", "pkg/items/group.go:NewGroup", "pkg/items/errors.go", "gglob/gglob.go:Parse", "gtags/tagged_term.go:ParseSeriesByTag", "gtags/tagged_term.go:seriesByTagArgs", "gtags/tagged_term.go:parseString", "gtags/tagged_term.go:ParseTaggedConditions", "gtags/errors.go"]}
{"id": "C70", "title": "Parts of a tagged path", "statement": "For every path with a name separator the readers cut the arguments at the separators: each part key=value gives one tag, in order, and a part without '=' is reported by an error whose message shows the part. The error of the map readers is the error of the slice reader.", "quantifier": "every byte string used as tagged path", "why_tests_cant": "The tests read well formed paths and a few broken ones; what becomes of a part without '=' depends on its place among the others, and no test looks at the message.", "anchors": ["gtags/tagged_term.go:PathTags", "gtags/tagged_term.go:GraphitePathTags", "gtags/tagged_term.go:PathTagsMap", "gtags/tagged_term.go:NextTag", "gtags/errors.go:ErrPathInvalid"]}
{"id": "C71", "title": "Matching takes polynomial time", "statement": "There are constants c and d such that Glob.Match makes at most c*(len(glob)+len(s)+1)^d steps for every accepted glob and every text s, where a step is a round of matchItems, of matchStarItems or of its loop, or a value tried in a list or group.", "quantifier": "every accepted glob, every byte string matched", "why_tests_cant": "Running time on adversarial globs and texts cannot be sampled: the tests use short inputs, and the bound depends on the search giving up at the right places (abortGready) in every combination of stars.", "anchors": ["pkg/items/items.go:matchItems", "pkg/items/items.go:matchStarItems", "glob/glob.go:Match", "glob/glob.go:Parse"]}
{"id": "C72", "title": "Wildcard helpers and reserved room", "statement": "HasWildcard, IndexWildcard, IndexLastWildcard and WildcardCount describe the special bytes of every byte string: whether there is one of []{}*?, the places of the first and last one, the number of [ { * ?. The room for WildcardCount(glob) items that Parse reserves is enough for every accepted glob.", "quantifier": "every byte string; every accepted glob", "why_tests_cant": "The helpers scan by runes or bytes over texts that may be invalid UTF-8, and the number of items depends on all merges of neighbours; tests sample a few texts.", "anchors": ["pkg/items/utils.go:WildcardCount", "pkg/items/utils.go:HasWildcard", "pkg/items/utils.go:IndexWildcard", "pkg/items/utils.go:IndexLastWildcard", "glob/glob.go:Parse"]}
{"id": "C73", "title": "One report per glob and Match", "statement": "One call of GlobTree.Match passes each glob of the tree to Store at most once, so there are never more calls of Store than globs and an IndexStore or StringStore holds no duplicates.", "quantifier": "every sequence of Add and AddGlob calls, every glob of the tree, every text", "why_tests_cant": "How often a node is reached depends on all the ways the items of a glob can share out the text, and on the other globs in the tree; tests look at single pairs and mostly at globs that fit in one way.", "anchors": ["pkg/items/tree.go:TreeItem.Match", "pkg/items/tree.go:TreeItem.match", "pkg/items/tree.go:TreeItem.matchStar", "glob/tree.go:GlobTree.Match", "pkg/items/store.go:IndexStore.Store"]}
{"id": "C74", "title": "Trees of dotted globs and tag queries report each entry at most once", "statement": "One Match or MatchByParts of a GGlobTree, and one MatchByTags or MatchByTagsMap of a GTagsTree, that returns passes no index to Store twice, and calls Store no more often than globs or queries were accepted by the tree, however many ways a part or a value fits its glob and however often a tag or a condition is repeated.", "quantifier": "every sequence of Add and AddGlob / Add and AddTerms calls, every path, every list of parts, every list or map of tags", "why_tests_cant": "The tree for single globs does report one glob several times, so the claim rests on how every node of these two trees is reached, over all histories of additions; tests look at single entries.", "anchors": ["gglob/gtree.go:GGlobTree.Match", "gglob/gtree.go:GGlobTree.MatchByParts", "gtags/tree.go:GTagsTree.MatchByTags", "gtags/tree.go:GTagsTree.MatchByTagsMap", "pkg/items/store.go:IndexStore.Store"]}
{"id": "C75", "title": "A tree recognises a glob that is written in another way", "statement": "GlobTree.Add with a free index refuses a text with ErrGlobExist exactly if the tree already holds the same glob, perhaps written in another way: another order of ? and * in a run, repeated *, another spelling of a class, another order of the alternatives of braces. Every other readable text is accepted.", "quantifier": "every sequence of Add calls, every readable text, every index that is not in use", "why_tests_cant": "It is an equivalence over all pairs of globs and all histories; tests try a few spellings.", "anchors": ["glob/tree.go:GlobTree.Add", "pkg/items/items.go:AppendItem", "pkg/items/runesranges.go:RunesRanges.WriteString", "pkg/utils/asciiset.go:ASCIISet.WriteString"]}
{"id": "C76", "title": "Grow and Init change the room of a store, never its answers", "statement": "After NewAllStore and any calls of Init, Grow and Store the lists hold exactly the calls of Store since the last Init, in order, whatever capacities append picks. After Grow(n) Store allocates nothing until n elements are held; a further Grow with the same or a smaller number and a Grow with a negative number change nothing; after Init as many calls as were made before it allocate nothing. A slice read from the store keeps its contents as long as only Store is called, and is overwritten when the store is used again after Init.", "quantifier": "every sequence of Init, Grow and Store calls, every growth policy of append", "why_tests_cant": "Any history, and the capacities picked by append are not fixed by the language.", "anchors": ["pkg/items/store.go:IndexStore.Grow", "pkg/items/store.go:StringStore.Grow", "pkg/items/store.go:AllStore.Grow", "pkg/items/store.go:AllStore.Init", "pkg/items/store.go:AllStore.Store"]}
{"id": "C77", "title": "A tree of dotted globs recognises a glob that is written in another way", "statement": "GGlobTree.Add with a free index refuses a text with ErrGlobExist exactly if the tree already holds the same dotted glob, perhaps written in another way: in any part another order of ? and * in a run, repeated *, another spelling of a class, another order of the alternatives of braces; and dots at the end. Every other readable text is accepted.", "quantifier": "every sequence of Add calls, every readable dotted text, every index that is not in use", "why_tests_cant": "It is an equivalence over all pairs of dotted globs and all histories; tests try a few spellings.", "anchors": ["gglob/gtree.go:GGlobTree.Add", "gglob/gglob.go:Parse", "pkg/items/items.go:AppendItem"]}
{"id": "C78", "title": "A tree of tag queries recognises a query that is written in another way", "statement": "GTagsTree.Add with a free index refuses a query with ErrGlobExist exactly if the tree already holds a query with the same conditions (key, operator and value, globs in normal form), whatever the order of the conditions, the blanks and the quotes. Every other readable query is accepted.", "quantifier": "every sequence of Add calls, every readable query, every index that is not in use", "why_tests_cant": "It is an equivalence over all pairs of queries and all histories; tests try a few pairs.", "anchors": ["gtags/tree.go:GTagsTree.Add", "gtags/tagged_term.go:ParseSeriesByTag"]}
