{
 "claims": [
  {
   "property": "C01",
   "status": "partial",
   "theorems": [
    "GoMatcher.C01.match_exact_partial",
    "GoMatcher.C01.match_exact_noBraces_partial",
    "GoMatcher.C01.match_exact_list_partial",
    "GoMatcher.C01.match_exact_text_partial",
    "GoMatcher.C01.match_every_noBraces_partial",
    "GoMatcher.C01.class_star_wrong",
    "GoMatcher.C01.empty_class_wrong",
    "GoMatcher.C01.max_len_wrong",
    "GoMatcher.C01.star_list_wrong",
    "GoMatcher.C01.star_group_star_wrong",
    "GoMatcher.C01.replacement_char_wrong",
    "GoMatcher.C01.single_alternative_wrong"
   ],
   "note": "match_every_noBraces_partial: every glob text without { (no U+FFFD or NUL) is refused, or exact, or describes just the text * and accepts everything. With braces exact for the shapes Shape true and MaxOk, for written globs (match_exact_partial) and for every text by its reading (match_exact_text_partial; alternatives of which empty classes leave nothing or just a star are missing; for the former the claim is false, empty_class_wrong). Counter-examples are proved for classes with *, MaxOk, lists of words or stars behind a star, and U+FFFD. Matched texts with U+FFFD are covered when the glob has no class."
  },
  {
   "property": "C02",
   "status": "partial",
   "theorems": [
    "GoMatcher.C02.match_sound_partial",
    "GoMatcher.C02.match_sound_text_partial",
    "GoMatcher.C02.star_group_any_wrong",
    "GoMatcher.C02.class_star_wrong"
   ],
   "note": "Sound for all globs of the weaker shape, on every UTF-8 text (U+FFFD included); counter-examples proved outside."
  },
  {
   "property": "C03",
   "status": "partial",
   "theorems": [
    "GoMatcher.C03.match_no_panic_partial",
    "GoMatcher.C03.match_no_panic_noBraces_partial",
    "GoMatcher.C03.match_no_panic_text_partial",
    "GoMatcher.C03.no_panic_every_noBraces_partial",
    "GoMatcher.C03.no_panic_without_star_partial",
    "GoMatcher.C03.no_panic_without_any_partial",
    "GoMatcher.C03.any_behind_star_panics",
    "GoMatcher.C03.replacement_char_panics"
   ],
   "note": "No panic on any byte string for the stated shapes, for every glob text without {, U+FFFD and NUL, for every byte string without * and for every UTF-8 text without ? and U+FFFD; panicking globs exhibited outside."
  },
  {
   "property": "C04",
   "status": "proved",
   "theorems": [
    "GoMatcher.C04.matchItems_terminates",
    "GoMatcher.C04.glob_match_terminates"
   ],
   "note": ""
  },
  {
   "property": "C05",
   "status": "proved",
   "theorems": [
    "GoMatcher.C05.parse_total",
    "GoMatcher.C05.nextItem_total",
    "GoMatcher.C05.parseMust_panics_iff"
   ],
   "note": ""
  },
  {
   "property": "C06",
   "status": "partial",
   "theorems": [
    "GoMatcher.C06.literal_len",
    "GoMatcher.C06.min_len",
    "GoMatcher.C06.max_len_partial",
    "GoMatcher.C06.length_checks_partial",
    "GoMatcher.C06.lengths_text_partial",
    "GoMatcher.C06.max_len_wrong"
   ],
   "note": "MinLen for every written glob and every text with a reading (no alternative of which empty classes leave nothing or just a star); MaxLen is wrong for a star inside an alternative (max_len_wrong). literal_len: any accepted bytes that leave no items."
  },
  {
   "property": "C07",
   "status": "partial",
   "theorems": [
    "GoMatcher.C07.meaning_partial",
    "GoMatcher.C07.written_unique",
    "GoMatcher.C07.same_form_partial",
    "GoMatcher.C07.reparse_partial",
    "GoMatcher.C07.match_same_noBraces_partial",
    "GoMatcher.C07.match_same_partial",
    "GoMatcher.C07.special_class_wrong",
    "GoMatcher.C07.del_class_wrong",
    "GoMatcher.C07.width_class_wrong",
    "GoMatcher.C07.collapse_wrong",
    "GoMatcher.C07.not_idempotent",
    "GoMatcher.C07.same_pieces_partial",
    "GoMatcher.C07.form_iff_partial",
    "GoMatcher.C07.idempotent_partial"
   ],
   "note": "For tidy globs (no class of a single special character, no class run ending in DEL, no class run across a UTF-8 width change) the normal form is the written form of a glob with the same meaning, written forms have one meaning only, and matching agrees. Outside, the code violates the claim; one witness per cause. For tidy globs whose braces hold only words (no wildcards or classes inside) the normal form is its own normal form (idempotent_partial), and two globs have the same one exactly if they differ only in the order of ? and * within runs, repeated *, the spelling of classes, and the order and repetition of words in braces (form_iff_partial). With wildcards in braces idempotence fails (not_idempotent)."
  },
  {
   "property": "C08",
   "status": "partial",
   "theorems": [
    "GoMatcher.C08.stored_fits_partial",
    "GoMatcher.C08.stored_iff_partial",
    "GoMatcher.C08.stored_fits_text_partial",
    "GoMatcher.C08.stored_iff_text_partial",
    "GoMatcher.C08.stored_fits_noBraces_partial",
    "GoMatcher.C08.stored_iff_noBraces_partial",
    "GoMatcher.C08.one_glob_partial",
    "GoMatcher.C08.counter",
    "GoMatcher.C08.ex_run",
    "GoMatcher.C08.plain_wrong",
    "GoMatcher.C08.star_prefix_wrong",
    "GoMatcher.C08.star_class_prefix_wrong",
    "GoMatcher.C08.star_group_any_wrong",
    "GoMatcher.C08.stored_twice"
   ],
   "note": "soundness for the shapes of C02 on every UTF-8 text, exactness for the shapes of C01 (texts with U+FFFD if no glob has a class), after every history of additions, for written globs and for histories of texts by their readings, refused texts included (all texts without { are covered; alternatives of which empty classes leave nothing or just a star are missing); refuted for globs without wildcards, for a star glob that begins another one, and outside the shapes"
  },
  {
   "property": "C09",
   "status": "partial",
   "theorems": [
    "GoMatcher.C09.terminates_partial",
    "GoMatcher.C09.terminates_text_partial",
    "GoMatcher.C09.terminates_every_noBraces_partial",
    "GoMatcher.C09.depth_partial",
    "GoMatcher.C09.terminates_noBraces_partial",
    "GoMatcher.C09.star_in_braces_loops",
    "GoMatcher.C09.any_behind_star_panics"
   ],
   "note": "every byte string; histories of written globs, or of texts by their readings, refused ones included (all texts without { are covered); refuted: {a*b,c} loops for ever, *{?,a} panics"
  },
  {
   "property": "C10",
   "status": "partial",
   "theorems": [
    "GoMatcher.C10.add_refused",
    "GoMatcher.C10.add_error",
    "GoMatcher.C10.add_accepted",
    "GoMatcher.C10.addGlob_refused",
    "GoMatcher.C10.addGlob_accepted_partial",
    "GoMatcher.C10.addGlob_wrong",
    "GoMatcher.C10.index_stable",
    "GoMatcher.C10.books_partial"
   ],
   "note": "Add as stated; AddGlob records the empty string instead of the normal form"
  },
  {
   "property": "C11",
   "status": "partial",
   "theorems": [
    "GoMatcher.C11.match_iff",
    "GoMatcher.C11.match_ok",
    "GoMatcher.C11.parse_parts",
    "GoMatcher.C11.match_sound_partial",
    "GoMatcher.C11.match_exact_partial",
    "GoMatcher.C11.match_sound_text_partial",
    "GoMatcher.C11.match_exact_text_partial",
    "GoMatcher.C11.dots_not_counted",
    "GoMatcher.C11.long_path_refused",
    "GoMatcher.C11.two_dots_accepted"
   ],
   "note": "Match is described exactly for every GGlob value and every byte string (match_iff: part-wise match plus the two length tests). The claim itself fails: MaxLen is summed without the dots, so `a.b` refuses the path a.b (dots_not_counted). Proved exact for single parts and whenever one part is unbounded, within the glob shapes of C01 (written globs, and in the text theorems any text whose parts have such a reading)."
  },
  {
   "property": "C12",
   "status": "partial",
   "theorems": [
    "GoMatcher.C12.match_eq_byParts",
    "GoMatcher.C12.match_eq_byParts_len",
    "GoMatcher.C12.trailing_dot_wrong",
    "GoMatcher.C12.empty_part_wrong"
   ],
   "note": "Equality for every glob value and every path without empty parts, when MatchByParts gets the length without the trailing dot. With len(path) of a path with a trailing dot the answers differ (trailing_dot_wrong)."
  },
  {
   "property": "C13",
   "status": "partial",
   "theorems": [
    "GoMatcher.C13.match_exact_partial",
    "GoMatcher.C13.written_exact_partial",
    "GoMatcher.C13.text_exact_partial",
    "GoMatcher.C13.accepted_nodes_distinct",
    "GoMatcher.C13.same_node_wrong",
    "GoMatcher.C13.literal_star_wrong",
    "GoMatcher.C13.match_exact",
    "GoMatcher.C13.byParts_exact",
    "GoMatcher.C13.byParts_returns_iff",
    "GoMatcher.C13.match_returns_iff",
    "GoMatcher.C13.match_returns",
    "GoMatcher.C13.reported_accepted"
   ],
   "note": "match_exact and byParts_exact say for every history, with no hypothesis on the globs, what is reported: the accepted globs whose literal parts are equal and whose wild parts are matched by the part of the first accepted glob with the same parts up to there, literal or not and normal form; byParts_returns_iff and match_returns_iff say when matching returns. The property asks for the glob's own parts. For every history: the calls to store are a permutation of the accepted globs that match part by part, under the hypothesis that part globs with equal node text answer alike. text_exact_partial starts from arbitrary texts, refused ones included, and needs clear readings of the accepted ones instead of the hypothesis. The hypothesis fails for {a[*],b?} and {a*,b?} (same_node_wrong) and for the literal part [*]."
  },
  {
   "property": "C14",
   "status": "proved",
   "theorems": [
    "GoMatcher.C14.match_eq_byParts",
    "GoMatcher.C14.empty_part_wrong"
   ],
   "note": "For every reachable tree; same calls, same order, same count."
  },
  {
   "property": "C15",
   "status": "partial",
   "theorems": [
    "GoMatcher.C15.add_refused",
    "GoMatcher.C15.add_error",
    "GoMatcher.C15.add_accepted",
    "GoMatcher.C15.addGlob_refused",
    "GoMatcher.C15.addGlob_accepted_partial",
    "GoMatcher.C15.addGlob_wrong",
    "GoMatcher.C15.index_stable",
    "GoMatcher.C15.books_partial"
   ],
   "note": "Everything holds for Add. AddGlob binds the index to the empty string (addGlob_wrong)."
  },
  {
   "property": "C16",
   "status": "partial",
   "theorems": [
    "GoMatcher.C16.pathLevel_spec",
    "GoMatcher.C16.pathSplit_join",
    "GoMatcher.C16.pathSplit_no_dot",
    "GoMatcher.C16.pathSplit_nil",
    "GoMatcher.C16.pathSplit_of_join",
    "GoMatcher.C16.pathSplitB_exact",
    "GoMatcher.C16.pathSplitB_partial",
    "GoMatcher.C16.pathSplitB_double_dot",
    "GoMatcher.C16.hasEmptyParts_spec"
   ],
   "note": "PathLevel and PathSplit proved in full. PathSplitB drops one trailing empty part beyond the specified one (pathSplitB_double_dot); pathSplitB_exact is its exact behaviour."
  },
  {
   "property": "C17",
   "status": "proved",
   "theorems": [
    "GoMatcher.C17.unescape_query",
    "GoMatcher.C17.unescape_path",
    "GoMatcher.C17.unescape_plain",
    "GoMatcher.C17.unescapeName"
   ],
   "note": ""
  },
  {
   "property": "C18",
   "status": "partial",
   "theorems": [
    "GoMatcher.C18.escapeTo_exact",
    "GoMatcher.C18.queryTo_partial",
    "GoMatcher.C18.pathTo_partial",
    "GoMatcher.C18.queryTo_loses",
    "GoMatcher.C18.queryTo_wrong"
   ],
   "note": "Both functions lose the last byte when it is plain and the byte before it is escaped (queryTo_loses), and are right otherwise; escapeTo_exact is the exact behaviour."
  },
  {
   "property": "C19",
   "status": "proved",
   "theorems": [
    "GoMatcher.C19.query_safe",
    "GoMatcher.C19.query_injective",
    "GoMatcher.C19.query_no_delims"
   ],
   "note": ""
  },
  {
   "property": "C20",
   "status": "proved",
   "theorems": [
    "GoMatcher.C20.roundtrip",
    "GoMatcher.C20.roundtrip_any"
   ],
   "note": "Every name, every list of keys and values; both separator styles."
  },
  {
   "property": "C21",
   "status": "proved",
   "theorems": [
    "GoMatcher.C21.tagsMap_get",
    "GoMatcher.C21.map_eq_slice",
    "GoMatcher.C21.reused_map",
    "GoMatcher.C21.error_iff"
   ],
   "note": "Every byte string and every previous content of the reused map; both separator styles."
  },
  {
   "property": "C22",
   "status": "partial",
   "theorems": [
    "GoMatcher.C22.match_iff",
    "GoMatcher.C22.match_exact",
    "GoMatcher.C22.regexp_term",
    "GoMatcher.C22.plain_term",
    "GoMatcher.C22.glob_term_partial",
    "GoMatcher.C52.meaning_partial",
    "GoMatcher.C52.meaning_noBraces_partial"
   ],
   "note": "The query level (all terms, all maps), regular expression terms (for any expression engine, a parameter of the model) and plain values are proved in full. Glob values are proved for the glob shapes of C01. C52.meaning_partial goes from the text of a query to its answer, for glob texts whose reading has these shapes; C52.meaning_noBraces_partial for all accepted queries whose globs have no braces."
  },
  {
   "property": "C23",
   "status": "partial",
   "theorems": [
    "GoMatcher.C23.slice_eq_map_partial",
    "GoMatcher.C23.slice_eq_map_present_partial",
    "GoMatcher.C23.slice_after_absent",
    "GoMatcher.C23.slice_exact",
    "GoMatcher.C23.absent_key_wrong"
   ],
   "note": "Proved for sorted tags and queries where no negative condition with an absent tag is followed by a condition with a present tag; for the others the code is wrong in both directions (absent_key_wrong), and slice_exact says what it answers instead: conditions after the first negative condition with an absent key are answered as if the path had no tags."
  },
  {
   "property": "C24",
   "status": "proved",
   "theorems": [
    "GoMatcher.C24.order_independent",
    "GoMatcher.C24.query_order_independent",
    "GoMatcher.C24.text_order_independent",
    "GoMatcher.C24.match_order_independent"
   ],
   "note": "For every sort routine that returns a sorted permutation. Terms that agree in key, operator and normalised value may be swapped; texts and ids agree exactly. text_order_independent is about any two query texts (both quotes, any separators, more than 128 conditions) whose conditions agree up to order."
  },
  {
   "property": "C25",
   "status": "partial",
   "theorems": [
    "GoMatcher.C25.map_exact_partial",
    "GoMatcher.C25.map_stand_ins_partial",
    "GoMatcher.C25.slice_stand_ins_partial",
    "GoMatcher.C25.written_partial",
    "GoMatcher.C25.text_partial",
    "GoMatcher.C25.plain_partial",
    "GoMatcher.C25.accepted_mem",
    "GoMatcher.C25.queryHas_good",
    "GoMatcher.C25.queryHas_plain",
    "GoMatcher.C25.shared_term_wrong",
    "GoMatcher.C25.empty_query_wrong",
    "GoMatcher.C25.empty_key_wrong"
   ],
   "note": "Every history of Add calls whose conditions all have a key. map_stand_ins_partial and slice_stand_ins_partial need no hypothesis on the conditions: each query is reported iff the conditions that stand in for its own hold (same key, operator and stored text, from some accepted query), and the search returns iff each list of stand-ins gives an answer. map_exact_partial: its own conditions, if those with the same text compare alike; written_partial covers regular expressions (as an oracle) and the exact glob shapes; text_partial goes from the texts of the queries to the reports; plain_partial all conditions without globs on all byte strings. False in general: terms that share key, operator and stored text share the comparison of the first one, the query without conditions is not reported, conditions with an empty key are misfiled."
  },
  {
   "property": "C26",
   "status": "partial",
   "theorems": [
    "GoMatcher.C26.slice_vs_map",
    "GoMatcher.C26.slice_eq_map_partial",
    "GoMatcher.C26.empty_query_wrong"
   ],
   "note": "slice_vs_map holds for every history (AddTerms and empty keys included) and every sorted tag list; the only difference is the query without conditions, which the slice search stores and does not count."
  },
  {
   "property": "C27",
   "status": "partial",
   "theorems": [
    "GoMatcher.C27.find_exact_partial",
    "GoMatcher.C27.find_iff_partial",
    "GoMatcher.C27.empty_key_wrong"
   ],
   "note": "All sorted tag lists, non-empty keys and resume positions. The empty key is never found."
  },
  {
   "property": "C28",
   "status": "partial",
   "theorems": [
    "GoMatcher.C28.add_refused",
    "GoMatcher.C28.add_error",
    "GoMatcher.C28.add_accepted",
    "GoMatcher.C28.addTerms_refused",
    "GoMatcher.C28.index_stable",
    "GoMatcher.C28.books_partial",
    "GoMatcher.C28.accepted_distinct",
    "GoMatcher.C28.addTerms_accepted_partial",
    "GoMatcher.C28.addTerms_wrong"
   ],
   "note": "Everything claimed about Add; AddTerms records the empty text and its queries are never reported (addTerms_wrong)."
  },
  {
   "property": "C29",
   "status": "partial",
   "theorems": [
    "GoMatcher.C29.add_total_partial",
    "GoMatcher.C29.add_text_partial",
    "GoMatcher.C29.malformed_refused",
    "GoMatcher.C29.parse_total",
    "GoMatcher.C29.hasKeys_iff",
    "GoMatcher.C29.first_add_panics_iff",
    "GoMatcher.C29.empty_key_panics"
   ],
   "note": "Total on every tree and query without empty keys (add_text_partial says this of the query text), and on all malformed queries; first_add_panics_iff says exactly which texts panic on an empty tree: accepted queries with a condition that has only white space before its operator."
  },
  {
   "property": "C30",
   "status": "partial",
   "theorems": [
    "GoMatcher.C30.product_partial",
    "GoMatcher.C30.choices_exist",
    "GoMatcher.C30.texts_exist",
    "GoMatcher.C30.texts_unique",
    "GoMatcher.C30.text_exact",
    "GoMatcher.C30.combine_length",
    "GoMatcher.C30.nul_lost",
    "GoMatcher.C30.many_lists_panic",
    "GoMatcher.C30.replacement_char_lost"
   ],
   "note": "text_exact determines the returned list for every byte string (pieces, replacements, order, panics); it is the product of the statement for every written glob: exact product in order for every written glob with at most 2^44 combinations and no class with U+FFFD or surrogates; counter-examples for the rest"
  },
  {
   "property": "C31",
   "status": "partial",
   "theorems": [
    "GoMatcher.C31.within_limit_partial",
    "GoMatcher.C31.text_exact",
    "GoMatcher.C31.cut_exists",
    "GoMatcher.C31.wrapped_product_wrong"
   ],
   "note": "text_exact determines the list under any limits for every byte string; bound: arbitrary byte strings; the limit times the largest list or class must fit an int, otherwise refuted"
  },
  {
   "property": "C32",
   "status": "partial",
   "theorems": [
    "GoMatcher.C32.one_result_partial",
    "GoMatcher.C32.kept_text",
    "GoMatcher.C32.as_written_partial",
    "GoMatcher.C32.text_exact",
    "GoMatcher.C32.as_written_iff",
    "GoMatcher.C32.single_choice_unwrapped",
    "GoMatcher.C32.bad_class_unwrapped",
    "GoMatcher.C32.many_lists_panic"
   ],
   "note": "exactly one result for every byte string when the call returns; the text is determined for every byte string, with the exact condition for it to be as written; not always as written"
  },
  {
   "property": "C33",
   "status": "partial",
   "theorems": [
    "GoMatcher.C33.parse_panics_iff",
    "GoMatcher.C33.no_endless_loop",
    "GoMatcher.C33.returns_partial",
    "GoMatcher.C33.returns_iff",
    "GoMatcher.C33.panics_iff",
    "GoMatcher.C33.try_panics_iff",
    "GoMatcher.C33.empty_brackets_panic",
    "GoMatcher.C33.many_lists_panic"
   ],
   "note": "refuted for {} and for 45 lists; panics_iff is the exact condition for every byte string, limit and depth; no endless loop for any input"
  },
  {
   "property": "C34",
   "status": "partial",
   "theorems": [
    "GoMatcher.C34.try_is_first",
    "GoMatcher.C34.unchanged_partial",
    "GoMatcher.C34.repeated_partial",
    "GoMatcher.C34.try_text",
    "GoMatcher.C34.try_keeps_position"
   ],
   "note": "ExpandTry is the first of Expand for every input, and try_text determines it for every byte string; repeated use refuted for calls with try"
  },
  {
   "property": "C35",
   "status": "proved",
   "theorems": [
    "GoMatcher.C35.contains_built",
    "GoMatcher.C35.add_flag",
    "GoMatcher.C35.contains_add",
    "GoMatcher.C35.contains_clear",
    "GoMatcher.C35.make_spec",
    "GoMatcher.C35.makeMust_panic_iff",
    "GoMatcher.C35.index_some",
    "GoMatcher.C35.index_none",
    "GoMatcher.C35.lastIndex_some",
    "GoMatcher.C35.lastIndex_none",
    "GoMatcher.C35.count_spec",
    "GoMatcher.C35.count_ignores_nul"
   ],
   "note": "Count never counts NUL; count_ignores_nul records this."
  },
  {
   "property": "C36",
   "status": "proved",
   "theorems": [
    "GoMatcher.C36.merge_spec",
    "GoMatcher.C36.merge_perm",
    "GoMatcher.C36.merge_drops_nul"
   ],
   "note": "NUL ranges are dropped by the code (merge_drops_nul), hence the quantifier 'above NUL'."
  },
  {
   "property": "C37",
   "status": "partial",
   "theorems": [
    "GoMatcher.C37.class_exact",
    "GoMatcher.C37.reads_unique",
    "GoMatcher.C37.contains_iff_partial",
    "GoMatcher.C37.accepted_iff",
    "GoMatcher.C37.sizes_bound",
    "GoMatcher.C37.containsUnicode_iff",
    "GoMatcher.C37.add_merge_contains",
    "GoMatcher.C37.adds_merge_contains",
    "GoMatcher.C37.replacement_char_wrong",
    "GoMatcher.C37.dash_wrong"
   ],
   "note": "class_exact describes acceptance and membership for every class text, any bytes. The property as written holds for every class of single characters and ranges without U+FFFD and without a leading, trailing or doubled dash (contains_iff_partial). Refuted for a lone U+FFFD and for a written dash, which the parser drops (replacement_char_wrong, dash_wrong)."
  },
  {
   "property": "C38",
   "status": "partial",
   "theorems": [
    "GoMatcher.C38.index_first_partial",
    "GoMatcher.C38.index_stops_at_FFFD",
    "GoMatcher.C38.indexByte_loops",
    "GoMatcher.C38.indexByte_eq_index_partial",
    "GoMatcher.C38.ranges_iff",
    "GoMatcher.C38.index_wide",
    "GoMatcher.C38.index_ascii",
    "GoMatcher.C38.indexByte_wide"
   ],
   "note": "index_wide, index_ascii and indexByte_wide say what both functions return for every accepted class and every byte string. Index is exact unless U+FFFD occurs before the first member (index_stops_at_FFFD); IndexByte of a class with a non-ASCII member loops forever at an ASCII byte outside the class (indexByte_loops)."
  },
  {
   "property": "C39",
   "status": "partial",
   "theorems": [
    "GoMatcher.C39.startsWith_spec",
    "GoMatcher.C39.startsWith_char_partial",
    "GoMatcher.C39.endsWith_char_partial",
    "GoMatcher.C39.endsWith_ascii_wrong",
    "GoMatcher.C39.replacement_char_wrong",
    "GoMatcher.C39.endsWith_isSome_partial",
    "GoMatcher.C39.endsWith_spec",
    "GoMatcher.C39.endsWith_exact",
    "GoMatcher.C39.startsWith_exact"
   ],
   "note": "endsWith_exact and startsWith_exact: every class value and every text, by its last or first character. Both functions are exact for first and last characters other than U+FFFD, except that EndsWith returns a wrong offset for ASCII members (endsWith_ascii_wrong). A class that contains U+FFFD through a range does not find it (replacement_char_wrong)."
  },
  {
   "property": "C40",
   "status": "proved",
   "theorems": [
    "GoMatcher.C40.skipRunes_spec",
    "GoMatcher.C40.skipRunesLast_spec",
    "GoMatcher.C40.skipRunes_in_bounds"
   ],
   "note": ""
  },
  {
   "property": "C41",
   "status": "proved",
   "theorems": [
    "GoMatcher.C41.all_lists",
    "GoMatcher.C41.all_min",
    "GoMatcher.C41.minStore_new",
    "GoMatcher.C41.init_forgets",
    "GoMatcher.C41.allStore_new_min_wrong"
   ],
   "note": "NewAllStore without Init reports 0 as minimum (allStore_new_min_wrong), which the statement excludes by 'initialised'."
  },
  {
   "property": "C42",
   "status": "proved",
   "theorems": [
    "GoMatcher.C42.listExpand_spec",
    "GoMatcher.C42.alternatives_join",
    "GoMatcher.C42.listExpand_refuses"
   ],
   "note": ""
  },
  {
   "property": "C43",
   "status": "partial",
   "theorems": [
    "GoMatcher.C43.intersect_partial",
    "GoMatcher.C43.intersect_not_common",
    "GoMatcher.C43.intersect_exact",
    "GoMatcher.C43.intersect_common_partial"
   ],
   "note": "intersect_exact says what is returned for every list of byte strings; it is a common prefix when the literal start of globs[0] is a prefix of all the others (intersect_common_partial). IntersectGlobs compares globs[0] with itself, so the result need not be a common prefix (intersect_not_common)."
  },
  {
   "property": "C44",
   "status": "partial",
   "theorems": [
    "GoMatcher.C44.language_partial",
    "GoMatcher.C44.match_partial",
    "GoMatcher.C44.special_member_wrong"
   ],
   "note": "every limit and depth; classes with special characters, U+FFFD, surrogates excluded; model-level corollary for Glob.Match within the restrictions of C01"
  },
  {
   "property": "C45",
   "status": "partial",
   "theorems": [
    "GoMatcher.C45.sample_fits_partial",
    "GoMatcher.C45.sample_matches_partial",
    "GoMatcher.C45.sample_between",
    "GoMatcher.C45.sample_plain",
    "GoMatcher.C45.class_wrong",
    "GoMatcher.C45.prefix_wrong",
    "GoMatcher.C45.suffix_wrong",
    "GoMatcher.C45.ascii_class_panics",
    "GoMatcher.C45.mixed_class_wrong"
   ],
   "note": "For every oracle of random numbers: a glob without fixed first/last character whose classes are single or non-ASCII writes a fitting text. The code forgets Prefix/Suffix, panics on [ab] and writes several characters for mixed classes; the class restriction is shown exact."
  },
  {
   "property": "C46",
   "status": "partial",
   "theorems": [
    "GoMatcher.C46.reparse_partial",
    "GoMatcher.C46.reparse_plain_partial",
    "GoMatcher.C46.condition_stable_iff",
    "GoMatcher.C46.tilde_wrong",
    "GoMatcher.C46.quote_wrong",
    "GoMatcher.C46.key_wrong",
    "GoMatcher.C46.star_wrong",
    "GoMatcher.C46.blank_wrong"
   ],
   "note": "Proved for printable terms (non-empty key, no quote, value of =/!= not starting with ~ or with outer blanks, glob values that are their own normal form). condition_stable_iff says for every accepted condition exactly when printing and reading it gives it back. Each excluded case has a counter-example of the code."
  },
  {
   "property": "C47",
   "status": "partial",
   "theorems": [
    "GoMatcher.C47.near_expanded_partial",
    "GoMatcher.C47.all_expanded_partial",
    "GoMatcher.C47.text_exact",
    "GoMatcher.C47.cut_iff",
    "GoMatcher.C47.inner_dot_wrong"
   ],
   "note": "text_exact says for every byte string what is expanded; the statement itself: dots within brackets excluded, where the statement is false"
  },
  {
   "property": "C48",
   "status": "partial",
   "theorems": [
    "GoMatcher.C48.unescape_partial",
    "GoMatcher.C48.unescape_exact",
    "GoMatcher.C48.Decodes.unique",
    "GoMatcher.C48.bad_escape_wrong"
   ],
   "note": "as stated when every % starts an escape; behaviour on all strings characterised; refuted for %%41"
  },
  {
   "property": "C49",
   "status": "proved",
   "theorems": [
    "GoMatcher.C49.map_keys",
    "GoMatcher.C49.matchFirst_exact",
    "GoMatcher.C49.matchFirst_sound",
    "GoMatcher.C49.findFirst_exact",
    "GoMatcher.C49.findFirst_sound",
    "GoMatcher.C49.matchN_exact",
    "GoMatcher.C49.findN_exact"
   ],
   "note": "Every word list that NewItemList builds and every byte string."
  },
  {
   "property": "C50",
   "status": "partial",
   "theorems": [
    "GoMatcher.C50.longest_common_prefix_partial",
    "GoMatcher.C50.no_strings",
    "GoMatcher.C50.undecodable_panics",
    "GoMatcher.C50.undecodable_wrong"
   ],
   "note": "Longest common prefix for every list of valid UTF-8 strings; refuted for undecodable bytes (wrong prefix, panic)."
  },
  {
   "property": "C51",
   "status": "proved",
   "theorems": [
    "GoMatcher.C51.accepted_iff",
    "GoMatcher.C51.pieces_unique",
    "GoMatcher.C51.accepted_iff_partial",
    "GoMatcher.C51.accepted_noBraces_partial",
    "GoMatcher.C51.reading_unique"
   ],
   "note": "accepted_iff: every byte string is accepted exactly if it can be cut into pieces, and the cut is unique. The tokens behind the pieces (reading_unique) are for UTF-8 text without U+FFFD and NUL."
  },
  {
   "property": "C52",
   "status": "proved",
   "theorems": [
    "GoMatcher.C52.accepted_iff",
    "GoMatcher.C52.conditions_unique",
    "GoMatcher.C52.condition_unique",
    "GoMatcher.C52.terms_stand"
   ],
   "note": "Every byte string; the glob values are described by C51."
  },
  {
   "property": "C53",
   "status": "proved",
   "theorems": [
    "GoMatcher.C53.parseMust_spec",
    "GoMatcher.C53.accepted_iff",
    "GoMatcher.C53.parsed",
    "GoMatcher.C53.parts_unique"
   ],
   "note": "Every byte string; the part texts are described by C51."
  },
  {
   "property": "C54",
   "status": "proved",
   "theorems": [
    "GoMatcher.C54.order_accepted",
    "GoMatcher.C54.order_match",
    "GoMatcher.C54.order_later",
    "GoMatcher.C54.order_min",
    "GoMatcher.C54.refused_order",
    "GoMatcher.C54.addGlob_order"
   ],
   "note": "Every list of texts (any bytes) and indexes, every permutation, every subject. refused_order and addGlob_order show why the statement asks for accepted Add calls: with a refused call, or with AddGlob, the order is visible."
  },
  {
   "property": "C55",
   "status": "proved",
   "theorems": [
    "GoMatcher.C55.reported_added",
    "GoMatcher.C55.reported_index"
   ],
   "note": "Every history, every subject; no restriction on the globs."
  },
  {
   "property": "C56",
   "status": "proved",
   "theorems": [
    "GoMatcher.C56.gglob_reported",
    "GoMatcher.C56.gglob_parts_reported",
    "GoMatcher.C56.tags_reported",
    "GoMatcher.C56.tags_slice_reported",
    "GoMatcher.C56.accepted_add"
   ],
   "note": "Every history and every subject; no restriction on the globs, terms or the library behind regular expressions."
  },
  {
   "property": "C57",
   "status": "partial",
   "theorems": [
    "GoMatcher.C57.order_accepted",
    "GoMatcher.C57.order_later",
    "GoMatcher.C57.order_byParts_partial",
    "GoMatcher.C57.order_match_partial",
    "GoMatcher.C57.order_wrong"
   ],
   "note": "order_accepted and order_later hold for every list of texts and every permutation. What is reported: the same under the hypothesis that wild parts with the same normal form are written the same; false in general (order_wrong, {a[*],b?}.c and {a*,b?}.e)."
  },
  {
   "property": "C58",
   "status": "partial",
   "theorems": [
    "GoMatcher.C58.append_partial",
    "GoMatcher.C58.find_right",
    "GoMatcher.C58.found_again_partial",
    "GoMatcher.C58.unnamed_partial",
    "GoMatcher.C58.named_partial",
    "GoMatcher.C58.name_wrong",
    "GoMatcher.C58.tree_wrong",
    "GoMatcher.C58.twice_wrong"
   ],
   "note": "find_right: all groups in order, all non-empty keys and start positions. findOrAppend: all but a new key on groups that consist of __name__ alone, which is put before it (name_wrong). Whole trees: histories with no condition on __name__, or with exactly one in front in every query; false in general (tree_wrong, twice_wrong leave two groups for one key). The matching results do not depend on the order of groups (C25)."
  },
  {
   "property": "C59",
   "status": "partial",
   "theorems": [
    "GoMatcher.C59.order_accepted_partial",
    "GoMatcher.C59.order_later",
    "GoMatcher.C59.order_map_partial",
    "GoMatcher.C59.order_slice_partial",
    "GoMatcher.C59.order_plain_partial",
    "GoMatcher.C59.order_written_partial",
    "GoMatcher.C59.order_wrong",
    "GoMatcher.C59.order_panic_wrong"
   ],
   "note": "order_later holds for every list; order_accepted_partial for queries whose conditions have keys (order_panic_wrong otherwise). What is reported: the same if conditions with the same key, operator and stored text compare alike (always so for order_plain_partial and order_written_partial); false in general (order_wrong). Under the same condition both searches return or neither does, panics included."
  },
  {
   "property": "C60",
   "status": "partial",
   "theorems": [
    "GoMatcher.C60.query_exact",
    "GoMatcher.C60.path_exact",
    "GoMatcher.C60.queryTo_exact",
    "GoMatcher.C60.pathTo_exact"
   ],
   "note": "Query and Path in full. QueryTo and PathTo: what they append for every byte string; the last byte is missing when it stays and the byte before it is escaped (C18.queryTo_wrong), otherwise the claim holds."
  },
  {
   "property": "C61",
   "status": "partial",
   "theorems": [
    "GoMatcher.C61.stringAll_exact",
    "GoMatcher.C61.stringAll_make_partial",
    "GoMatcher.C61.stringAll_wrong",
    "GoMatcher.C61.string_expand_partial",
    "GoMatcher.C61.string_wrong"
   ],
   "note": "stringAll_exact: order, no repetition, and exactly which members are listed, for every set; NUL and DEL are forgotten (stringAll_wrong), otherwise MakeASCIISet gives the set back. String is read back when NUL is not a member, ~ and DEL are not both members, and - only together with , and . (string_expand_partial); string_wrong has a witness for each cause."
  },
  {
   "property": "C62",
   "status": "partial",
   "theorems": [
    "GoMatcher.C62.series_partial"
   ],
   "note": "Every list of Add calls whose queries have keys and clear globs (as in C25.text_partial), every series of UTF-8 texts (without U+FFFD if some glob has a class), both kinds of separators, both searches. False in general for the reasons of C25 (shared_term_wrong, C01)."
  },
  {
   "property": "C63",
   "status": "proved",
   "theorems": [
    "GoMatcher.C63.gglob_add",
    "GoMatcher.C63.gglob_later",
    "GoMatcher.C63.tags_add",
    "GoMatcher.C63.tags_slice_add"
   ],
   "note": "Every history of Add/AddGlob (of parsed globs) and Add/AddTerms calls, keys empty or not. gglob_later: any number of further calls keeps the old reports as a sublist in order. Tags: MatchByTags on tags sorted by key, as its comment asks. GlobTree is not in scope; there it is false (C08.star_prefix_wrong)."
  },
  {
   "property": "C64",
   "status": "partial",
   "theorems": [
    "GoMatcher.C64.tags_map_partial",
    "GoMatcher.C64.tags_slice_partial",
    "GoMatcher.C64.tags_many_partial",
    "GoMatcher.C64.tags_many_slice_partial",
    "GoMatcher.C64.gglob_parts_partial",
    "GoMatcher.C64.gglob_many_partial",
    "GoMatcher.C64.literal_star_wrong",
    "GoMatcher.C64.dots_wrong",
    "GoMatcher.C64.no_conditions_wrong",
    "GoMatcher.C64.no_tags_wrong"
   ],
   "note": "Every text and every byte. Tags: one query with conditions and at least one tag (no_conditions_wrong, no_tags_wrong otherwise); many queries if all conditions have keys and those with the same key, operator and stored text compare alike (C25.empty_key_wrong, C25.shared_term_wrong). Dotted globs, one or many: no part is a class of one star (literal_star_wrong), the length tests of the single glob are switched off (dots_wrong), and for many globs wild parts with the same normal form are written the same (C13.same_node_wrong)."
  },
  {
   "property": "C65",
   "status": "partial",
   "theorems": [
    "GoMatcher.C65.branch_between",
    "GoMatcher.C65.branch_partial",
    "GoMatcher.C65.empty_never",
    "GoMatcher.C65.star_hides"
   ],
   "note": "Every glob of valid tokens and every choice of alternatives whose classes can be sampled (C45). Missing: globs with a fixed first or last character (there branch_between gives the text between the two ends that the code forgets), the empty word of a list (empty_never) and alternatives beside a lone star (star_hides)."
  },
  {
   "property": "C66",
   "status": "proved",
   "theorems": [
    "GoMatcher.C66.unescapeTo_appends",
    "GoMatcher.C66.unescapeTo_keeps",
    "GoMatcher.C66.unescapeTo_returns",
    "GoMatcher.C66.unescapeNameTo_appends",
    "GoMatcher.C66.item_appends",
    "GoMatcher.C66.item_string",
    "GoMatcher.C66.items_append",
    "GoMatcher.C66.class_appends",
    "GoMatcher.C66.ascii_appends",
    "GoMatcher.C66.query_appends",
    "GoMatcher.C66.unescape_many"
   ],
   "note": "The writers are modelled a second time as programs on the content of the builder (Model/Builder.lean) with the loops by index of the code; the texts are those of the rest of the model."
  },
  {
   "property": "C67",
   "status": "partial",
   "theorems": [
    "GoMatcher.C67.shortest",
    "GoMatcher.C67.shortest_text",
    "GoMatcher.C67.empty_fits",
    "GoMatcher.C67.longest",
    "GoMatcher.C67.longest_text",
    "GoMatcher.C67.unbounded_partial",
    "GoMatcher.C67.unbounded_text_partial",
    "GoMatcher.C67.star_unbounded",
    "GoMatcher.C67.unbounded_wrong"
   ],
   "note": "shortest, longest: every glob of valid tokens shorter than 2^63-1 bytes, and every text read by GlobText false. Missing: -1 for globs whose stars stand inside alternatives and end none of them, which is false (unbounded_wrong); texts with NUL, U+FFFD, or an alternative that empty classes reduce to a star."
  },
  {
   "property": "C68",
   "status": "partial",
   "theorems": [
    "GoMatcher.C68.drains",
    "GoMatcher.C68.drains_unique",
    "GoMatcher.C68.order_partial",
    "GoMatcher.C68.first_len",
    "GoMatcher.C68.min_wrong",
    "GoMatcher.C68.count_wrong"
   ],
   "note": "drains, first_len: every text and every expression of its parse. order_partial: all expressions but classes that contain U+FFFD, for which the statement is false (count_wrong: the iterator stops early and goes on after io.EOF). minLen is not a minimum over the replacements (min_wrong)."
  },
  {
   "property": "C69",
   "status": "proved",
   "theorems": [
    "GoMatcher.C69.glob_error",
    "GoMatcher.C69.dotted_error",
    "GoMatcher.C69.query_error",
    "GoMatcher.C69.glob_message",
    "GoMatcher.C69.dotted_message",
    "GoMatcher.C69.query_message"
   ],
   "note": "Exact (iff) for every byte string: the error and its text are described by Spec/Faults and Spec/QueryFaults without the parser. The *_message theorems say that the message ends with a piece of the text. Whether a regular expression compiles is a parameter."
  },
  {
   "property": "C70",
   "status": "partial",
   "theorems": [
    "GoMatcher.C70.pairs_unique",
    "GoMatcher.C70.reading",
    "GoMatcher.C70.reading_noName",
    "GoMatcher.C70.map_error",
    "GoMatcher.C70.parts_partial",
    "GoMatcher.C70.error_cause",
    "GoMatcher.C70.missing_part",
    "GoMatcher.C70.unnamed_part"
   ],
   "note": "Refuted: in n?x&b=1 the part x is not reported but becomes part of the key x&b (missing_part), and the error of a part without = never shows it (unnamed_part, for every path: the variable is never assigned). Proved: what every byte string is read as and with which error (reading, reading_noName; pairs_unique shows that the description fits in one way only); the property for paths whose parts all have a = (parts_partial); every error has a cause (error_cause). The error of the map readers is that of the slice reader up to the name shown (map_error)."
  },
  {
   "property": "C71",
   "status": "partial",
   "theorems": [
    "GoMatcher.C71.noBraces_partial",
    "GoMatcher.C71.braces_steps",
    "GoMatcher.C71.no_polynomial"
   ],
   "note": "For every accepted byte string without { and every text: at most 2(len(s)+1)(len(glob)+1) steps, so the product of the lengths. Refuted with braces: {a,aa} repeated k+1 times makes at least 2^k steps on a...ab with 2k+2 bytes, so no polynomial is a bound. The steps are counted by Model/Steps along the run of the model."
  },
  {
   "property": "C72",
   "status": "partial",
   "theorems": [
    "GoMatcher.C72.count_bytes",
    "GoMatcher.C72.has_iff",
    "GoMatcher.C72.first_iff",
    "GoMatcher.C72.last_iff",
    "GoMatcher.C72.agree",
    "GoMatcher.C72.first_by_runes",
    "GoMatcher.C72.room_partial",
    "GoMatcher.C72.room_attained",
    "GoMatcher.C72.reserved_exceeded"
   ],
   "note": "The helpers are proved for every byte string, the count and the first place also for the scan by runes. Every accepted glob has at most 2n-1 items with n = WildcardCount, and for every n there is a glob that has so many. Refuted: the reserved room n is too small for n >= 2, for example for ?a? (the slice then grows, nothing else happens)."
  },
  {
   "property": "C73",
   "status": "partial",
   "theorems": [
    "GoMatcher.C73.once_partial",
    "GoMatcher.C73.once_bytes_partial",
    "GoMatcher.C73.once_words_partial",
    "GoMatcher.C73.stars_exact",
    "GoMatcher.C73.stored_exponential",
    "GoMatcher.C73.no_polynomial",
    "GoMatcher.C73.two_stars",
    "GoMatcher.C73.braces_twice",
    "GoMatcher.C73.bytes_twice"
   ],
   "note": "Proved, whatever else is in the tree: a glob without { is stored at most once on UTF-8 text when its stars stand in one run of * and ?, and on any bytes when only its last byte may be a star; with words in braces, on any bytes, when no word is the beginning of another one of the same braces and there is no star (the last token may be a star or braces with any words). Refuted otherwise: *a*a…* with k+1 literals on n times a is stored exactly (n choose k+1) times, so no polynomial in the lengths bounds the calls of Store; braces alone give two calls (two evaluated globs), and so does one star on a text that is not UTF-8. Missing: other globs with braces that are stored at most once, such as those with both stars and braces, or wildcards in braces."
  },
  {
   "property": "C74",
   "status": "proved",
   "theorems": [
    "GoMatcher.C74.gglob_once",
    "GoMatcher.C74.gglob_parts_once",
    "GoMatcher.C74.tags_map_once",
    "GoMatcher.C74.tags_slice_once"
   ],
   "note": "For every history, with any texts, globs and conditions, and every path or tags on which the call returns: the indexes reported are pairwise different and no more than the accepted additions. Regular expressions are a parameter."
  },
  {
   "property": "C75",
   "status": "partial",
   "theorems": [
    "GoMatcher.C75.keys",
    "GoMatcher.C75.known_iff",
    "GoMatcher.C75.recognised_partial",
    "GoMatcher.C75.other_glob_wrong",
    "GoMatcher.C75.same_glob_wrong"
   ],
   "note": "known_iff: every history of Add and every readable text, in terms of texts and normal forms. recognised_partial: the property itself for tidy globs whose braces hold only words (see C07). Refuted otherwise: a[*] is refused after a*, and {a*,b?} is accepted after {[b]?,a*}."
  },
  {
   "property": "C76",
   "status": "proved",
   "theorems": [
    "GoMatcher.C76.lists",
    "GoMatcher.C76.agrees",
    "GoMatcher.C76.grow_reserves",
    "GoMatcher.C76.grow_again",
    "GoMatcher.C76.init_reuses",
    "GoMatcher.C76.header_kept",
    "GoMatcher.C76.header_kept_init_wrong"
   ],
   "note": "Backing arrays, lengths and capacities are modelled; the growth of append is a parameter. header_kept_init_wrong is the witness for the last sentence: a slice of queries read before Init changes with the next match."
  },
  {
   "property": "C77",
   "status": "partial",
   "theorems": [
    "GoMatcher.C77.recognised_partial",
    "GoMatcher.C77.keys",
    "GoMatcher.C77.empty_part_wrong",
    "GoMatcher.C77.other_glob_wrong",
    "GoMatcher.C77.same_glob_wrong"
   ],
   "note": "recognised_partial: the property itself, with up to two dots at the end, for parts that are tidy (C07), hold only words in braces and do not vanish. Refuted otherwise: a. is refused after a.{}, whose normal form is a. (empty_part_wrong); b.a[*] is refused after b.a*; x.{a*,b?} is accepted after x.{[b]?,a*}."
  },
  {
   "property": "C78",
   "status": "partial",
   "theorems": [
    "GoMatcher.C78.recognised_partial",
    "GoMatcher.C78.same_refused",
    "GoMatcher.C78.same_text",
    "GoMatcher.C78.keys",
    "GoMatcher.C78.other_query_wrong"
   ],
   "note": "same_refused: every history and every readable query that has the conditions of a held one is refused, and nothing changes. recognised_partial: the equivalence, for queries whose conditions can be printed and read back (C46). Refuted otherwise: seriesByTag('a=[*]') is refused after seriesByTag('a=*') (other_query_wrong)."
  }
 ]
}