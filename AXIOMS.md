# Axioms of the manifest theorems

Output of `#print axioms`, grouped.  All theorems are in the namespace `GoMatcher`.

| property | axioms | theorems |
|---|---|---|
| C01 | Classical.choice, Quot.sound, propext | `C01.match_exact_partial`, `C01.match_exact_noBraces_partial`, `C01.match_exact_list_partial`, `C01.match_exact_text_partial`, `C01.match_every_noBraces_partial`, `C01.empty_class_wrong`, `C01.max_len_wrong`, `C01.star_list_wrong` |
| C01 | Quot.sound, propext | `C01.class_star_wrong`, `C01.star_group_star_wrong`, `C01.replacement_char_wrong`, `C01.single_alternative_wrong` |
| C02 | Classical.choice, Quot.sound, propext | `C02.match_sound_partial`, `C02.match_sound_text_partial` |
| C02 | Quot.sound, propext | `C02.star_group_any_wrong`, `C02.class_star_wrong` |
| C03 | Classical.choice, Quot.sound, propext | `C03.match_no_panic_partial`, `C03.match_no_panic_noBraces_partial`, `C03.match_no_panic_text_partial`, `C03.no_panic_every_noBraces_partial`, `C03.no_panic_without_star_partial`, `C03.no_panic_without_any_partial` |
| C03 | Quot.sound, propext | `C03.any_behind_star_panics`, `C03.replacement_char_panics` |
| C04 | Classical.choice, Quot.sound, propext | `C04.matchItems_terminates`, `C04.glob_match_terminates` |
| C05 | Classical.choice, Quot.sound, propext | `C05.parse_total`, `C05.nextItem_total`, `C05.parseMust_panics_iff` |
| C06 | Classical.choice, Quot.sound, propext | `C06.literal_len`, `C06.min_len`, `C06.max_len_partial`, `C06.length_checks_partial`, `C06.lengths_text_partial`, `C06.max_len_wrong` |
| C07 | Classical.choice, Quot.sound, propext | `C07.meaning_partial`, `C07.written_unique`, `C07.same_form_partial`, `C07.reparse_partial`, `C07.match_same_noBraces_partial`, `C07.match_same_partial`, `C07.collapse_wrong`, `C07.not_idempotent`, `C07.same_pieces_partial`, `C07.form_iff_partial`, `C07.idempotent_partial` |
| C07 | Quot.sound, propext | `C07.special_class_wrong`, `C07.del_class_wrong`, `C07.width_class_wrong` |
| C08 | Classical.choice, Quot.sound, propext | `C08.stored_fits_partial`, `C08.stored_iff_partial`, `C08.stored_fits_text_partial`, `C08.stored_iff_text_partial`, `C08.stored_fits_noBraces_partial`, `C08.stored_iff_noBraces_partial`, `C08.one_glob_partial`, `C08.ex_run` |
| C08 | Quot.sound, propext | `C08.counter`, `C08.plain_wrong`, `C08.star_prefix_wrong`, `C08.star_class_prefix_wrong`, `C08.star_group_any_wrong`, `C08.stored_twice` |
| C09 | Classical.choice, Quot.sound, propext | `C09.terminates_partial`, `C09.terminates_text_partial`, `C09.terminates_every_noBraces_partial`, `C09.depth_partial`, `C09.terminates_noBraces_partial`, `C09.star_in_braces_loops` |
| C09 | Quot.sound, propext | `C09.any_behind_star_panics` |
| C10 | Classical.choice, Quot.sound, propext | `C10.add_refused`, `C10.add_error`, `C10.add_accepted`, `C10.index_stable`, `C10.books_partial` |
| C10 | Quot.sound, propext | `C10.addGlob_refused`, `C10.addGlob_accepted_partial`, `C10.addGlob_wrong` |
| C11 | Classical.choice, Quot.sound, propext | `C11.match_iff`, `C11.match_ok`, `C11.parse_parts`, `C11.match_sound_partial`, `C11.match_exact_partial`, `C11.match_sound_text_partial`, `C11.match_exact_text_partial`, `C11.long_path_refused` |
| C11 | Quot.sound, propext | `C11.dots_not_counted`, `C11.two_dots_accepted` |
| C12 | Classical.choice, Quot.sound, propext | `C12.match_eq_byParts`, `C12.match_eq_byParts_len` |
| C12 | Quot.sound, propext | `C12.trailing_dot_wrong`, `C12.empty_part_wrong` |
| C13 | Classical.choice, Quot.sound, propext | `C13.match_exact_partial`, `C13.written_exact_partial`, `C13.text_exact_partial`, `C13.accepted_nodes_distinct`, `C13.match_exact`, `C13.byParts_exact`, `C13.byParts_returns_iff`, `C13.match_returns_iff`, `C13.match_returns`, `C13.reported_accepted` |
| C13 | Quot.sound, propext | `C13.same_node_wrong`, `C13.literal_star_wrong` |
| C14 | Classical.choice, Quot.sound, propext | `C14.match_eq_byParts` |
| C14 | Quot.sound, propext | `C14.empty_part_wrong` |
| C15 | Classical.choice, Quot.sound, propext | `C15.add_refused`, `C15.add_error`, `C15.add_accepted`, `C15.index_stable`, `C15.books_partial` |
| C15 | Quot.sound, propext | `C15.addGlob_refused`, `C15.addGlob_accepted_partial`, `C15.addGlob_wrong` |
| C16 | propext | `C16.pathLevel_spec`, `C16.pathSplit_join`, `C16.pathSplit_nil` |
| C16 | Quot.sound, propext | `C16.pathSplit_no_dot`, `C16.pathSplitB_exact`, `C16.pathSplitB_partial`, `C16.pathSplitB_double_dot`, `C16.hasEmptyParts_spec` |
| C16 | Classical.choice, Quot.sound, propext | `C16.pathSplit_of_join` |
| C17 | Classical.choice, Quot.sound, propext | `C17.unescape_query`, `C17.unescape_path`, `C17.unescape_plain` |
| C17 | Quot.sound, propext | `C17.unescapeName` |
| C18 | Classical.choice, Quot.sound, propext | `C18.escapeTo_exact`, `C18.queryTo_partial`, `C18.pathTo_partial`, `C18.queryTo_loses` |
| C18 | Quot.sound, propext | `C18.queryTo_wrong` |
| C19 | Classical.choice, Quot.sound, propext | `C19.query_safe`, `C19.query_injective`, `C19.query_no_delims` |
| C20 | Classical.choice, Quot.sound, propext | `C20.roundtrip` |
| C20 | Quot.sound, propext | `C20.roundtrip_any` |
| C21 | Quot.sound, propext | `C21.tagsMap_get`, `C21.map_eq_slice`, `C21.reused_map` |
| C21 | Classical.choice, Quot.sound, propext | `C21.error_iff` |
| C22 | Quot.sound, propext | `C22.match_iff`, `C22.match_exact`, `C22.regexp_term`, `C22.plain_term` |
| C22 | Classical.choice, Quot.sound, propext | `C22.glob_term_partial`, `C52.meaning_partial`, `C52.meaning_noBraces_partial` |
| C23 | Classical.choice, Quot.sound, propext | `C23.slice_eq_map_partial`, `C23.slice_eq_map_present_partial`, `C23.slice_after_absent`, `C23.slice_exact` |
| C23 | Quot.sound, propext | `C23.absent_key_wrong` |
| C24 | Classical.choice, Quot.sound, propext | `C24.order_independent`, `C24.query_order_independent`, `C24.text_order_independent` |
| C24 | Quot.sound, propext | `C24.match_order_independent` |
| C25 | Classical.choice, Quot.sound, propext | `C25.map_exact_partial`, `C25.map_stand_ins_partial`, `C25.slice_stand_ins_partial`, `C25.written_partial`, `C25.text_partial`, `C25.plain_partial`, `C25.queryHas_good`, `C25.queryHas_plain` |
| C25 | Quot.sound, propext | `C25.accepted_mem`, `C25.shared_term_wrong`, `C25.empty_query_wrong`, `C25.empty_key_wrong` |
| C26 | Classical.choice, Quot.sound, propext | `C26.slice_vs_map`, `C26.slice_eq_map_partial` |
| C26 | Quot.sound, propext | `C26.empty_query_wrong` |
| C27 | Classical.choice, Quot.sound, propext | `C27.find_exact_partial`, `C27.find_iff_partial` |
| C27 | propext | `C27.empty_key_wrong` |
| C28 | Quot.sound, propext | `C28.add_refused`, `C28.addTerms_refused`, `C28.addTerms_accepted_partial`, `C28.addTerms_wrong` |
| C28 | Classical.choice, Quot.sound, propext | `C28.add_error`, `C28.add_accepted`, `C28.index_stable`, `C28.books_partial`, `C28.accepted_distinct` |
| C29 | Classical.choice, Quot.sound, propext | `C29.add_total_partial`, `C29.add_text_partial`, `C29.parse_total`, `C29.hasKeys_iff`, `C29.first_add_panics_iff` |
| C29 | Quot.sound, propext | `C29.malformed_refused`, `C29.empty_key_panics` |
| C30 | Classical.choice, Quot.sound, propext | `C30.product_partial`, `C30.choices_exist`, `C30.texts_exist`, `C30.texts_unique`, `C30.text_exact`, `C30.nul_lost`, `C30.many_lists_panic` |
| C30 | propext | `C30.combine_length`, `C30.replacement_char_lost` |
| C31 | Classical.choice, Quot.sound, propext | `C31.within_limit_partial`, `C31.text_exact`, `C31.cut_exists`, `C31.wrapped_product_wrong` |
| C32 | Classical.choice, Quot.sound, propext | `C32.one_result_partial`, `C32.kept_text`, `C32.as_written_partial`, `C32.text_exact`, `C32.as_written_iff`, `C32.single_choice_unwrapped`, `C32.bad_class_unwrapped`, `C32.many_lists_panic` |
| C33 | Classical.choice, Quot.sound, propext | `C33.parse_panics_iff`, `C33.no_endless_loop`, `C33.returns_partial`, `C33.returns_iff`, `C33.panics_iff`, `C33.try_panics_iff`, `C33.empty_brackets_panic`, `C33.many_lists_panic` |
| C34 | Classical.choice, Quot.sound, propext | `C34.try_is_first`, `C34.unchanged_partial`, `C34.repeated_partial`, `C34.try_text`, `C34.try_keeps_position` |
| C35 | Quot.sound, propext | `C35.contains_built`, `C35.add_flag`, `C35.contains_add`, `C35.contains_clear`, `C35.index_none`, `C35.lastIndex_some`, `C35.lastIndex_none`, `C35.count_ignores_nul` |
| C35 | Classical.choice, Quot.sound, propext | `C35.make_spec`, `C35.makeMust_panic_iff`, `C35.index_some`, `C35.count_spec` |
| C36 | Classical.choice, Quot.sound, propext | `C36.merge_spec`, `C36.merge_perm` |
| C36 | Quot.sound, propext | `C36.merge_drops_nul` |
| C37 | Classical.choice, Quot.sound, propext | `C37.class_exact`, `C37.contains_iff_partial`, `C37.accepted_iff`, `C37.sizes_bound`, `C37.add_merge_contains`, `C37.adds_merge_contains` |
| C37 | propext | `C37.reads_unique` |
| C37 | Quot.sound, propext | `C37.containsUnicode_iff`, `C37.replacement_char_wrong`, `C37.dash_wrong` |
| C38 | Classical.choice, Quot.sound, propext | `C38.index_first_partial`, `C38.ranges_iff`, `C38.index_wide`, `C38.index_ascii`, `C38.indexByte_wide` |
| C38 | Quot.sound, propext | `C38.index_stops_at_FFFD`, `C38.indexByte_loops`, `C38.indexByte_eq_index_partial` |
| C39 | Classical.choice, Quot.sound, propext | `C39.startsWith_spec`, `C39.startsWith_char_partial`, `C39.endsWith_char_partial`, `C39.endsWith_isSome_partial`, `C39.endsWith_exact`, `C39.startsWith_exact` |
| C39 | Quot.sound, propext | `C39.endsWith_ascii_wrong`, `C39.replacement_char_wrong`, `C39.endsWith_spec` |
| C40 | Classical.choice, Quot.sound, propext | `C40.skipRunes_spec`, `C40.skipRunesLast_spec` |
| C40 | Quot.sound, propext | `C40.skipRunes_in_bounds` |
| C41 | Quot.sound, propext | `C41.all_lists`, `C41.init_forgets` |
| C41 | Classical.choice, Quot.sound, propext | `C41.all_min`, `C41.minStore_new` |
| C41 | none | `C41.allStore_new_min_wrong` |
| C42 | Classical.choice, Quot.sound, propext | `C42.listExpand_spec` |
| C42 | Quot.sound, propext | `C42.alternatives_join` |
| C42 | propext | `C42.listExpand_refuses` |
| C43 | Classical.choice, Quot.sound, propext | `C43.intersect_partial`, `C43.intersect_exact`, `C43.intersect_common_partial` |
| C43 | Quot.sound, propext | `C43.intersect_not_common` |
| C44 | Classical.choice, Quot.sound, propext | `C44.language_partial`, `C44.match_partial`, `C44.special_member_wrong` |
| C45 | Classical.choice, Quot.sound, propext | `C45.sample_fits_partial`, `C45.sample_matches_partial`, `C45.sample_between`, `C45.class_wrong`, `C45.prefix_wrong`, `C45.suffix_wrong`, `C45.mixed_class_wrong` |
| C45 | Quot.sound, propext | `C45.sample_plain`, `C45.ascii_class_panics` |
| C46 | Classical.choice, Quot.sound, propext | `C46.reparse_partial`, `C46.reparse_plain_partial`, `C46.condition_stable_iff` |
| C46 | Quot.sound, propext | `C46.tilde_wrong`, `C46.quote_wrong`, `C46.key_wrong`, `C46.star_wrong`, `C46.blank_wrong` |
| C47 | Classical.choice, Quot.sound, propext | `C47.near_expanded_partial`, `C47.all_expanded_partial`, `C47.text_exact`, `C47.cut_iff`, `C47.inner_dot_wrong` |
| C48 | Classical.choice, Quot.sound, propext | `C48.unescape_partial`, `C48.unescape_exact`, `C48.Decodes.unique`, `C48.bad_escape_wrong` |
| C49 | Classical.choice, Quot.sound, propext | `C49.map_keys`, `C49.matchFirst_exact`, `C49.matchFirst_sound`, `C49.findFirst_exact`, `C49.findFirst_sound` |
| C49 | Quot.sound, propext | `C49.matchN_exact`, `C49.findN_exact` |
| C50 | Classical.choice, Quot.sound, propext | `C50.longest_common_prefix_partial` |
| C50 | propext | `C50.no_strings`, `C50.undecodable_panics` |
| C50 | Quot.sound, propext | `C50.undecodable_wrong` |
| C51 | Classical.choice, Quot.sound, propext | `C51.accepted_iff`, `C51.accepted_iff_partial`, `C51.accepted_noBraces_partial` |
| C51 | Quot.sound, propext | `C51.pieces_unique`, `C51.reading_unique` |
| C52 | Classical.choice, Quot.sound, propext | `C52.accepted_iff`, `C52.condition_unique`, `C52.terms_stand` |
| C52 | Quot.sound, propext | `C52.conditions_unique` |
| C53 | Classical.choice, Quot.sound, propext | `C53.parseMust_spec`, `C53.accepted_iff`, `C53.parsed` |
| C53 | propext | `C53.parts_unique` |
| C54 | Classical.choice, Quot.sound, propext | `C54.order_accepted`, `C54.order_match`, `C54.order_later`, `C54.order_min` |
| C54 | Quot.sound, propext | `C54.refused_order`, `C54.addGlob_order` |
| C55 | Classical.choice, Quot.sound, propext | `C55.reported_added`, `C55.reported_index` |
| C56 | Quot.sound, propext | `C56.gglob_reported`, `C56.gglob_parts_reported`, `C56.accepted_add` |
| C56 | Classical.choice, Quot.sound, propext | `C56.tags_reported`, `C56.tags_slice_reported` |
| C57 | Classical.choice, Quot.sound, propext | `C57.order_accepted`, `C57.order_later`, `C57.order_byParts_partial`, `C57.order_match_partial` |
| C57 | Quot.sound, propext | `C57.order_wrong` |
| C58 | Classical.choice, Quot.sound, propext | `C58.append_partial`, `C58.find_right`, `C58.found_again_partial`, `C58.unnamed_partial`, `C58.named_partial` |
| C58 | propext | `C58.name_wrong` |
| C58 | Quot.sound, propext | `C58.tree_wrong`, `C58.twice_wrong` |
| C59 | Classical.choice, Quot.sound, propext | `C59.order_accepted_partial`, `C59.order_later`, `C59.order_map_partial`, `C59.order_slice_partial`, `C59.order_plain_partial`, `C59.order_written_partial` |
| C59 | Quot.sound, propext | `C59.order_wrong`, `C59.order_panic_wrong` |
| C60 | Classical.choice, Quot.sound, propext | `C60.query_exact`, `C60.path_exact`, `C60.queryTo_exact`, `C60.pathTo_exact` |
| C61 | Classical.choice, Quot.sound, propext | `C61.stringAll_exact`, `C61.stringAll_make_partial`, `C61.string_expand_partial` |
| C61 | Quot.sound, propext | `C61.stringAll_wrong`, `C61.string_wrong` |
| C62 | Classical.choice, Quot.sound, propext | `C62.series_partial` |
| C63 | Classical.choice, Quot.sound, propext | `C63.gglob_add`, `C63.gglob_later`, `C63.tags_add`, `C63.tags_slice_add` |
| C64 | Quot.sound, propext | `C64.tags_map_partial`, `C64.literal_star_wrong`, `C64.dots_wrong`, `C64.no_conditions_wrong`, `C64.no_tags_wrong` |
| C64 | Classical.choice, Quot.sound, propext | `C64.tags_slice_partial`, `C64.tags_many_partial`, `C64.tags_many_slice_partial`, `C64.gglob_parts_partial`, `C64.gglob_many_partial` |
| C65 | Classical.choice, Quot.sound, propext | `C65.branch_between`, `C65.branch_partial`, `C65.empty_never`, `C65.star_hides` |
| C66 | Quot.sound, propext | `C66.unescapeTo_appends`, `C66.unescapeTo_keeps`, `C66.unescapeTo_returns`, `C66.unescapeNameTo_appends`, `C66.item_appends`, `C66.item_string`, `C66.items_append`, `C66.class_appends`, `C66.ascii_appends`, `C66.unescape_many` |
| C66 | propext | `C66.query_appends` |
| C67 | Classical.choice, Quot.sound, propext | `C67.shortest`, `C67.shortest_text`, `C67.empty_fits`, `C67.longest`, `C67.longest_text`, `C67.unbounded_partial`, `C67.unbounded_text_partial`, `C67.star_unbounded`, `C67.unbounded_wrong` |
| C68 | Classical.choice, Quot.sound, propext | `C68.drains`, `C68.order_partial`, `C68.first_len` |
| C68 | propext | `C68.drains_unique`, `C68.min_wrong`, `C68.count_wrong` |
| C69 | Classical.choice, Quot.sound, propext | `C69.glob_error`, `C69.dotted_error`, `C69.query_error`, `C69.glob_message`, `C69.dotted_message`, `C69.query_message` |
| C70 | Quot.sound, propext | `C70.pairs_unique`, `C70.reading`, `C70.reading_noName`, `C70.map_error`, `C70.parts_partial`, `C70.error_cause`, `C70.missing_part`, `C70.unnamed_part` |
| C71 | Classical.choice, Quot.sound, propext | `C71.noBraces_partial`, `C71.braces_steps`, `C71.no_polynomial` |
| C72 | Classical.choice, Quot.sound, propext | `C72.count_bytes`, `C72.agree`, `C72.first_by_runes`, `C72.room_partial`, `C72.room_attained`, `C72.reserved_exceeded` |
| C72 | Quot.sound, propext | `C72.has_iff`, `C72.first_iff`, `C72.last_iff` |
| C73 | Classical.choice, Quot.sound, propext | `C73.once_partial`, `C73.once_bytes_partial`, `C73.once_words_partial`, `C73.stored_exponential`, `C73.no_polynomial` |
| C73 | Quot.sound, propext | `C73.stars_exact`, `C73.two_stars`, `C73.braces_twice`, `C73.bytes_twice` |
| C74 | Classical.choice, Quot.sound, propext | `C74.gglob_once`, `C74.gglob_parts_once`, `C74.tags_map_once`, `C74.tags_slice_once` |
| C75 | Classical.choice, Quot.sound, propext | `C75.keys`, `C75.known_iff`, `C75.recognised_partial` |
| C75 | Quot.sound, propext | `C75.other_glob_wrong`, `C75.same_glob_wrong` |
| C76 | Quot.sound, propext | `C76.lists`, `C76.agrees`, `C76.init_reuses`, `C76.header_kept`, `C76.header_kept_init_wrong` |
| C76 | Classical.choice, Quot.sound, propext | `C76.grow_reserves`, `C76.grow_again` |
| C77 | Classical.choice, Quot.sound, propext | `C77.recognised_partial`, `C77.keys` |
| C77 | Quot.sound, propext | `C77.empty_part_wrong`, `C77.other_glob_wrong`, `C77.same_glob_wrong` |
| C78 | Classical.choice, Quot.sound, propext | `C78.recognised_partial`, `C78.same_refused`, `C78.same_text`, `C78.keys` |
| C78 | Quot.sound, propext | `C78.other_query_wrong` |
