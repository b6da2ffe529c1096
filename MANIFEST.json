{
 "claims": [
  {
   "property": "C01",
   "status": "proved",
   "theorems": [
    "VGram.Props.C01_init_sorted_perm"
   ],
   "note": ""
  },
  {
   "property": "C02",
   "status": "proved",
   "theorems": [
    "VGram.Props.C02_parent",
    "VGram.Props.C02_parent_nodup"
   ],
   "note": ""
  },
  {
   "property": "C03",
   "status": "proved",
   "theorems": [
    "VGram.Props.C03_init_safe"
   ],
   "note": ""
  },
  {
   "property": "C04",
   "status": "proved",
   "theorems": [
    "VGram.Props.C04_search_excludes",
    "VGram.Props.C04_search_excludes_empty"
   ],
   "note": ""
  },
  {
   "property": "C05",
   "status": "proved",
   "theorems": [
    "VGram.Props.C05_search"
   ],
   "note": ""
  },
  {
   "property": "C06",
   "status": "proved",
   "theorems": [
    "VGram.Props.C06_search_safe"
   ],
   "note": ""
  },
  {
   "property": "C07",
   "status": "proved",
   "theorems": [
    "VGram.Props.C07_greedy_lossless",
    "VGram.Props.C07_greedy_longest"
   ],
   "note": ""
  },
  {
   "property": "C08",
   "status": "proved",
   "theorems": [
    "VGram.Props.C08_greedy_excludes",
    "VGram.Props.C08_greedy_excludes_built"
   ],
   "note": ""
  },
  {
   "property": "C09",
   "status": "proved",
   "theorems": [
    "VGram.Props.C09_weighted_lossless"
   ],
   "note": "For every arithmetic satisfying ScoreLaws; frequencies and total non-negative."
  },
  {
   "property": "C10",
   "status": "proved",
   "theorems": [
    "VGram.Props.C10_weighted_optimal",
    "VGram.Props.C10_max_probability"
   ],
   "note": "For every arithmetic satisfying ScoreLaws and OrderLaws; over the reals as a product of probabilities."
  },
  {
   "property": "C11",
   "status": "proved",
   "theorems": [
    "VGram.Props.C11_weighted_frame",
    "VGram.Props.C11_greedy_frame",
    "VGram.Props.C11_known_unchanged"
   ],
   "note": ""
  },
  {
   "property": "C12",
   "status": "partial",
   "theorems": [
    "VGram.Props.C12_duplicates_false",
    "VGram.Props.C12_no_duplicates_partial"
   ],
   "note": "False as stated: witness given. Holds when new symbols arrive above all known leading symbols."
  },
  {
   "property": "C13",
   "status": "proved",
   "theorems": [
    "VGram.Props.C13_freq_accounting",
    "VGram.Props.C13_one_call"
   ],
   "note": ""
  },
  {
   "property": "C14",
   "status": "proved",
   "theorems": [
    "VGram.Props.C14_pair_freqs"
   ],
   "note": ""
  },
  {
   "property": "C15",
   "status": "proved",
   "theorems": [
    "VGram.Props.C15_unpack_pack",
    "VGram.Props.C15_pack_injective"
   ],
   "note": ""
  },
  {
   "property": "C16",
   "status": "proved",
   "theorems": [
    "VGram.Props.C16_expand",
    "VGram.Props.C16_unsorted_false"
   ],
   "note": "The witness shows that sortedness is needed."
  },
  {
   "property": "C17",
   "status": "proved",
   "theorems": [
    "VGram.Props.C17_reduce",
    "VGram.Props.C17_roots_are_singles",
    "VGram.Props.C17_unclosed_false",
    "VGram.Props.C17_unclosed_oob"
   ],
   "note": "The witnesses show that the admissibility condition is needed."
  },
  {
   "property": "C18",
   "status": "proved",
   "theorems": [
    "VGram.Props.C18_min_prob_nonincreasing"
   ],
   "note": "Every constructed builder, every calls that do not fault; sort and hash iteration are arbitrary permutations."
  },
  {
   "property": "C19",
   "status": "proved",
   "theorems": [
    "VGram.Props.C19_code_length",
    "VGram.Props.C19_as_computed"
   ],
   "note": "Exact real arithmetic; the formula also in any arithmetic."
  },
  {
   "property": "C20",
   "status": "proved",
   "theorems": [
    "VGram.Props.C20_training_safe",
    "VGram.Props.C20_small_size_false"
   ],
   "note": "The witness shows that the size condition is needed."
  },
  {
   "property": "C21",
   "status": "proved",
   "theorems": [
    "VGram.Props.C21_training_covers",
    "VGram.Props.C21_exactly_seen"
   ],
   "note": ""
  },
  {
   "property": "C22",
   "status": "partial",
   "theorems": [
    "VGram.Props.C22_size_false",
    "VGram.Props.C22_published_size_partial"
   ],
   "note": "False as stated: witness given. Bound size + 1 + symbols new since the previous rebuild proved."
  },
  {
   "property": "C23",
   "status": "proved",
   "theorems": [
    "VGram.Props.C23_published_ids_stable"
   ],
   "note": ""
  },
  {
   "property": "C24",
   "status": "proved",
   "theorems": [
    "VGram.Props.C24_alternation"
   ],
   "note": ""
  },
  {
   "property": "C25",
   "status": "partial",
   "theorems": [
    "VGram.Props.C25_loaded_words_lost_false",
    "VGram.Props.C25_first_update_keeps_partial"
   ],
   "note": "False of the code: all multi-symbol words are always lost at the first publication. The first rebuilding after loading keeps them."
  },
  {
   "property": "C26",
   "status": "partial",
   "theorems": [
    "VGram.Props.C26_marker_false",
    "VGram.Props.C26_marker_doubles_false",
    "VGram.Props.C26_positive_waits_partial"
   ],
   "note": "False of the code: with the marker every accept rebuilds. With a positive probability the schedule is exact."
  },
  {
   "property": "C27",
   "status": "proved",
   "theorems": [
    "VGram.Props.C27_decode_encode"
   ],
   "note": ""
  },
  {
   "property": "C28",
   "status": "proved",
   "theorems": [
    "VGram.Props.C28_codes_first_occurrence",
    "VGram.Props.C28_codes_dense",
    "VGram.Props.C28_codes_injective",
    "VGram.Props.C28_codes_permanent"
   ],
   "note": ""
  },
  {
   "property": "C29",
   "status": "proved",
   "theorems": [
    "VGram.Props.C29_immutable",
    "VGram.Props.C29_immutable_known"
   ],
   "note": ""
  },
  {
   "property": "C30",
   "status": "proved",
   "theorems": [
    "VGram.Props.C30_decode_throws",
    "VGram.Props.C30_decode_returns"
   ],
   "note": ""
  },
  {
   "property": "C31",
   "status": "proved",
   "theorems": [
    "VGram.Props.C31_rebuilt"
   ],
   "note": "For every hash order of code_map()."
  },
  {
   "property": "C32",
   "status": "proved",
   "theorems": [
    "VGram.Props.C32_normalize",
    "VGram.Props.C32_only_lower_digits",
    "VGram.Props.C32_idempotent"
   ],
   "note": ""
  },
  {
   "property": "C33",
   "status": "partial",
   "theorems": [
    "VGram.Props.C33_lhs_first_false",
    "VGram.Props.C33_decode_transform_tokens_partial",
    "VGram.Props.C33_decode_transform_partial"
   ],
   "note": "Depends on an evaluation order that C++14 leaves open: holds when the right-hand side is evaluated first, witness against it for the other order."
  },
  {
   "property": "C34",
   "status": "partial",
   "theorems": [
    "VGram.Props.C34_lhs_first_false",
    "VGram.Props.C34_codes_first_occurrence_partial",
    "VGram.Props.C34_codes_dense_partial",
    "VGram.Props.C34_codes_injective",
    "VGram.Props.C34_codes_permanent"
   ],
   "note": "As C33: with the other evaluation order codes start at 1. Injective and permanent for both orders."
  },
  {
   "property": "C35",
   "status": "proved",
   "theorems": [
    "VGram.Props.C35_words_join",
    "VGram.Props.C35_words_shape"
   ],
   "note": ""
  },
  {
   "property": "C36",
   "status": "partial",
   "theorems": [
    "VGram.Props.C36_collision_false",
    "VGram.Props.C36_restored_partial"
   ],
   "note": "False as stated: end-to-end witness given. Holds when the restored codes have no gaps."
  },
  {
   "property": "C37",
   "status": "proved",
   "theorems": [
    "VGram.Props.C37_parse_lossless"
   ],
   "note": ""
  },
  {
   "property": "C38",
   "status": "proved",
   "theorems": [
    "VGram.Props.C38_parse_total"
   ],
   "note": ""
  },
  {
   "property": "C39",
   "status": "partial",
   "theorems": [
    "VGram.Props.C39_before_update_false"
   ],
   "note": "False: the negation is proved for every history without update_dict (null dereference, uninitialised read)."
  },
  {
   "property": "C40",
   "status": "partial",
   "theorems": [
    "VGram.Props.C40_loaded_false",
    "VGram.Props.C40_update_appends",
    "VGram.Props.C40_first_update_partial",
    "VGram.Props.C40_update_entries",
    "VGram.Props.C40_first_entries_partial"
   ],
   "note": "False: every effective update_dict appends. Holds for the first update_dict of a fresh model."
  },
  {
   "property": "C41",
   "status": "partial",
   "theorems": [
    "VGram.Props.C41_save_false",
    "VGram.Props.C41_save_exact_partial",
    "VGram.Props.C41_save_after_update_partial"
   ],
   "note": "False: witness with an out-of-bounds read. Exact condition proved; holds right after an effective update_dict."
  },
  {
   "property": "C42",
   "status": "proved",
   "theorems": [
    "VGram.Props.C42_update_idempotent"
   ],
   "note": ""
  },
  {
   "property": "C43",
   "status": "partial",
   "theorems": [
    "VGram.Props.C43_parse_false",
    "VGram.Props.C43_parse_pure_partial"
   ],
   "note": "False: parse grows the published dictionary by accepted symbols it lacks. Nothing changes while parsed sequences only contain seen symbols that alphabet() shows."
  },
  {
   "property": "C44",
   "status": "proved",
   "theorems": [
    "VGram.Props.C44_accept_calls",
    "VGram.Props.C44_uninterrupted",
    "VGram.Props.C44_interrupted"
   ],
   "note": "For every state, training set, rand and termination schedule."
  },
  {
   "property": "C45",
   "status": "proved",
   "theorems": [
    "VGram.Props.C45_second_fit",
    "VGram.Props.C45_interrupted_unfitted",
    "VGram.Props.C45_refit",
    "VGram.Props.C45_unfitted_file"
   ],
   "note": ""
  },
  {
   "property": "C46",
   "status": "proved",
   "theorems": [
    "VGram.Props.C46_recomputed_freqs",
    "VGram.Props.C46_fit_iff_covered",
    "VGram.Props.C46_missing_symbol_oob",
    "VGram.Props.C46_no_rounds_false"
   ],
   "note": "Under its condition (training symbols are words). Outside it: out-of-bounds write, and null dereference with iter_num = 0."
  },
  {
   "property": "C47",
   "status": "proved",
   "theorems": [
    "VGram.Props.C47_transform",
    "VGram.Props.C47_transform_interrupted",
    "VGram.Props.C47_transform_to_string",
    "VGram.Props.C47_transform_to_string_interrupted",
    "VGram.Props.C47_printed_injective"
   ],
   "note": ""
  },
  {
   "property": "C48",
   "status": "partial",
   "theorems": [
    "VGram.Props.C48_interrupted_recompute_false",
    "VGram.Props.C48_stale_total_false",
    "VGram.Props.C48_interrupted_fit_false",
    "VGram.Props.C48_interrupted_recount_false",
    "VGram.Props.C48_uninterrupted_partial"
   ],
   "note": "False: the old total stays although freqs_computed_ is set; the counts are those of the sequences read before the request. Holds without termination."
  },
  {
   "property": "C49",
   "status": "partial",
   "theorems": [
    "VGram.Props.C49_transform_tokens_partial",
    "VGram.Props.C49_transform_lossless_partial",
    "VGram.Props.C49_lhs_first_false"
   ],
   "note": "Proved for right-hand-side-first evaluation of base_tokenizer.cc:36; false for the other order C++14 allows."
  },
  {
   "property": "C50",
   "status": "partial",
   "theorems": [
    "VGram.Props.C50_constructor",
    "VGram.Props.C50_parse_lossless_partial",
    "VGram.Props.C50_char_tokens",
    "VGram.Props.C50_lhs_first_false"
   ],
   "note": "Constructor proved. Parse proved for right-hand-side-first evaluation; false for the other order."
  },
  {
   "property": "C51",
   "status": "partial",
   "theorems": [
    "VGram.Props.C51_load_save_partial",
    "VGram.Props.C51_fitted",
    "VGram.Props.C51_surplus_false",
    "VGram.Props.C51_not_finite_false"
   ],
   "note": "False for models published twice: witness with a different parse after the reload. Proved with one frequency per word and a finite probability."
  },
  {
   "property": "C52",
   "status": "partial",
   "theorems": [
    "VGram.Props.C52_load_save_partial",
    "VGram.Props.C52_flags"
   ],
   "note": "Character-level models with a finite probability, right-hand-side-first evaluation. Word-level models: see C54."
  },
  {
   "property": "C53",
   "status": "partial",
   "theorems": [
    "VGram.Props.C53_int_reload_false",
    "VGram.Props.C53_reload_as_stream_partial"
   ],
   "note": "False: the load always fails with a type error, proved for every model. The file loads as a stream model."
  },
  {
   "property": "C54",
   "status": "partial",
   "theorems": [
    "VGram.Props.C54_reload_splits_false",
    "VGram.Props.C54_word_reload_false",
    "VGram.Props.C54_alphabet_partial"
   ],
   "note": "False: every loaded model tokenizes by characters. The alphabet and the integer level survive."
  },
  {
   "property": "C55",
   "status": "partial",
   "theorems": [
    "VGram.Props.C55_int_as_text_false",
    "VGram.Props.C55_int_as_fitted_text_partial"
   ],
   "note": "False: undefined behaviour for every published int stream model. Loading as a fitted text model throws."
  },
  {
   "property": "C56",
   "status": "proved",
   "theorems": [
    "VGram.Props.C56_crash_while_saving"
   ],
   "note": "For number conversions satisfying TextLaws; integers fit 64 bits."
  },
  {
   "property": "C57",
   "status": "partial",
   "theorems": [
    "VGram.Props.C57_empty_false",
    "VGram.Props.C57_to_string_partial",
    "VGram.Props.C57_parens_injective"
   ],
   "note": "False for the empty sequence; proved for every non-empty one."
  },
  {
   "property": "C58",
   "status": "partial",
   "theorems": [
    "VGram.Props.C58_new_symbol_false",
    "VGram.Props.C58_fresh_false",
    "VGram.Props.C58_known_partial",
    "VGram.Props.C58_zero_prefix_false"
   ],
   "note": "False: every unseen symbol dereferences end(). Proved for symbols in the table."
  },
  {
   "property": "C59",
   "status": "partial",
   "theorems": [
    "VGram.Props.C59_text_stream_reload_partial",
    "VGram.Props.C59_unknown_first_false",
    "VGram.Props.C59_lost_character_false"
   ],
   "note": "False as stated (witnesses). Proved for histories that accept no new character after parsing an unknown one and whose dictionary has all accepted characters; right-hand-side-first evaluation."
  },
  {
   "property": "C60",
   "status": "proved",
   "theorems": [
    "VGram.Props.C60_parser_terminates"
   ],
   "note": ""
  },
  {
   "property": "C61",
   "status": "proved",
   "theorems": [
    "VGram.Props.C61_int_save",
    "VGram.Props.C61_text_stream_save",
    "VGram.Props.C61_text_save"
   ],
   "note": "For number conversions satisfying TextLaws; integers fit 64 bits."
  },
  {
   "property": "C62",
   "status": "proved",
   "theorems": [
    "VGram.Props.C62_file_round_trip",
    "VGram.Props.C62_number_text"
   ],
   "note": "For number conversions satisfying TextLaws; integers fit 64 bits."
  },
  {
   "property": "C63",
   "status": "partial",
   "theorems": [
    "VGram.Props.C63_failed_save_false",
    "VGram.Props.C63_latin_witness"
   ],
   "note": "False: whenever saving throws, the file left behind cannot be loaded."
  },
  {
   "property": "C64",
   "status": "proved",
   "theorems": [
    "VGram.Props.C64_text_stream_saves",
    "VGram.Props.C64_text_saves"
   ],
   "note": ""
  },
  {
   "property": "C65",
   "status": "partial",
   "theorems": [
    "VGram.Props.C65_training_parse",
    "VGram.Props.C65_training_parse_real",
    "VGram.Props.C65_own_prior_partial",
    "VGram.Props.C65_own_prior_false"
   ],
   "note": "Optimal for the weights the code holds. False that these start at the word's own frequency: proved when the words are handed over sorted, witness otherwise."
  },
  {
   "property": "C66",
   "status": "proved",
   "theorems": [
    "VGram.Props.C66_expand_freqs",
    "VGram.Props.C66_reduce_freqs"
   ],
   "note": ""
  },
  {
   "property": "C67",
   "status": "partial",
   "theorems": [
    "VGram.Props.C67_reduce_gain_partial",
    "VGram.Props.C67_kept_gain_false",
    "VGram.Props.C67_kept_score"
   ],
   "note": "Dropping is proved. Keeping is proved for words whose split repeats no id; witness of a harmful kept word otherwise."
  },
  {
   "property": "C68",
   "status": "proved",
   "theorems": [
    "VGram.Props.C68_expand_selection"
   ],
   "note": "Exact real arithmetic; the sampled variates are an arbitrary positive function of the table."
  },
  {
   "property": "C69",
   "status": "proved",
   "theorems": [
    "VGram.Props.C69_expand_min",
    "VGram.Props.C69_reduce_min"
   ],
   "note": ""
  },
  {
   "property": "C72",
   "status": "proved",
   "theorems": [
    "VGram.Props.C72_size_respected"
   ],
   "note": ""
  },
  {
   "property": "C73",
   "status": "proved",
   "theorems": [
    "VGram.Props.C73_best_score",
    "VGram.Props.C73_most_probable"
   ],
   "note": "For every arithmetic satisfying ScoreLaws and OrderLaws; over the reals as a product of probabilities."
  },
  {
   "property": "C70",
   "status": "proved",
   "theorems": [
    "VGram.Props.C70_rebuild_places",
    "VGram.Props.C70_places_exact"
   ],
   "note": "Exact arithmetic in any ordered field."
  },
  {
   "property": "C71",
   "status": "proved",
   "theorems": [
    "VGram.Props.C71_patience"
   ],
   "note": "Exact real arithmetic; the minimal probability at the start is positive."
  },
  {
   "property": "C74",
   "status": "proved",
   "theorems": [
    "VGram.Props.C74_counters"
   ],
   "note": ""
  },
  {
   "property": "C75",
   "status": "proved",
   "theorems": [
    "VGram.Props.C75_bounded"
   ],
   "note": "Exact real arithmetic."
  },
  {
   "property": "C76",
   "status": "partial",
   "theorems": [
    "VGram.Props.C76_growth_partial",
    "VGram.Props.C76_repeat_false"
   ],
   "note": "False: one symbol parsed k times adds k words, for every k. Proved: a parse adds at most as many words as it has symbols."
  },
  {
   "property": "C77",
   "status": "proved",
   "theorems": [
    "VGram.Props.C77_counts"
   ],
   "note": ""
  },
  {
   "property": "C78",
   "status": "proved",
   "theorems": [
    "VGram.Props.C78_update_shows"
   ],
   "note": ""
  },
  {
   "property": "C79",
   "status": "proved",
   "theorems": [
    "VGram.Props.C79_nearly_most_probable",
    "VGram.Props.C79_stream_nearly_most_probable",
    "VGram.Props.C79_doubles",
    "VGram.Props.C38_doubles",
    "VGram.Props.C79_ieee",
    "VGram.Props.C79_ieee_stream",
    "VGram.Props.C79_logarithms_exist"
   ],
   "note": "C79_ieee: binary64 doubles with overflow and underflow, std::log with an error of at most one and a half units in the last place, totals up to 2^53, texts up to 60 million symbols."
  },
  {
   "property": "C80",
   "status": "proved",
   "theorems": [
    "VGram.Props.C80_finite",
    "VGram.Props.C80_stream_file",
    "VGram.Props.C80_fitted_file",
    "VGram.Props.C80_text_file"
   ],
   "note": "Symbols, size and number of symbols read lie in the range of int, so every integer of the file does; stream models with a sorted dictionary and one frequency per word, otherwise see C51."
  },
  {
   "property": "C81",
   "status": "partial",
   "theorems": [
    "VGram.Props.C81_load_described",
    "VGram.Props.C81_load_only_described",
    "VGram.Props.C81_any_file_partial",
    "VGram.Props.C81_missing_key",
    "VGram.Props.C81_all_loaders_partial",
    "VGram.Props.C81_missing_key_false"
   ],
   "note": "False: an entry of the alphabet without frequency or word is undefined behaviour (operator[] on a const json). The undefined case is characterised exactly; everything else is proved for all byte strings. Numbers out of the range of int: see C101."
  },
  {
   "property": "C82",
   "status": "partial",
   "theorems": [
    "VGram.Props.C82_parse_safe_partial",
    "VGram.Props.C82_alphabet",
    "VGram.Props.C82_empty_word_false",
    "VGram.Props.C82_negative_false",
    "VGram.Props.C82_unsorted_false"
   ],
   "note": "False for files with an empty word (read out of bounds) or a negative frequency (wrong ids). Proved for all other files; the words may be unsorted, repeated or meaningless."
  },
  {
   "property": "C83",
   "status": "proved",
   "theorems": [
    "VGram.Props.C83_option_ignored",
    "VGram.Props.C83_inner_split_false"
   ],
   "note": "The witness shows that what the option promises is false."
  },
  {
   "property": "C84",
   "status": "partial",
   "theorems": [
    "VGram.Props.C84_stream_file",
    "VGram.Props.C84_text_stream_file",
    "VGram.Props.C84_text_file",
    "VGram.Props.C84_int_file_partial",
    "VGram.Props.C84_int_flags_false"
   ],
   "note": "False for IntVGram, whose files never have the documented flags; proved for the other three classes, and for IntVGram without the flags."
  },
  {
   "property": "C85",
   "status": "proved",
   "theorems": [
    "VGram.Props.C85_digits",
    "VGram.Props.C85_nearest"
   ],
   "note": ""
  },
  {
   "property": "C86",
   "status": "proved",
   "theorems": [
    "VGram.Props.C86_text_laws",
    "VGram.Props.C86_number_round_trip",
    "VGram.Props.C86_strtod_exists",
    "VGram.Props.C86_file_round_trip"
   ],
   "note": "strtod of the C library is a parameter that rounds correctly."
  },
  {
   "property": "C87",
   "status": "partial",
   "theorems": [
    "VGram.Props.C87_shortest_partial",
    "VGram.Props.C87_closest_partial",
    "VGram.Props.C87_shortest_false",
    "VGram.Props.C87_closest_false"
   ],
   "note": "False as stated (witnesses); proved up to the 2^60-th part of the double at the ends of the interval and in the distance."
  },
  {
   "property": "C88",
   "status": "proved",
   "theorems": [
    "VGram.Props.C88_double_fits",
    "VGram.Props.C88_integer_fits"
   ],
   "note": ""
  },
  {
   "property": "C89",
   "status": "partial",
   "theorems": [
    "VGram.Props.C89_expand_partial",
    "VGram.Props.C89_expand_real_partial",
    "VGram.Props.C89_reduce_partial",
    "VGram.Props.C89_next_dictionary",
    "VGram.Props.C89_hash_order_false",
    "VGram.Props.C89_equal_scores_false"
   ],
   "note": "False as stated (witnesses for hash order and for equal scores); a single rebuild is determined when no candidates tie."
  },
  {
   "property": "C90",
   "status": "proved",
   "theorems": [
    "VGram.Props.C90_rounding",
    "VGram.Props.C90_laws",
    "VGram.Props.C90_libraries_exist",
    "VGram.Props.C90_pair_score",
    "VGram.Props.C90_word_score",
    "VGram.Props.C90_parse_total",
    "VGram.Props.C90_best_score",
    "VGram.Props.C90_fitted_file",
    "VGram.Props.C90_text_file"
   ],
   "note": "Assumes of the libraries only LibraryLaws and a correctly rounding strtod."
  },
  {
   "property": "C91",
   "status": "proved",
   "theorems": [
    "VGram.Props.C91_prob_found",
    "VGram.Props.C91_patience_bounded"
   ],
   "note": ""
  },
  {
   "property": "C92",
   "status": "proved",
   "theorems": [
    "VGram.Props.C92_reader",
    "VGram.Props.C92_read_file",
    "VGram.Props.C92_rejects",
    "VGram.Props.C92_accepts",
    "VGram.Props.C92_one_value",
    "VGram.Props.C92_only_json_false"
   ],
   "note": "C92_only_json_false: text after the value is accepted and ignored."
  },
  {
   "property": "C93",
   "status": "proved",
   "theorems": [
    "VGram.Props.C93_writer",
    "VGram.Props.C93_writer_doubles",
    "VGram.Props.C93_files_differ"
   ],
   "note": ""
  },
  {
   "property": "C94",
   "status": "proved",
   "theorems": [
    "VGram.Props.C94_schedule",
    "VGram.Props.C94_doubles",
    "VGram.Props.C94_places"
   ],
   "note": ""
  },
  {
   "property": "C95",
   "status": "partial",
   "theorems": [
    "VGram.Props.C95_tokenize_again",
    "VGram.Props.C95_int_pipeline_partial",
    "VGram.Props.C95_decoded_ids_false"
   ],
   "note": "False as stated (witness): the last line of the README example decodes word numbers as token codes. Same dictionary and same texts when the words are looked up in the alphabet first."
  },
  {
   "property": "C96",
   "status": "partial",
   "theorems": [
    "VGram.Props.C96_split_partial",
    "VGram.Props.C96_unknown_false"
   ],
   "note": "False as stated (witness): inputs without known symbols give -1. Proved for all others."
  },
  {
   "property": "C97",
   "status": "partial",
   "theorems": [
    "VGram.Props.C97_not_fitted_again_partial",
    "VGram.Props.C97_loaded_no_training_false",
    "VGram.Props.C97_unfitted_file_false",
    "VGram.Props.C97_unfitted_file_oob_false"
   ],
   "note": "The first half is proved; the second is false for every file (no rounds are made), with witnesses."
  },
  {
   "property": "C98",
   "status": "partial",
   "theorems": [
    "VGram.Props.C98_round_partial",
    "VGram.Props.C98_unread_false",
    "VGram.Props.C98_unread_oob_false"
   ],
   "note": "False as stated; a round reads everything exactly if it draws nothing twice."
  },
  {
   "property": "C99",
   "status": "partial",
   "theorems": [
    "VGram.Props.C99_code_map_partial",
    "VGram.Props.C99_sentinel_false"
   ],
   "note": "Proved for standard libraries whose end() points to nothing (libstdc++, libc++); false for every map when end() is a node of the copy."
  },
  {
   "property": "C100",
   "status": "proved",
   "theorems": [
    "VGram.Props.C100_fixed_draws",
    "VGram.Props.C100_slant",
    "VGram.Props.C100_library",
    "VGram.Props.C100_engine",
    "VGram.Props.C100_libraries_exist"
   ],
   "note": "The samplers are those of libstdc++ 13; std::log and std::sqrt are parameters with loose bounds."
  },
  {
   "property": "C101",
   "status": "partial",
   "theorems": [
    "VGram.Props.C101_reduced_partial",
    "VGram.Props.C101_any_file",
    "VGram.Props.C101_fitting",
    "VGram.Props.C101_saved",
    "VGram.Props.C101_reject_false"
   ],
   "note": "False: integers out of the range of int are reduced modulo 2^32 without an exception, doubles out of it are undefined behaviour. What happens instead is proved for all files; static_cast<int> of a 64-bit integer is taken to keep the lowest 32 bits."
  },
  {
   "property": "C102",
   "status": "proved",
   "theorems": [
    "VGram.Props.C102_set",
    "VGram.Props.C102_expand",
    "VGram.Props.C102_hash",
    "VGram.Props.C102_collision"
   ],
   "note": "The text of unordered_set is that of GNU libstdc++ 13, not part of the repository; its rehash policy is a parameter."
  },
  {
   "property": "C103",
   "status": "proved",
   "theorems": [
    "VGram.Props.C103_sign",
    "VGram.Props.C103_score",
    "VGram.Props.C103_learned",
    "VGram.Props.C103_logarithms_exist"
   ],
   "note": "The samplers are those of libstdc++ 13; std::log and std::sqrt are parameters with loose bounds and the sign of a logarithm; between rare and frequent pairs nothing is claimed."
  },
  {
   "property": "C104",
   "status": "proved",
   "theorems": [
    "VGram.Props.C104_sort",
    "VGram.Props.C104_heap",
    "VGram.Props.C104_order",
    "VGram.Props.C104_items",
    "VGram.Props.C104_library",
    "VGram.Props.C104_learned",
    "VGram.Props.C104_not_an_order"
   ],
   "note": "The text of std::sort is that of GNU libstdc++ 13, not part of the repository."
  }
 ]
}
