#!/usr/bin/env python3
"""Regenerates /verif/MANIFEST.json from the claim table below and checks the theorem names."""
import json, os, re, sys

ROOT = os.path.dirname(os.path.dirname(os.path.abspath(__file__)))
P = "VGram.Props."

# id -> (status, [theorems], note)
CLAIMS = {
    "C01": ("proved", ["C01_init_sorted_perm"], ""),
    "C02": ("proved", ["C02_parent", "C02_parent_nodup"], ""),
    "C03": ("proved", ["C03_init_safe"], ""),
    "C04": ("proved", ["C04_search_excludes", "C04_search_excludes_empty"], ""),
    "C05": ("proved", ["C05_search"], ""),
    "C06": ("proved", ["C06_search_safe"], ""),
    "C07": ("proved", ["C07_greedy_lossless", "C07_greedy_longest"], ""),
    "C08": ("proved", ["C08_greedy_excludes", "C08_greedy_excludes_built"], ""),
    "C09": ("proved", ["C09_weighted_lossless"], "For every arithmetic satisfying ScoreLaws; frequencies and total non-negative."),
    "C10": ("proved", ["C10_weighted_optimal", "C10_max_probability"], "For every arithmetic satisfying ScoreLaws and OrderLaws; over the reals as a product of probabilities."),
    "C11": ("proved", ["C11_weighted_frame", "C11_greedy_frame", "C11_known_unchanged"], ""),
    "C12": ("partial", ["C12_duplicates_false", "C12_no_duplicates_partial"], "False as stated: witness given. Holds when new symbols arrive above all known leading symbols."),
    "C13": ("proved", ["C13_freq_accounting", "C13_one_call"], ""),
    "C14": ("proved", ["C14_pair_freqs"], ""),
    "C15": ("proved", ["C15_unpack_pack", "C15_pack_injective"], ""),
    "C16": ("proved", ["C16_expand", "C16_unsorted_false"], "The witness shows that sortedness is needed."),
    "C17": ("proved", ["C17_reduce", "C17_roots_are_singles", "C17_unclosed_false", "C17_unclosed_oob"], "The witnesses show that the admissibility condition is needed."),
    "C18": ("proved", ["C18_min_prob_nonincreasing"], "Every constructed builder, every calls that do not fault; sort and hash iteration are arbitrary permutations."),
    "C19": ("proved", ["C19_code_length", "C19_as_computed"], "Exact real arithmetic; the formula also in any arithmetic."),
    "C20": ("proved", ["C20_training_safe", "C20_small_size_false"], "The witness shows that the size condition is needed."),
    "C21": ("proved", ["C21_training_covers", "C21_exactly_seen"], ""),
    "C22": ("partial", ["C22_size_false", "C22_published_size_partial"], "False as stated: witness given. Bound size + 1 + symbols new since the previous rebuild proved."),
    "C23": ("proved", ["C23_published_ids_stable"], ""),
    "C24": ("proved", ["C24_alternation"], ""),
    "C25": ("partial", ["C25_loaded_words_lost_false", "C25_first_update_keeps_partial"], "False of the code: all multi-symbol words are always lost at the first publication. The first rebuilding after loading keeps them."),
    "C26": ("partial", ["C26_marker_false", "C26_marker_doubles_false", "C26_positive_waits_partial"], "False of the code: with the marker every accept rebuilds. With a positive probability the schedule is exact."),
    "C27": ("proved", ["C27_decode_encode"], ""),
    "C28": ("proved", ["C28_codes_first_occurrence", "C28_codes_dense", "C28_codes_injective", "C28_codes_permanent"], ""),
    "C29": ("proved", ["C29_immutable", "C29_immutable_known"], ""),
    "C30": ("proved", ["C30_decode_throws", "C30_decode_returns"], ""),
    "C31": ("proved", ["C31_rebuilt"], "For every hash order of code_map()."),
    "C32": ("proved", ["C32_normalize", "C32_only_lower_digits", "C32_idempotent"], ""),
    "C33": ("partial", ["C33_lhs_first_false", "C33_decode_transform_tokens_partial", "C33_decode_transform_partial"], "Depends on an evaluation order that C++14 leaves open: holds when the right-hand side is evaluated first, witness against it for the other order."),
    "C34": ("partial", ["C34_lhs_first_false", "C34_codes_first_occurrence_partial", "C34_codes_dense_partial", "C34_codes_injective", "C34_codes_permanent"], "As C33: with the other evaluation order codes start at 1. Injective and permanent for both orders."),
    "C35": ("proved", ["C35_words_join", "C35_words_shape"], ""),
    "C37": ("proved", ["C37_parse_lossless"], ""),
    "C38": ("proved", ["C38_parse_total"], ""),
    "C39": ("partial", ["C39_before_update_false"], "False: the negation is proved for every history without update_dict (null dereference, uninitialised read)."),
    "C40": ("partial", ["C40_loaded_false", "C40_update_appends", "C40_first_update_partial", "C40_update_entries", "C40_first_entries_partial"], "False: every effective update_dict appends. Holds for the first update_dict of a fresh model."),
    "C41": ("partial", ["C41_save_false", "C41_save_exact_partial", "C41_save_after_update_partial"], "False: witness with an out-of-bounds read. Exact condition proved; holds right after an effective update_dict."),
    "C42": ("proved", ["C42_update_idempotent"], ""),
    "C43": ("partial", ["C43_parse_false", "C43_parse_pure_partial"], "False: parse grows the published dictionary by accepted symbols it lacks. Nothing changes while parsed sequences only contain seen symbols that alphabet() shows."),
    "C44": ("proved", ["C44_accept_calls", "C44_uninterrupted", "C44_interrupted"], "For every state, training set, rand and termination schedule."),
    "C45": ("proved", ["C45_second_fit", "C45_interrupted_unfitted", "C45_refit", "C45_unfitted_file"], ""),
    "C46": ("proved", ["C46_recomputed_freqs", "C46_fit_iff_covered", "C46_missing_symbol_oob", "C46_no_rounds_false"], "Under its condition (training symbols are words). Outside it: out-of-bounds write, and null dereference with iter_num = 0."),
    "C47": ("proved", ["C47_transform", "C47_transform_interrupted", "C47_transform_to_string", "C47_transform_to_string_interrupted", "C47_printed_injective"], ""),
    "C48": ("partial", ["C48_interrupted_recompute_false", "C48_stale_total_false", "C48_interrupted_fit_false", "C48_interrupted_recount_false", "C48_uninterrupted_partial"], "False: the old total stays although freqs_computed_ is set; the counts are those of the sequences read before the request. Holds without termination."),
    "C49": ("partial", ["C49_transform_tokens_partial", "C49_transform_lossless_partial", "C49_lhs_first_false"], "Proved for right-hand-side-first evaluation of base_tokenizer.cc:36; false for the other order C++14 allows."),
    "C50": ("partial", ["C50_constructor", "C50_parse_lossless_partial", "C50_char_tokens", "C50_lhs_first_false"], "Constructor proved. Parse proved for right-hand-side-first evaluation; false for the other order."),
    "C51": ("partial", ["C51_load_save_partial", "C51_fitted", "C51_surplus_false", "C51_not_finite_false"], "False for models published twice: witness with a different parse after the reload. Proved with one frequency per word and a finite probability."),
    "C52": ("partial", ["C52_load_save_partial", "C52_flags"], "Character-level models with a finite probability, right-hand-side-first evaluation. Word-level models: see C54."),
    "C53": ("partial", ["C53_int_reload_false", "C53_reload_as_stream_partial"], "False: the load always fails with a type error, proved for every model. The file loads as a stream model."),
    "C54": ("partial", ["C54_reload_splits_false", "C54_word_reload_false", "C54_alphabet_partial"], "False: every loaded model tokenizes by characters. The alphabet and the integer level survive."),
    "C55": ("partial", ["C55_int_as_text_false", "C55_int_as_fitted_text_partial"], "False: undefined behaviour for every published int stream model. Loading as a fitted text model throws."),
    "C57": ("partial", ["C57_empty_false", "C57_to_string_partial", "C57_parens_injective"], "False for the empty sequence; proved for every non-empty one."),
    "C58": ("partial", ["C58_new_symbol_false", "C58_fresh_false", "C58_known_partial", "C58_zero_prefix_false"], "False: every unseen symbol dereferences end(). Proved for symbols in the table."),
    "C59": ("partial", ["C59_text_stream_reload_partial", "C59_unknown_first_false", "C59_lost_character_false"], "False as stated (witnesses). Proved for histories that accept no new character after parsing an unknown one and whose dictionary has all accepted characters; right-hand-side-first evaluation."),
    "C56": ("proved", ["C56_crash_while_saving"], "For number conversions satisfying TextLaws; integers fit 64 bits."),
    "C60": ("proved", ["C60_parser_terminates"], ""),
    "C61": ("proved", ["C61_int_save", "C61_text_stream_save", "C61_text_save"], "For number conversions satisfying TextLaws; integers fit 64 bits."),
    "C62": ("proved", ["C62_file_round_trip", "C62_number_text"], "For number conversions satisfying TextLaws; integers fit 64 bits."),
    "C63": ("partial", ["C63_failed_save_false", "C63_latin_witness"], "False: whenever saving throws, the file left behind cannot be loaded."),
    "C64": ("proved", ["C64_text_stream_saves", "C64_text_saves"], ""),
    "C65": ("partial", ["C65_training_parse", "C65_training_parse_real", "C65_own_prior_partial", "C65_own_prior_false"], "Optimal for the weights the code holds. False that these start at the word's own frequency: proved when the words are handed over sorted, witness otherwise."),
    "C66": ("proved", ["C66_expand_freqs", "C66_reduce_freqs"], ""),
    "C67": ("partial", ["C67_reduce_gain_partial", "C67_kept_gain_false", "C67_kept_score"], "Dropping is proved. Keeping is proved for words whose split repeats no id; witness of a harmful kept word otherwise."),
    "C68": ("proved", ["C68_expand_selection"], "Exact real arithmetic; the sampled variates are an arbitrary positive function of the table."),
    "C69": ("proved", ["C69_expand_min", "C69_reduce_min"], ""),
    "C70": ("proved", ["C70_rebuild_places", "C70_places_exact"], "Exact arithmetic in any ordered field."),
    "C71": ("proved", ["C71_patience"], "Exact real arithmetic; the minimal probability at the start is positive."),
    "C72": ("proved", ["C72_size_respected"], ""),
    "C73": ("proved", ["C73_best_score", "C73_most_probable"], "For every arithmetic satisfying ScoreLaws and OrderLaws; over the reals as a product of probabilities."),
    "C74": ("proved", ["C74_counters"], ""),
    "C75": ("proved", ["C75_bounded"], "Exact real arithmetic."),
    "C76": ("partial", ["C76_growth_partial", "C76_repeat_false"], "False: one symbol parsed k times adds k words, for every k. Proved: a parse adds at most as many words as it has symbols."),
    "C77": ("proved", ["C77_counts"], ""),
    "C78": ("proved", ["C78_update_shows"], ""),
    "C79": ("proved", ["C79_nearly_most_probable", "C79_stream_nearly_most_probable", "C79_doubles", "C38_doubles", "C79_ieee", "C79_ieee_stream", "C79_logarithms_exist"], "C79_ieee: binary64 doubles with overflow and underflow, std::log with an error of at most one and a half units in the last place, totals up to 2^53, texts up to 60 million symbols."),
    "C80": ("proved", ["C80_finite", "C80_stream_file", "C80_fitted_file", "C80_text_file"], "Symbols, size and number of symbols read lie in the range of int, so every integer of the file does; stream models with a sorted dictionary and one frequency per word, otherwise see C51."),
    "C81": ("partial", ["C81_load_described", "C81_load_only_described", "C81_any_file_partial", "C81_missing_key", "C81_all_loaders_partial", "C81_missing_key_false"], "False: an entry of the alphabet without frequency or word is undefined behaviour (operator[] on a const json). The undefined case is characterised exactly; everything else is proved for all byte strings. Numbers out of the range of int: see C101."),
    "C82": ("partial", ["C82_parse_safe_partial", "C82_alphabet", "C82_empty_word_false", "C82_negative_false", "C82_unsorted_false"], "False for files with an empty word (read out of bounds) or a negative frequency (wrong ids). Proved for all other files; the words may be unsorted, repeated or meaningless."),
    "C83": ("proved", ["C83_option_ignored", "C83_inner_split_false"], "The witness shows that what the option promises is false."),
    "C84": ("partial", ["C84_stream_file", "C84_text_stream_file", "C84_text_file", "C84_int_file_partial", "C84_int_flags_false"], "False for IntVGram, whose files never have the documented flags; proved for the other three classes, and for IntVGram without the flags."),
    "C85": ("proved", ["C85_digits", "C85_nearest"], ""),
    "C86": ("proved", ["C86_text_laws", "C86_number_round_trip", "C86_strtod_exists", "C86_file_round_trip"], "strtod of the C library is a parameter that rounds correctly."),
    "C87": ("partial", ["C87_shortest_partial", "C87_closest_partial", "C87_shortest_false", "C87_closest_false"], "False as stated (witnesses); proved up to the 2^60-th part of the double at the ends of the interval and in the distance."),
    "C88": ("proved", ["C88_double_fits", "C88_integer_fits"], ""),
    "C89": ("partial", ["C89_expand_partial", "C89_expand_real_partial", "C89_reduce_partial", "C89_next_dictionary", "C89_hash_order_false", "C89_equal_scores_false"], "False as stated (witnesses for hash order and for equal scores); a single rebuild is determined when no candidates tie."),
    "C90": ("proved", ["C90_rounding", "C90_laws", "C90_libraries_exist", "C90_pair_score", "C90_word_score", "C90_parse_total", "C90_best_score", "C90_fitted_file", "C90_text_file"], "Assumes of the libraries only LibraryLaws and a correctly rounding strtod."),
    "C91": ("proved", ["C91_prob_found", "C91_patience_bounded"], ""),
    "C92": ("proved", ["C92_reader", "C92_read_file", "C92_rejects", "C92_accepts", "C92_one_value", "C92_only_json_false"], "C92_only_json_false: text after the value is accepted and ignored."),
    "C93": ("proved", ["C93_writer", "C93_writer_doubles", "C93_files_differ"], ""),
    "C94": ("proved", ["C94_schedule", "C94_doubles", "C94_places"], ""),
    "C95": ("partial", ["C95_tokenize_again", "C95_int_pipeline_partial", "C95_decoded_ids_false"], "False as stated (witness): the last line of the README example decodes word numbers as token codes. Same dictionary and same texts when the words are looked up in the alphabet first."),
    "C96": ("partial", ["C96_split_partial", "C96_unknown_false"], "False as stated (witness): inputs without known symbols give -1. Proved for all others."),
    "C97": ("partial", ["C97_not_fitted_again_partial", "C97_loaded_no_training_false", "C97_unfitted_file_false", "C97_unfitted_file_oob_false"], "The first half is proved; the second is false for every file (no rounds are made), with witnesses."),
    "C98": ("partial", ["C98_round_partial", "C98_unread_false", "C98_unread_oob_false"], "False as stated; a round reads everything exactly if it draws nothing twice."),
    "C99": ("partial", ["C99_code_map_partial", "C99_sentinel_false"], "Proved for standard libraries whose end() points to nothing (libstdc++, libc++); false for every map when end() is a node of the copy."),
    "C100": ("proved", ["C100_fixed_draws", "C100_slant", "C100_library", "C100_engine", "C100_libraries_exist"], "The samplers are those of libstdc++ 13; std::log and std::sqrt are parameters with loose bounds."),
    "C101": ("partial", ["C101_reduced_partial", "C101_any_file", "C101_fitting", "C101_saved", "C101_reject_false"], "False: integers out of the range of int are reduced modulo 2^32 without an exception, doubles out of it are undefined behaviour. What happens instead is proved for all files; static_cast<int> of a 64-bit integer is taken to keep the lowest 32 bits."),
    "C102": ("proved", ["C102_set", "C102_expand", "C102_hash", "C102_collision"], "The text of unordered_set is that of GNU libstdc++ 13, not part of the repository; its rehash policy is a parameter."),
    "C103": ("proved", ["C103_sign", "C103_score", "C103_learned", "C103_logarithms_exist"], "The samplers are those of libstdc++ 13; std::log and std::sqrt are parameters with loose bounds and the sign of a logarithm; between rare and frequent pairs nothing is claimed."),
    "C104": ("proved", ["C104_sort", "C104_heap", "C104_order", "C104_items", "C104_library", "C104_learned", "C104_not_an_order"], "The text of std::sort is that of GNU libstdc++ 13, not part of the repository."),
    "C36": ("partial", ["C36_collision_false", "C36_restored_partial"], "False as stated: end-to-end witness given. Holds when the restored codes have no gaps."),
}

def main():
    props = [json.loads(l) for l in open(os.path.join(ROOT, "properties.jsonl")) if l.strip()]
    text = ""
    for base, _, files in os.walk(os.path.join(ROOT, "lean", "Verif", "Props")):
        for f in files:
            text += open(os.path.join(base, f)).read()
    have = set(re.findall(r"^theorem ([A-Za-z0-9_]+)", text, re.M))
    claims, bad = [], []
    for p in props:
        if p["id"] not in CLAIMS:
            continue
        status, thms, note = CLAIMS[p["id"]]
        bad += [t for t in thms if t not in have]
        claims.append({"property": p["id"], "status": status, "theorems": [P + t for t in thms], "note": note})
    listed = {t for c in CLAIMS.values() for t in c[1]}
    unlisted = sorted(t for t in have if re.match(r"C\d+_", t) and t not in listed)
    if bad:
        sys.exit("missing theorems: %s" % bad)
    if unlisted:
        print("not listed:", unlisted)
    with open(os.path.join(ROOT, "MANIFEST.json"), "w") as out:
        json.dump({"claims": claims}, out, indent=1)
        out.write("\n")
    print(len(claims), "claims; without claim:", [p["id"] for p in props if p["id"] not in CLAIMS])

if __name__ == "__main__":
    main()
