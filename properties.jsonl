{"id": "C01", "title": "Dictionary construction keeps exactly the given words, in sorted order", "statement": "Building a dictionary from a list of words succeeds, and its alphabet() is a permutation of the input (same words, same multiplicities) in non-decreasing lexicographic order; size() equals the number of input words.", "quantifier": "every finite list of words over int, including duplicates, empty words, negative symbols and words that are prefixes of each other", "why_tests_cant": "the input space is infinite and the interesting cases are combinations of shared prefixes; a test can only sample them", "anchors": ["core/src/main/cpp/algorithm/int_dict_p.cc:IntDictImpl::init", "core/src/main/cpp/algorithm/int_dict_p.cc:IntDictImpl::alphabet", "core/src/main/cpp/algorithm/int_dict_p.cc:IntDictImpl::size"]}
{"id": "C02", "title": "parent() is the longest proper-prefix word", "statement": "In a freshly built dictionary, parent(i) is -1 exactly when no earlier entry is a prefix of word i; otherwise it is the entry j<i that is a prefix of word i and is the longest such (for duplicate-free word lists: the longest proper prefix of word i in the dictionary, unique).", "quantifier": "every list of words and every index of the resulting dictionary", "why_tests_cant": "requires correctness of a stack algorithm for every nesting pattern of prefixes", "anchors": ["core/src/main/cpp/algorithm/int_dict_p.cc:IntDictImpl::init", "core/src/main/cpp/algorithm/int_dict_p.cc:IntDictImpl::parent"]}
{"id": "C03", "title": "Dictionary construction never reads out of bounds", "statement": "Building a dictionary from any list of words never reads past the end of a word, although the three-iterator std::mismatch has no bound on its second range.", "quantifier": "every finite list of words", "why_tests_cant": "an out-of-bounds read is usually silent at run time, and absence for all inputs needs the ordering argument", "anchors": ["core/src/main/cpp/algorithm/int_dict_p.cc:IntDictImpl::init"]}
{"id": "C04", "title": "search() with an exclude set returns the longest allowed prefix", "statement": "On a dictionary built from duplicate-free words, search(seq, excludes) returns the id of the longest non-excluded word that is a prefix of seq, or -1 iff there is none; the dictionary is unchanged.", "quantifier": "every duplicate-free word list, every non-empty query, every exclude set", "why_tests_cant": "binary search plus parent walking must agree with the declarative longest-prefix spec on all dictionaries and exclude sets", "anchors": ["core/src/main/cpp/algorithm/int_dict_p.cc:IntDictImpl::search"]}
{"id": "C05", "title": "search() without an exclude set returns the longest prefix or adds exactly one new single-symbol word", "statement": "On a dictionary built from duplicate-free words, search(seq, nullptr) returns the id of the longest word that is a prefix of seq and leaves the dictionary unchanged; if there is none it appends exactly the one-symbol word [seq[0]] at the end and returns its id, all older ids keep their words.", "quantifier": "every duplicate-free word list and every non-empty query", "why_tests_cant": "as C04, plus the effect on the dictionary for every miss", "anchors": ["core/src/main/cpp/algorithm/int_dict_p.cc:IntDictImpl::search"]}
{"id": "C06", "title": "search() terminates and stays in bounds on every dictionary any history can produce", "statement": "After any sequence of search and parse calls (each of which may append words out of order) on any dictionary built from non-empty words, every further search on a non-empty query terminates without out-of-bounds access, and a non-negative answer is a valid id whose word is a prefix of the query.", "quantifier": "every initial word list, every history of search/parse calls with any arguments, every next query", "why_tests_cant": "appending breaks the sort order binary search relies on, so memory safety is a property of all histories, not of one call", "anchors": ["core/src/main/cpp/algorithm/int_dict_p.cc:IntDictImpl::search", "core/src/main/cpp/algorithm/int_dict_p.cc:IntDictImpl::parse"]}
{"id": "C07", "title": "Greedy parse is lossless and greedy", "statement": "parse(seq, output) without excludes terminates for every dictionary history; it appends ids whose words concatenate to exactly seq, and on a duplicate-free built dictionary that knows every symbol of seq each id is the longest word matching at its position.", "quantifier": "every dictionary reachable from non-empty words, every sequence, every previous content of output", "why_tests_cant": "losslessness must hold for all sequences and dictionaries; a test compares a few", "anchors": ["core/src/main/cpp/algorithm/int_dict_p.cc:IntDictImpl::linearParse", "core/src/main/cpp/algorithm/int_dict_p.cc:IntDictImpl::parse"]}
{"id": "C08", "title": "Greedy parse with excludes never emits an excluded word and drops only unmatched symbols", "statement": "parse(seq, output, excludes) terminates, never emits an excluded id, leaves the dictionary unchanged, and the sequence is an interleaving of the emitted words in order with skipped single symbols at which no allowed word matched.", "quantifier": "every duplicate-free word list, sequence and exclude set", "why_tests_cant": "universally quantified over three infinite inputs", "anchors": ["core/src/main/cpp/algorithm/int_dict_p.cc:IntDictImpl::linearParse"]}
{"id": "C09", "title": "Frequency-weighted parse is lossless on every dictionary history", "statement": "parse(seq, freqs, total, output) terminates without out-of-bounds access, keeps the old content of output as a prefix, and the words of the appended ids concatenate to exactly seq; every appended id is valid.", "quantifier": "every dictionary reachable from non-empty words, every sequence, every non-negative frequency vector (of any length) and total, every floating-point arithmetic satisfying the stated weak laws", "why_tests_cant": "the traceback silently depends on the dynamic-programming table being filled at every reachable position, for all inputs and roundings", "anchors": ["core/src/main/cpp/algorithm/int_dict_p.cc:IntDictImpl::weightedParse", "core/src/main/cpp/algorithm/int_dict_p.cc:IntDictImpl::parse"]}
{"id": "C10", "title": "Frequency-weighted parse is optimal", "statement": "On a dictionary built from duplicate-free words containing every symbol of seq, the parse returned by parse(seq, freqs, total, output) has maximal score among all ways to write seq as a concatenation of dictionary words, the score being the left-to-right sum of log((freq+1)/(total+size)).", "quantifier": "every dictionary, sequence, frequency vector, total, and every competing segmentation", "why_tests_cant": "the number of competing segmentations is exponential and the claim ranges over all dictionaries", "anchors": ["core/src/main/cpp/algorithm/int_dict_p.cc:IntDictImpl::weightedParse"]}
{"id": "C11", "title": "Parsing adds only unknown symbols, appended after the existing words", "statement": "A parse (either kind, without excludes) never removes, reorders or changes existing words or parents: the new dictionary is the old one followed by one-symbol words occurring in the sequence. If every symbol of seq is a one-symbol word of a duplicate-free built dictionary, the dictionary is unchanged.", "quantifier": "every dictionary, every sequence, every frequency vector", "why_tests_cant": "a frame property over all calls", "anchors": ["core/src/main/cpp/algorithm/int_dict_p.cc:IntDictImpl::search", "core/src/main/cpp/algorithm/int_dict_p.cc:IntDictImpl::weightedParse", "core/src/main/cpp/algorithm/int_dict_p.cc:IntDictImpl::linearParse"]}
{"id": "C12", "title": "A dictionary never contains the same word twice", "statement": "Starting from duplicate-free words, no history of parse calls makes the alphabet contain a word twice.", "quantifier": "every duplicate-free initial dictionary and every history of parses", "why_tests_cant": "needs two particular symbols in a particular order after a particular history; the property is about all histories", "anchors": ["core/src/main/cpp/algorithm/int_dict_p.cc:IntDictImpl::search"]}
{"id": "C13", "title": "Frequencies account for every emitted id", "statement": "After any sequence of parse calls on a statistics dictionary, freq(i) grew by exactly the number of times id i was emitted, the accumulated power is the total number of emitted ids and equals the sum of all freq(i), and the total number of characters equals the sum over i of freq(i) times the length of word i.", "quantifier": "every statistics dictionary, every sequence of parsed inputs", "why_tests_cant": "conservation law over all histories", "anchors": ["core/src/main/cpp/algorithm/stat_dict_p.cc:StatDictImpl::parse", "core/src/main/cpp/algorithm/stat_dict_p.cc:StatDictImpl::update_symbol", "core/src/main/cpp/algorithm/stat_dict_p.cc:StatDictImpl::freq"]}
{"id": "C14", "title": "Pair statistics count adjacent emitted ids", "statement": "After any sequence of parse calls the stored frequency of the pair (a,b) is exactly the number of adjacent occurrences of a followed by b within the emitted id lists, never across two calls.", "quantifier": "every statistics dictionary, every sequence of parsed inputs, every pair", "why_tests_cant": "counting law over all histories", "anchors": ["core/src/main/cpp/algorithm/stat_dict_p.cc:StatDictImpl::parse"]}
{"id": "C15", "title": "Packing a pair of ids into a 64-bit key loses nothing", "statement": "The key (int64(prev) << 32) | symbol determines prev and symbol: unpacking with >> 32 and & 0xFFFFFFFF returns them, and distinct pairs have distinct keys, for all non-negative int ids.", "quantifier": "all pairs of ids in [0, 2^31)", "why_tests_cant": "2^62 pairs; sign extension of the second operand is the classic failure", "anchors": ["core/src/main/cpp/algorithm/stat_dict_p.cc:StatDictImpl::parse", "core/src/main/cpp/algorithm/stat_dict_p.cc:StatDictImpl::expand"]}
{"id": "C16", "title": "Expansion keeps the old words and adds only concatenations of adjacent pairs", "statement": "The dictionary produced by an expanding update contains every word of the current dictionary (when slots is non-negative) and otherwise only concatenations of two words that were emitted adjacently; it is duplicate-free and has at most size + slots words.", "quantifier": "every reachable statistics state with a sorted duplicate-free dictionary, every slot count, every outcome of the random sampling and every order of hash iteration and of ties in sorting", "why_tests_cant": "quantifies over random outcomes, hash order and unstable sort", "anchors": ["core/src/main/cpp/algorithm/stat_dict_p.cc:StatDictImpl::expand"]}
{"id": "C17", "title": "Reduction keeps every single symbol and stays within its slots", "statement": "The dictionary produced by a reducing update is a sub-collection of the current one, keeps every one-symbol word when slots is at least the number of those minus the number of prefix-free words, and has at most slots + (number of words without a shorter prefix word) words when that is non-negative.", "quantifier": "every statistics state reached from a freshly built dictionary that contains each of its symbols as a word, new symbols arriving above the known ones (the situation in training; outside it the claim is false, witnesses are proved), every slot count, every order of ties", "why_tests_cant": "quantifies over all states and unstable sort outcomes", "anchors": ["core/src/main/cpp/algorithm/stat_dict_p.cc:StatDictImpl::reduce", "core/src/main/cpp/algorithm/stat_dict_p.cc:StatDictImpl::filter_stat_items", "core/src/main/cpp/algorithm/stat_dict_p.cc:StatDictImpl::stat_items"]}
{"id": "C18", "title": "The minimal probability never increases during training", "statement": "Every update leaves the new working dictionary's minimal probability at most that of the old one, hence along any training run it never increases.", "quantifier": "every builder state and every training history", "why_tests_cant": "history property", "anchors": ["core/src/main/cpp/algorithm/stat_dict_p.cc:StatDictImpl::expand", "core/src/main/cpp/algorithm/stat_dict_p.cc:StatDictImpl::reduce", "core/src/main/cpp/algorithm/int_vgram_builder_p.cc:IntVGramBuilderImpl::update"]}
{"id": "C19", "title": "Code length per character is non-negative and at most log of the number of distinct words times tokens per character", "statement": "For every statistics dictionary obtained by parsing at least one symbol, code_length_per_char() computed in exact arithmetic is non-negative, and at most (power/total_chars) * log(size).", "quantifier": "every parse history, real arithmetic", "why_tests_cant": "an entropy inequality over all frequency vectors", "anchors": ["core/src/main/cpp/algorithm/stat_dict_p.cc:StatDictImpl::code_length_per_char"]}
{"id": "C20", "title": "Training never faults when the requested size covers the symbols", "statement": "Creating a model with size at least the number of distinct symbols plus one margin and feeding it any sequences (through the stream API, whose coder numbers symbols 0,1,2,...) never dereferences out of range, never invalidates an iterator and always terminates.", "quantifier": "every number of distinct symbols, every admissible size, every stream of sequences, every random/hash/sort outcome", "why_tests_cant": "memory safety across unbounded training histories with internal rebuilds", "anchors": ["core/src/main/cpp/algorithm/int_vgram_builder_p.cc:IntVGramBuilderImpl::accept", "core/src/main/cpp/algorithm/int_vgram_builder_p.cc:IntVGramBuilderImpl::update", "core/src/main/cpp/interfaces/vgram_builders/int_stream_vgram.cc:IntStreamVGram::accept"]}
{"id": "C21", "title": "The trained dictionary covers every symbol seen, sorted and without duplicates", "statement": "At every point of such a training run, the working dictionary is strictly sorted, all its words are non-empty, made of seen symbols only, and every symbol seen is present as a one-symbol word.", "quantifier": "every admissible training history", "why_tests_cant": "invariant over unbounded histories with expand/reduce rebuilds", "anchors": ["core/src/main/cpp/algorithm/int_vgram_builder_p.cc:IntVGramBuilderImpl::accept", "core/src/main/cpp/algorithm/int_vgram_builder_p.cc:IntVGramBuilderImpl::update"]}
{"id": "C22", "title": "The published dictionary respects the requested size", "statement": "After a reduction the published dictionary has at most size words.", "quantifier": "every training history, every requested size", "why_tests_cant": "depends on the history of new symbols between updates", "anchors": ["core/src/main/cpp/algorithm/int_vgram_builder_p.cc:IntVGramBuilderImpl::update", "core/src/main/cpp/algorithm/int_vgram_builder_p.cc:IntVGramBuilderImpl::result"]}
{"id": "C23", "title": "Ids of a published dictionary are stable", "statement": "Once the builder publishes a result, later accept calls never change the word of an existing id in that published dictionary object; they may only append to it or publish a new object.", "quantifier": "every training history after publication", "why_tests_cant": "aliasing property over all later calls", "anchors": ["core/src/main/cpp/algorithm/int_vgram_builder_p.cc:IntVGramBuilderImpl::result", "core/src/main/cpp/algorithm/int_vgram_builder_p.cc:IntVGramBuilderImpl::accept"]}
{"id": "C24", "title": "Expansion and reduction strictly alternate, starting with expansion", "statement": "Along any history of accept calls the effective updates alternate expand, reduce, expand, ..., the first being an expansion, and a dictionary is published as result only by a reduction.", "quantifier": "every history of accept and update calls", "why_tests_cant": "history property", "anchors": ["core/src/main/cpp/algorithm/int_vgram_builder_p.cc:IntVGramBuilderImpl::update"]}
{"id": "C25", "title": "Continuing to train a loaded model keeps its learned words available", "statement": "A builder restored from a saved dictionary can keep multi-symbol words: a reducing update after loading does not have to throw away all of them.", "quantifier": "every loaded dictionary and every subsequent history", "why_tests_cant": "the slot count after loading is a function of the restored state, and the effect appears only at the second update", "anchors": ["core/src/main/cpp/algorithm/int_vgram_builder_p.cc:IntVGramBuilderImpl::IntVGramBuilderImpl(dict,freqs,alphabet,...)", "core/src/main/cpp/algorithm/int_vgram_builder_p.cc:IntVGramBuilderImpl::update"]}
{"id": "C26", "title": "A model saved before its first publication can be loaded and trained with the usual update schedule", "statement": "A model whose saved minimal probability is the 'no result' marker waits for enough statistics before rebuilding its dictionary.", "quantifier": "every loaded model with the marker and every accepted sequence", "why_tests_cant": "schedule property for all sequences", "anchors": ["core/src/main/cpp/algorithm/int_vgram_builder_p.cc:IntVGramBuilderImpl::get_min_probability", "core/src/main/cpp/algorithm/stat_dict_p.cc:StatDictImpl::enough"]}
{"id": "C27", "title": "Symbol coder: decode inverts encode", "statement": "encode never fails, preserves length, and decode(encode(seq)) = seq for every sequence, also after any later encode calls.", "quantifier": "every history of encode calls with any int values, every sequence", "why_tests_cant": "history plus arbitrary values", "anchors": ["core/src/main/cpp/interfaces/seq_coder.cc:SeqCoder::encode", "core/src/main/cpp/interfaces/seq_coder.cc:SeqCoder::decode"]}
{"id": "C28", "title": "Symbol coder: codes are dense, injective and never change", "statement": "After any history of encode calls, the codes handed out are exactly 0..size-1, assigned in first-occurrence order, two values share a code only if equal, and a value's code never changes.", "quantifier": "every history of encode calls", "why_tests_cant": "history invariant", "anchors": ["core/src/main/cpp/interfaces/seq_coder.cc:SeqCoder::encode", "core/src/main/cpp/interfaces/seq_coder.cc:SeqCoder::code_map"]}
{"id": "C29", "title": "Symbol coder: immutable encoding drops exactly the unknown values", "statement": "encode_immutable never changes the coder and decode(encode_immutable(seq)) is seq with the values never encoded before removed; if every value is known it equals encode(seq).", "quantifier": "every coder state reachable by encode, every sequence", "why_tests_cant": "universal over states and sequences", "anchors": ["core/src/main/cpp/interfaces/seq_coder.cc:SeqCoder::encode_immutable"]}
{"id": "C30", "title": "Symbol coder: decoding an unknown code throws, never returns garbage", "statement": "decode(seq) throws std::out_of_range iff seq contains a value that is not a handed-out code; otherwise it returns a sequence of the same length.", "quantifier": "every coder state reachable by encode, every sequence", "why_tests_cant": "universal over states and sequences", "anchors": ["core/src/main/cpp/interfaces/seq_coder.cc:SeqCoder::decode"]}
{"id": "C31", "title": "A coder rebuilt from its saved symbol list behaves like the original", "statement": "Feeding a fresh coder the values of code_map() in code order, one by one, gives a coder that encodes, immutably encodes and decodes every sequence exactly like the original, including values never seen before.", "quantifier": "every reachable coder state, every later sequence", "why_tests_cant": "observational equality for all continuations", "anchors": ["core/src/main/cpp/interfaces/seq_coder.cc:SeqCoder::code_map", "core/src/main/cpp/interfaces/saver.h:Saver::coder_to_json", "core/src/main/cpp/interfaces/loader.h:Loader::read_coder"]}
{"id": "C32", "title": "Text normalisation is idempotent and keeps only lower-case letters and digits", "statement": "normalize(text) contains only ASCII lower-case letters and digits, is idempotent, and equals the text restricted to alphanumeric characters in order, lower-cased.", "quantifier": "every byte string", "why_tests_cant": "all byte strings", "anchors": ["core/src/main/cpp/interfaces/tokenizers/char_tokenizer.cc:CharTokenizer::normalize", "core/src/main/cpp/interfaces/tokenizers/base_tokenizer.cc:BaseTokenizer::normalize"]}
{"id": "C33", "title": "Character tokenizer: decode inverts transform up to normalisation", "statement": "decode(transform(text)) equals normalize(text) for every text after any history of earlier texts.", "quantifier": "every history of texts and every text", "why_tests_cant": "history plus all strings; also depends on the evaluation order of one C++ expression", "anchors": ["core/src/main/cpp/interfaces/tokenizers/base_tokenizer.cc:BaseTokenizer::transform", "core/src/main/cpp/interfaces/tokenizers/base_tokenizer.cc:BaseTokenizer::decode", "core/src/main/cpp/interfaces/tokenizers/char_tokenizer.cc:CharTokenizer::tokenize"]}
{"id": "C34", "title": "Tokenizer codes are dense, injective and never change", "statement": "After any history of transform calls codes are 0..n-1 in first-occurrence order, injective, and permanent.", "quantifier": "every history of texts", "why_tests_cant": "history invariant; depends on evaluation order", "anchors": ["core/src/main/cpp/interfaces/tokenizers/base_tokenizer.cc:BaseTokenizer::transform"]}
{"id": "C35", "title": "Word tokenizer loses nothing", "statement": "Joining the tokens of tokenize(text) with single spaces gives back text, up to one trailing space.", "quantifier": "every string, including leading, trailing and repeated spaces", "why_tests_cant": "all strings", "anchors": ["core/src/main/cpp/interfaces/tokenizers/word_tokenizer.cc:WordTokenizer::tokenize"]}
{"id": "C36", "title": "A restored tokenizer never assigns a code that is already in use", "statement": "After reloading a saved model, new tokens get codes distinct from every restored code.", "quantifier": "every saved model and every later text", "why_tests_cant": "depends on gaps in the restored code table, which only some histories create", "anchors": ["core/src/main/cpp/interfaces/tokenizers/base_tokenizer.cc:BaseTokenizer::BaseTokenizer", "core/src/main/cpp/interfaces/tokenizers/base_tokenizer.cc:BaseTokenizer::transform", "core/src/main/cpp/interfaces/loader.h:Loader"]}
{"id": "C37", "title": "Stream model: parse is lossless end to end", "statement": "After update_dict, for every sequence made of symbols seen in training, the words alphabet()[id] of the ids returned by parse concatenate to exactly the sequence.", "quantifier": "every admissible training history, every sequence over seen symbols", "why_tests_cant": "crosses coder, builder and parser, over all histories", "anchors": ["core/src/main/cpp/interfaces/vgram_builders/int_stream_vgram.cc:IntStreamVGram::parse", "core/src/main/cpp/interfaces/vgram_builders/int_stream_vgram.cc:IntStreamVGram::alphabet", "core/src/main/cpp/interfaces/vgram_builders/int_stream_vgram.cc:IntStreamVGram::update_dict"]}
{"id": "C38", "title": "Stream model: parse never fails after update_dict, unknown symbols are skipped", "statement": "After update_dict, parse on any sequence (also with symbols never seen) returns valid ids whose words concatenate to the sequence restricted to known symbols.", "quantifier": "every training history, every sequence", "why_tests_cant": "all histories, all inputs", "anchors": ["core/src/main/cpp/interfaces/vgram_builders/int_stream_vgram.cc:IntStreamVGram::parse"]}
{"id": "C39", "title": "Stream model: using the model before update_dict is reported as an error", "statement": "parse, alphabet and save on a freshly created model fail cleanly or behave as an empty model.", "quantifier": "every fresh model, every training history without update_dict, every input", "why_tests_cant": "a precondition violation whose effect is undefined behaviour", "anchors": ["core/src/main/cpp/interfaces/vgram_builders/int_stream_vgram.cc:IntStreamVGram::parse", "core/src/main/cpp/interfaces/vgram_builders/int_stream_vgram.cc:IntStreamVGram::alphabet", "core/src/main/cpp/interfaces/vgram_builders/int_stream_vgram.cc:IntStreamVGram::save"]}
{"id": "C40", "title": "Stream model: freqs() is aligned with alphabet()", "statement": "After update_dict, freqs() has one entry per word of alphabet(), entry i being the frequency of word i.", "quantifier": "every history of accept and update_dict calls", "why_tests_cant": "alignment breaks only at the second differing update", "anchors": ["core/src/main/cpp/interfaces/vgram_builders/int_stream_vgram.cc:IntStreamVGram::update_dict", "core/src/main/cpp/interfaces/vgram_builders/int_stream_vgram.cc:IntStreamVGram::freqs", "core/src/main/cpp/algorithm/int_vgram_builder_p.cc:IntVGramBuilderImpl::result_freqs"]}
{"id": "C41", "title": "Saving never reads out of bounds", "statement": "Saving a model after update_dict writes one entry per word with its frequency and never reads outside freqs().", "quantifier": "every history of accept, parse and update_dict calls ending in save", "why_tests_cant": "depends on aliasing between the published and the working dictionary", "anchors": ["core/src/main/cpp/interfaces/vgram_builders/int_stream_vgram.cc:IntStreamVGram::save", "core/src/main/cpp/interfaces/saver.h:Saver::alphabet_to_json"]}
{"id": "C42", "title": "update_dict is idempotent", "statement": "Calling update_dict twice in a row has the same observable effect as calling it once.", "quantifier": "every history of accept calls", "why_tests_cant": "state-dependent", "anchors": ["core/src/main/cpp/interfaces/vgram_builders/int_stream_vgram.cc:IntStreamVGram::update_dict"]}
{"id": "C43", "title": "parse is read-only", "statement": "Calling parse (declared const) does not change alphabet(), freqs(), or the result of later parse calls.", "quantifier": "every history, every sequence", "why_tests_cant": "the mutation happens only for symbols known to the coder but missing in the dictionary", "anchors": ["core/src/main/cpp/interfaces/vgram_builders/int_stream_vgram.cc:IntStreamVGram::parse", "core/src/main/cpp/algorithm/int_dict_p.cc:IntDictImpl::search"]}
{"id": "C44", "title": "fit feeds the builder only training sequences, iter_num times, and stops when asked", "statement": "An uninterrupted fit performs exactly iter_num accept calls per training sequence (iter_num rounds of |training set| calls), each on a member of the training set; if termination is requested at the check after the k-th accept, exactly k accepts happen before it returns null, and the previously published dictionary is kept: same object, same frequencies, every word keeps its id.", "quantifier": "every training set, iteration count, random sequence and termination schedule", "why_tests_cant": "schedules and random outcomes", "anchors": ["core/src/main/cpp/interfaces/vgram_builders/int_vgram.cc:IntVGram::fit"]}
{"id": "C45", "title": "fit runs once", "statement": "A second fit on a fitted model changes nothing; an interrupted fit leaves the model unfitted so that fit can be run again.", "quantifier": "every model state, training set and schedule", "why_tests_cant": "state machine over all schedules", "anchors": ["core/src/main/cpp/interfaces/vgram_builders/int_vgram.cc:IntVGram::fit"]}
{"id": "C46", "title": "Frequencies recomputed after fit count every emitted id", "statement": "After an uninterrupted fit, freqs() has one entry per word and entry i equals the number of times id i is emitted when each training sequence is parsed once, in order, with the counts reported by the builder; their sum equals total_freqs.", "quantifier": "every training set whose symbols are all in the dictionary", "why_tests_cant": "conservation law over all training sets, plus out-of-bounds write otherwise", "anchors": ["core/src/main/cpp/interfaces/vgram_builders/int_vgram.cc:IntVGram::recompute_freqs"]}
{"id": "C47", "title": "transform yields one decodable id list per input", "statement": "transform(seqs) returns as many lists as inputs, in order; list k contains valid ids whose words concatenate to input k restricted to known symbols; transform_to_string prints the same ids in decimal, each preceded by one space, and -1 for an empty list, so that different id lists give different strings.", "quantifier": "every fitted model, every list of sequences", "why_tests_cant": "all inputs", "anchors": ["core/src/main/cpp/interfaces/vgram_builders/int_vgram.cc:IntVGram::transform", "core/src/main/cpp/interfaces/vgram_builders/int_vgram.cc:IntVGram::transform_to_string"]}
{"id": "C48", "title": "Interrupting fit never leaves stale totals marked as computed", "statement": "If termination is requested while frequencies are being recomputed, the model does not report freqs_computed with a total different from the sum of freqs.", "quantifier": "every termination schedule", "why_tests_cant": "schedule property", "anchors": ["core/src/main/cpp/interfaces/vgram_builders/int_vgram.cc:IntVGram::fit", "core/src/main/cpp/interfaces/vgram_builders/int_vgram.cc:IntVGram::recompute_freqs"]}
{"id": "C49", "title": "String model: transform is lossless up to normalisation", "statement": "For every text whose characters were seen in training, removing the separating spaces from the transformed text gives normalize(text).", "quantifier": "every fitted character-level model and every text over seen characters", "why_tests_cant": "crosses tokenizer, coder, dictionary; all texts", "anchors": ["core/src/main/cpp/interfaces/vgram_builders/string_vgram.cc:StringVGram::transform", "core/src/main/cpp/interfaces/vgram_builders/string_vgram.cc:StringVGram::fit"]}
{"id": "C50", "title": "String stream model rejects contradictory options and parses losslessly", "statement": "The constructor throws invalid_argument exactly when words_are_tokens and inner_words_split are both set; otherwise after update_dict, parse of a text over seen tokens gives strings whose concatenation is the concatenation of the tokens of the normalised text.", "quantifier": "every option combination, history and text", "why_tests_cant": "all histories and texts", "anchors": ["core/src/main/cpp/interfaces/vgram_builders/string_stream_vgram.cc:StringStreamVGram"]}
{"id": "C51", "title": "Stream model: load(save(m)) parses like m", "statement": "Loading a saved stream model gives a model with the same alphabet, frequencies, coder and size, and parse returns, for every sequence, ids of the same words.", "quantifier": "every saved model with a sorted duplicate-free dictionary, every sequence", "why_tests_cant": "observational equality on all inputs", "anchors": ["core/src/main/cpp/interfaces/saver.h:Saver", "core/src/main/cpp/interfaces/loader.h:Loader", "core/src/main/cpp/interfaces/vgram_builders/int_stream_vgram.cc:IntStreamVGram::save"]}
{"id": "C52", "title": "String model: load(save(m)) transforms like m", "statement": "Loading a saved string model gives a model whose transform returns the same text for every input.", "quantifier": "every saved fitted model and every text", "why_tests_cant": "observational equality on all inputs", "anchors": ["core/src/main/cpp/interfaces/saver.h:Saver", "core/src/main/cpp/interfaces/loader.h:Loader", "core/src/main/cpp/interfaces/vgram_builders/string_vgram.cc:StringVGram::save"]}
{"id": "C53", "title": "Int model: a saved fitted model can be loaded", "statement": "Loading the file written by save() of a fitted int model succeeds and gives a fitted model.", "quantifier": "every fitted model", "why_tests_cant": "overload resolution decides which fields are written; concerns every model", "anchors": ["core/src/main/cpp/interfaces/vgram_builders/int_vgram.cc:IntVGram::save", "core/src/main/cpp/interfaces/saver.h:Saver", "core/src/main/cpp/interfaces/loader.h:Loader::load_int_vgram"]}
{"id": "C54", "title": "Word-level string stream model survives a reload", "statement": "A word-level stream model loaded from its file tokenizes text like the original.", "quantifier": "every word-level model and every text", "why_tests_cant": "for all texts", "anchors": ["core/src/main/cpp/interfaces/loader.h:Loader::load_string_stream_vgram", "core/src/main/cpp/interfaces/vgram_builders/string_stream_vgram.cc:StringStreamVGram"]}
{"id": "C55", "title": "Loading a file of the wrong kind is rejected", "statement": "Loading an int-model file as a string model throws instead of misbehaving.", "quantifier": "every saved int model", "why_tests_cant": "undefined behaviour is invisible to a test in release mode", "anchors": ["core/src/main/cpp/interfaces/loader.h:Loader"]}
{"id": "C56", "title": "A crash while saving never yields a loadable wrong model", "statement": "Whatever prefix of the file reaches the disk, loading it either fails with a parse error or yields the complete model.", "quantifier": "every saved model and every crash point (prefix of the written text)", "why_tests_cant": "crash points are as many as bytes in the file, for every model", "anchors": ["core/src/main/cpp/interfaces/saver.h:Saver", "core/src/main/cpp/interfaces/loader.h:Loader"]}
{"id": "C57", "title": "Printing an id sequence is well defined", "statement": "to_string(seq) prints the numbers in decimal separated by single spaces inside parentheses, different sequences print differently, and it never reads out of bounds.", "quantifier": "every sequence, including the empty one", "why_tests_cant": "the failing case is an unsigned underflow that may or may not crash", "anchors": ["core/src/main/cpp/algorithm/int_dict.cc:to_string", "core/src/main/cpp/algorithm/int_dict.cc:operator<<"]}
{"id": "C58", "title": "The list encoder never dereferences the end of its table", "statement": "Encoding a symbol never seen before returns the freshly assigned code.", "quantifier": "every encoder state and symbol", "why_tests_cant": "undefined behaviour that may happen to work", "anchors": ["core/src/main/cpp/algorithm/list_dict.h:Encoder"]}
{"id": "C59", "title": "Character-level text stream model survives a reload", "statement": "A character-level stream model saved after its first publication and loaded again answers every list of parse calls with the same strings and has the same text alphabet.", "quantifier": "every size, every history of accepted and parsed texts, every list of later texts", "why_tests_cant": "for all histories and all texts", "anchors": ["core/src/main/cpp/interfaces/loader.h:Loader::load_string_stream_vgram", "core/src/main/cpp/interfaces/saver.h:Saver", "core/src/main/cpp/interfaces/vgram_builders/string_stream_vgram.cc:StringStreamVGram"]}
{"id": "C60", "title": "The JSON parser always stops", "statement": "Loading any file stops after a number of parser steps linear in its size, with a value, a parse error or an out-of-range error.", "quantifier": "every byte string", "why_tests_cant": "termination on all inputs cannot be tested", "anchors": ["core/src/main/cpp/interfaces/json.h:parser::sax_parse_internal", "core/src/main/cpp/interfaces/json.h:lexer::scan", "core/src/main/cpp/interfaces/loader.h:Loader::read_dict_json"]}
{"id": "C61", "title": "Saving throws exactly for non-UTF-8 alphabets", "statement": "Writing the file of an integer model never throws; writing that of a text model throws exactly if some string of its alphabet is not valid UTF-8.", "quantifier": "every model", "why_tests_cant": "for all byte strings and all models", "anchors": ["core/src/main/cpp/interfaces/json.h:serializer::dump_escaped", "core/src/main/cpp/interfaces/saver.h:Saver"]}
{"id": "C62", "title": "What was written is read back", "statement": "If writing the file did not throw, reading it gives the JSON tree that was written.", "quantifier": "every saved model of the four kinds", "why_tests_cant": "for all models", "anchors": ["core/src/main/cpp/interfaces/json.h:serializer::dump", "core/src/main/cpp/interfaces/json.h:parser", "core/src/main/cpp/interfaces/saver.h:Saver", "core/src/main/cpp/interfaces/loader.h:Loader"]}
{"id": "C63", "title": "A failed save keeps the old file usable", "statement": "If saving throws, the file at that path can still be loaded.", "quantifier": "every model", "why_tests_cant": "the failing models are those with non-UTF-8 strings, which tests do not use", "anchors": ["core/src/main/cpp/interfaces/saver.h:Saver::write_to_file", "core/src/main/cpp/interfaces/json.h:serializer::dump_escaped"]}
{"id": "C64", "title": "Models of UTF-8 texts can be saved", "statement": "Writing the file of a character-level text model never throws, whatever texts it was given; that of a word-level model does not throw if all texts given to it were valid UTF-8.", "quantifier": "every history of calls and every text", "why_tests_cant": "for all texts and histories", "anchors": ["core/src/main/cpp/interfaces/json.h:serializer::dump_escaped", "core/src/main/cpp/interfaces/tokenizers/char_tokenizer.cc:CharTokenizer", "core/src/main/cpp/interfaces/tokenizers/word_tokenizer.cc:WordTokenizer"]}
{"id": "C65", "title": "Parses during training are the most probable ones for the counts seen so far", "statement": "Each parse of a statistics dictionary returns a split with the greatest product of (weight+1)/(total+size), the weight of a word being its own frequency handed over by the previous rebuild plus the number of times it was emitted since.", "quantifier": "every fresh statistics dictionary, every history of parses, every sequence over its symbols", "why_tests_cant": "optimality against all splits, after all histories", "anchors": ["core/src/main/cpp/algorithm/stat_dict_p.cc:StatDictImpl::parse", "core/src/main/cpp/algorithm/stat_dict_p.cc:StatDictImpl::weightedParse", "core/src/main/cpp/algorithm/stat_dict_p.cc:StatDictImpl::StatDictImpl"]}
{"id": "C66", "title": "Frequencies reported by a rebuild are emission counts", "statement": "The frequency that expand reports for an old word is the number of times it was emitted, for a new word the number of times two words spelling it were emitted next to each other; the frequency that reduce reports is the number of times the word was emitted.", "quantifier": "every history of parses followed by a rebuild", "why_tests_cant": "for all texts", "anchors": ["core/src/main/cpp/algorithm/stat_dict_p.cc:StatDictImpl::expand", "core/src/main/cpp/algorithm/stat_dict_p.cc:StatDictImpl::reduce"]}
{"id": "C67", "title": "A reduction keeps the words that shorten the code", "statement": "In exact arithmetic, a reduction keeps a longer word only if replacing it by its most probable other split makes the ideal code of the training text longer; it drops an emitted word only if that does not make it longer, or if all slots are taken by words that gain at least as much. Words never emitted are dropped.", "quantifier": "every dictionary, every training text, every number of slots", "why_tests_cant": "compares code lengths of all words for all texts", "anchors": ["core/src/main/cpp/algorithm/stat_dict_p.cc:StatDictImpl::reduce", "core/src/main/cpp/algorithm/stat_dict_p.cc:StatDictImpl::stat_items"]}
{"id": "C68", "title": "An expansion takes the most valuable pairs", "statement": "In exact arithmetic, an expansion judges each text made up by two adjacent words by the pair's expected gain under a sampled contingency table; it takes a text only if the value is not negative, and leaves one out only if its value is negative or all places are used by texts worth at least as much.", "quantifier": "every dictionary, every training text, every number of slots, every positive sampling", "why_tests_cant": "for all texts and all samples", "anchors": ["core/src/main/cpp/algorithm/stat_dict_p.cc:StatDictImpl::expand", "core/src/main/cpp/algorithm/fast_random.cc:next_dirichlet"]}
{"id": "C69", "title": "The minimal probability is exactly the least one of the words it guards", "statement": "The minimal probability after an expansion is the least of the old one and the relative pair frequencies of the added words; after a reduction the least of the old one, one over the number of words, and the smoothed relative frequencies of the surviving longer words.", "quantifier": "every history of parses followed by a rebuild", "why_tests_cant": "for all texts", "anchors": ["core/src/main/cpp/algorithm/stat_dict_p.cc:StatDictImpl::expand", "core/src/main/cpp/algorithm/stat_dict_p.cc:StatDictImpl::reduce"]}
{"id": "C72", "title": "A settled model keeps to its size", "statement": "Once a fresh stream model has made three rebuilds without meeting a new symbol, alphabet() after update_dict has at most size words, whatever else was called in between.", "quantifier": "every size, every history, every rebuild schedule", "why_tests_cant": "for all histories and all samples; right after a new symbol the bound fails (C22)", "anchors": ["core/src/main/cpp/algorithm/int_vgram_builder_p.cc:IntVGramBuilderImpl::update", "core/src/main/cpp/algorithm/stat_dict_p.cc:StatDictImpl::reduce", "core/src/main/cpp/interfaces/vgram_builders/int_stream_vgram.cc:IntStreamVGram::update_dict"]}
{"id": "C73", "title": "parse returns the most probable segmentation", "statement": "While only sequences are parsed whose seen symbols alphabet() shows, the ids returned by a stream model's parse have, in exact arithmetic, the greatest probability among all ways to write the sequence with the words of alphabet(), a word's probability being its entry of freqs() plus one over the sum of freqs() plus the number of words.", "quantifier": "every history, fresh or loaded, every sequence", "why_tests_cant": "there are exponentially many segmentations", "anchors": ["core/src/main/cpp/interfaces/vgram_builders/int_stream_vgram.cc:IntStreamVGram::parse", "core/src/main/cpp/algorithm/int_dict_p.cc:IntDictImpl::weightedParse"]}
{"id": "C70", "title": "How many words a rebuild has room for", "statement": "Every rebuild of a training run takes the working dictionary with its counts and, alternately, expands it with 1.3 times as many further places as it has words (rounded down; for fewer than 8 words, with size minus the number of counted symbols), keeping all its words and adding at most that many, or reduces it to size minus the number of counted symbols.", "quantifier": "every history, every call that rebuilds, exact arithmetic", "why_tests_cant": "for all histories; the number of places depends on the sizes reached on the way", "anchors": ["core/src/main/cpp/algorithm/int_vgram_builder_p.cc:IntVGramBuilderImpl::update", "core/src/main/cpp/algorithm/stat_dict_p.cc:StatDictImpl::expand"]}
{"id": "C71", "title": "How long training waits for a rebuild", "statement": "An accept call rebuilds the dictionary exactly if the ids emitted since the last rebuild, its own included, are more than -log(0.1 * 0.8^k) / q or more than 20 million, where q > 0 is the minimal probability of the working dictionary and k counts the rebuilds that, like the three before them, set no new best code length per symbol; an update call does so according to the ids emitted so far.", "quantifier": "every history of accept, update and result calls, exact arithmetic", "why_tests_cant": "for all histories; k depends on all the rates noted on the way, and the 20 million limit is out of reach of a test", "anchors": ["core/src/main/cpp/algorithm/int_vgram_builder_p.cc:IntVGramBuilderImpl::accept", "core/src/main/cpp/algorithm/int_vgram_builder_p.cc:IntVGramBuilderImpl::update", "core/src/main/cpp/algorithm/stat_dict_p.cc:StatDictImpl::enough"]}
{"id": "C74", "title": "Counters are bounded by the amount of text", "statement": "After any history, every counter of every statistics dictionary (word counts, parse weights, pair counts, the sum of two word counts formed in stat_items) and every reported frequency and their total are between 0 and the number of symbols accepted, plus the sum of the frequencies the model was loaded with; so the int counters cannot overflow while that number fits an int.", "quantifier": "every history of accept, parse and update_dict, fresh or loaded model", "why_tests_cant": "an overflow needs 2^31 symbols; update_dict adds up frequencies over all dictionaries", "anchors": ["core/src/main/cpp/algorithm/stat_dict_p.cc:StatDictImpl::update_symbol", "core/src/main/cpp/algorithm/stat_dict_p.cc:StatDictImpl::parse", "core/src/main/cpp/algorithm/int_vgram_builder_p.cc:IntVGramBuilderImpl::result_freqs", "core/src/main/cpp/interfaces/vgram_builders/int_stream_vgram.cc:IntStreamVGram::update_dict"]}
{"id": "C75", "title": "Training needs bounded room", "statement": "At every point of a training run over m symbols the working dictionary has at most 2.3 * (size + m) words and the published one at most size + m, however much text is read.", "quantifier": "every history of accept, update and result calls, exact arithmetic", "why_tests_cant": "for all histories; expansions and reductions alternate without end", "anchors": ["core/src/main/cpp/algorithm/int_vgram_builder_p.cc:IntVGramBuilderImpl::update", "core/src/main/cpp/algorithm/stat_dict_p.cc:StatDictImpl::expand", "core/src/main/cpp/algorithm/stat_dict_p.cc:StatDictImpl::reduce"]}
{"id": "C76", "title": "Repeating a parse does not grow the model", "statement": "Parsing a sequence that has been parsed before, with nothing accepted in between, adds no words to alphabet().", "quantifier": "every history, every sequence", "why_tests_cant": "needs two symbols missing from the published dictionary, parsed in decreasing order", "anchors": ["core/src/main/cpp/interfaces/vgram_builders/int_stream_vgram.cc:IntStreamVGram::parse", "core/src/main/cpp/algorithm/int_dict_p.cc:IntDictImpl::search"]}
{"id": "C77", "title": "Counters count what was read since the last rebuild", "statement": "Each statistics dictionary counts exactly the texts accepted while it was the working one: there is one segmentation per text into its words such that every word counter, pair counter and total is the number of occurrences in these segmentations, and no accepted text is lost or counted twice across rebuilds.", "quantifier": "every admissible history of accept, update_dict and parse calls, every dictionary ever made", "why_tests_cant": "the counters of superseded dictionaries are private, and a lost or doubled count only shifts later rebuild decisions", "anchors": ["core/src/main/cpp/algorithm/stat_dict_p.cc:StatDictImpl::parse", "core/src/main/cpp/algorithm/int_vgram_builder_p.cc:IntVGramBuilderImpl::accept", "core/src/main/cpp/interfaces/vgram_builders/int_stream_vgram.cc:IntStreamVGram::accept"]}
{"id": "C78", "title": "update_dict shows the newest reduced dictionary", "statement": "After update_dict the model shows the dictionary made by the last reduction (every second rebuild since the start); before the first reduction a fresh model shows the working dictionary and a loaded one the dictionary it was loaded with. alphabet() lists that dictionary's words decoded, and min_prob is that dictionary's threshold, or -1 for a fresh model before its first reduction.", "quantifier": "every admissible history of accept, update_dict and parse calls, from a fresh or a loaded model", "why_tests_cant": "which of the two newest dictionaries is shown depends on how many rebuilds the whole history caused", "anchors": ["core/src/main/cpp/interfaces/vgram_builders/int_stream_vgram.cc:IntStreamVGram::update_dict", "core/src/main/cpp/algorithm/int_vgram_builder_p.cc:IntVGramBuilderImpl::result", "core/src/main/cpp/algorithm/int_vgram_builder_p.cc:IntVGramBuilderImpl::update", "core/src/main/cpp/algorithm/int_vgram_builder_p.cc:IntVGramBuilderImpl::get_min_probability"]}
{"id": "C79", "title": "Rounding costs almost nothing", "statement": "In floating-point arithmetic the returned parse is nearly most probable: every other parse has a product of smoothed probabilities (freq + 1)/(total + size) of at most exp((n^2 + 10 n)/2^52 * log(total + size)) times that of the returned one, n being the length of the text; parse never fails or loses symbols because of rounding.", "quantifier": "every dictionary, text, frequency vector and competing parse; every arithmetic with bounded relative error, in particular 53-bit mantissas rounded to nearest even", "why_tests_cant": "the error accumulates over the whole text and the competing parses are exponentially many", "anchors": ["core/src/main/cpp/algorithm/int_dict_p.cc:IntDictImpl::weightedParse", "core/src/main/cpp/interfaces/vgram_builders/int_stream_vgram.cc:IntStreamVGram::parse"]}
{"id": "C80", "title": "Models survive the disk", "statement": "The probability stored with a model is always a finite number, so a saved file never contains null in its place. Writing a fitted model (of sequences, or of texts at character level) to a file succeeds, and the model loaded from the bytes of that file has the same alphabet, frequencies, size and codes and answers every later sequence of parse or transform calls exactly like the original. The same holds for a published stream model whose dictionary is sorted and has one frequency per word.", "quantifier": "every admissible history or successful uninterrupted fit whose symbols, size and number of symbols are in the range of int, every list of calls after loading, every arithmetic satisfying the laws, every correct conversion of doubles to and from text", "why_tests_cant": "the stored probability is the minimum over all rebuilds of an unbounded history, and the answers have to agree on all later inputs", "anchors": ["core/src/main/cpp/interfaces/saver.h:Saver::write_to_file", "core/src/main/cpp/interfaces/vgram_builders/int_vgram.cc:IntVGram::save", "core/src/main/cpp/interfaces/vgram_builders/string_vgram.cc:StringVGram::save", "core/src/main/cpp/interfaces/loader.h:Loader", "core/src/main/cpp/algorithm/stat_dict_p.cc:StatDictImpl::reduce"]}
{"id": "C81", "title": "Arbitrary model files", "statement": "Whatever the bytes of a file are, loading it as a model either gives exactly the model the file describes (words in sorted order, frequencies in the order of the file, symbols numbered in the order of the file, size and probability as written) or throws an exception; it never reads out of bounds and never loops forever. A described model is always loaded, and nothing else is.", "quantifier": "every byte string, every JSON tree, all four loaders, every conversion of doubles", "why_tests_cant": "the files are unbounded and need not have been written by save; every combination of types, missing keys, repeated keys and order has to be considered", "anchors": ["core/src/main/cpp/interfaces/loader.h:read_dict", "core/src/main/cpp/interfaces/loader.h:read_coder", "core/src/main/cpp/interfaces/loader.h:read_alphabet", "core/src/main/cpp/interfaces/loader.h:load_tokenizer", "core/src/main/cpp/interfaces/json.h:parser"]}
{"id": "C82", "title": "Models from arbitrary files can be used", "statement": "A stream model loaded from any file that describes one can parse every sequence any number of times: no call fails and the ids spell the codes of the known symbols of the sequence. Its alphabet can be read exactly when all codes in the words of the file are codes of its symbols.", "quantifier": "every described model, every sequence of parse calls", "why_tests_cant": "words and frequencies of the file are arbitrary, and the dictionary grows with every call", "anchors": ["core/src/main/cpp/interfaces/vgram_builders/int_stream_vgram.cc:IntStreamVGram::IntStreamVGram", "core/src/main/cpp/interfaces/vgram_builders/int_stream_vgram.cc:IntStreamVGram::parse", "core/src/main/cpp/interfaces/vgram_builders/int_stream_vgram.cc:IntStreamVGram::alphabet", "core/src/main/cpp/interfaces/loader.h:load_int_stream_vgram"]}
{"id": "C83", "title": "The option inner_words_split", "statement": "The constructor option inner_words_split has no effect (the code that should use it is commented out): after any sequence of calls a text stream model made with it has the same alphabet, writes the same file and gives the same answers to parse, or fails in the same way, as one made without it. In particular learned words can span several words of the text.", "quantifier": "every size, every sequence of accept, parse and update_dict calls, every arithmetic and order of evaluation", "why_tests_cant": "equality of behaviour over unbounded histories of training", "anchors": ["core/src/main/cpp/interfaces/vgram_builders/string_stream_vgram.cc:StringStreamVGram::StringStreamVGram", "core/src/main/cpp/interfaces/vgram_builders/string_stream_vgram.cc:StringStreamVGram::check_args", "core/src/main/cpp/interfaces/vgram_builders/string_stream_vgram.cc:StringStreamVGram::accept"]}
{"id": "C84", "title": "The documented file format", "statement": "A saved file has exactly the documented members: size is the requested size, coder lists the symbols in the order of their first occurrence in the data, alphabet has one entry per word of alphabet() in the same order with freq the frequency of the same index, vec the positions of its symbols in coder and, for text models only, text the text of the word; fitted and freqs_computed are present for fitted models only and have the values of the model.", "quantifier": "every admissible history of a stream model, every text model that can be saved, every arithmetic satisfying the laws", "why_tests_cant": "the content depends on the whole history of training; order and position have to agree for every index", "anchors": ["core/src/main/cpp/interfaces/saver.h:add_base_info", "core/src/main/cpp/interfaces/saver.h:add_fitted_info", "core/src/main/cpp/interfaces/saver.h:alphabet_to_json", "core/src/main/cpp/interfaces/saver.h:coder_to_json"]}
{"id": "C85", "title": "Digits of doubles identify them", "statement": "For every positive finite double the digit generation of json.h (grisu2) ends without a failed assertion or wrapped-around result, with 1 to 17 decimal digits, no leading and no trailing zero, and a decimal exponent of at most three digits; and the decimal number it returns is strictly nearer to that double than to every other double.", "quantifier": "all 2^63 - 2^52 - 1 positive finite binary64 numbers, subnormal ones included", "why_tests_cant": "there are about 9.2e18 doubles; the argument rests on error bounds of 64-bit products with 79 tabulated powers of ten", "anchors": ["core/src/main/cpp/interfaces/json.h:grisu2", "core/src/main/cpp/interfaces/json.h:grisu2_digit_gen", "core/src/main/cpp/interfaces/json.h:grisu2_round", "core/src/main/cpp/interfaces/json.h:compute_boundaries", "core/src/main/cpp/interfaces/json.h:get_cached_power_for_binary_exponent"]}
{"id": "C86", "title": "Doubles survive a file", "statement": "If strtod rounds correctly (to some nearest double, as the C standard requires for IEEE arithmetic), then reading the text that json.h writes for a finite double gives the identical double, including the sign of zero, and a completely written model file is read back as the same tree with bit-identical numbers.", "quantifier": "every finite double, every model file, every correctly rounding strtod", "why_tests_cant": "all doubles and all trees; the tie-breaking of strtod is arbitrary", "anchors": ["core/src/main/cpp/interfaces/json.h:to_chars", "core/src/main/cpp/interfaces/json.h:format_buffer", "core/src/main/cpp/interfaces/json.h:grisu2", "core/src/main/cpp/interfaces/json.h:dump_float"]}
{"id": "C87", "title": "Shortest digits", "statement": "The digits that json.h writes for a double are the shortest and, among those of that length, the closest: no decimal number with fewer digits lies in the interval of numbers that round to the double, and none with the same exponent in that interval is nearer to the double.", "quantifier": "every positive finite double, every decimal number", "why_tests_cant": "quantifies over all doubles and all competing decimal numbers; it fails for roughly one double in a thousand", "anchors": ["core/src/main/cpp/interfaces/json.h:grisu2", "core/src/main/cpp/interfaces/json.h:grisu2_digit_gen", "core/src/main/cpp/interfaces/json.h:grisu2_round"]}
{"id": "C88", "title": "Number buffer is large enough", "statement": "The text of every finite double has at most 24 characters and the text of every 64-bit integer at most 20, so that writing numbers stays inside the 64-byte number_buffer of the serializer; both bounds are attained.", "quantifier": "every finite double, every integer from -2^63 to 2^64-1", "why_tests_cant": "a buffer overrun could be triggered by any of 2^64 doubles", "anchors": ["core/src/main/cpp/interfaces/json.h:number_buffer", "core/src/main/cpp/interfaces/json.h:to_chars", "core/src/main/cpp/interfaces/json.h:dump_integer", "core/src/main/cpp/interfaces/json.h:format_buffer"]}
{"id": "C89", "title": "Training does not depend on hash order", "statement": "Two builds of the library whose arithmetic and random variates agree learn the same alphabet from the same calls, whatever the iteration order of the hash table of pair counts and however std::sort arranges items with equal scores. False of the code; an expansion selects the same words with the same counts and the same minimal probability when no new word is spelled by two pairs and no two new words have equal scores, a reduction when no two longer words have equal scores, and then the next dictionary is the same.", "quantifier": "every pair of environments that differ only in hash order and treatment of equal scores, every training history", "why_tests_cant": "a test runs with one standard library and one hash order, and equal scores are common with small counts", "anchors": ["core/src/main/cpp/algorithm/stat_dict_p.cc:expand", "core/src/main/cpp/algorithm/stat_dict_p.cc:stat_items", "core/src/main/cpp/algorithm/stat_dict_p.cc:reduce", "core/src/main/cpp/algorithm/stat_dict_p.h:pairs_freqs_"]}
{"id": "C90", "title": "No overflow, underflow or NaN in IEEE doubles", "statement": "With binary64 doubles (rounding to nearest even, overflow to infinity, gradual underflow, signed zeros, NaN) every score of a pair and of a word is a finite double, so sorting is well defined; training never fails, parse is lossless and returns the segmentation with the greatest computed score, and a saved model read back from its bytes answers like the original.", "quantifier": "every training history, every log bounded by 1024, every order of sorting and hashing, all gamma variates from 2^-160 to 2^160", "why_tests_cant": "a NaN or an infinity would appear only for extreme counts or variates, which tests do not reach; a NaN makes std::sort undefined", "anchors": ["core/src/main/cpp/algorithm/stat_dict_p.cc:expand", "core/src/main/cpp/algorithm/stat_dict_p.cc:reduce", "core/src/main/cpp/algorithm/stat_dict_p.cc:stat_items", "core/src/main/cpp/algorithm/stat_dict_p.cc:code_length_per_char", "core/src/main/cpp/algorithm/int_dict_p.cc:weightedParse"]}
{"id": "C91", "title": "Patience is bounded in doubles", "statement": "However many rebuilds brought no improvement, prob_found_ is at least 2^-1073 (0.8 times it is rounded to itself), and once more than 4096 / q ids were emitted since the last rebuild, q > 0 being the minimal probability of the working dictionary, the accept call rebuilds the dictionary.", "quantifier": "every history of accept, update and result calls in IEEE doubles", "why_tests_cant": "takes more than 3000 unsuccessful rebuilds; with exact numbers the bound would not exist", "anchors": ["core/src/main/cpp/algorithm/int_vgram_builder_p.cc:IntVGramBuilderImpl::update", "core/src/main/cpp/algorithm/int_vgram_builder_p.cc:IntVGramBuilderImpl::accept", "core/src/main/cpp/algorithm/stat_dict_p.cc:StatDictImpl::enough"]}
{"id": "C92", "title": "Model files are read as RFC 8259 JSON", "statement": "read_dict_json returns an array or object exactly if the file is an optional byte order mark, white space, a JSON value of RFC 8259 that denotes it, and anything after that; of several members with the same name the last counts, integers of int64 and uint64 range stay integers; every other file is an exception, and no JSON text denotes two values. What follows the value is not looked at.", "quantifier": "every byte string", "why_tests_cant": "the language is infinite; tests cannot show that nothing outside the grammar is accepted", "anchors": ["core/src/main/cpp/interfaces/json.h:sax_parse_internal", "core/src/main/cpp/interfaces/json.h:scan_string", "core/src/main/cpp/interfaces/json.h:scan_number", "core/src/main/cpp/interfaces/json.h:skip_bom", "core/src/main/cpp/interfaces/loader.h:read_dict_json"]}
{"id": "C93", "title": "Model files are JSON texts", "statement": "A file that save wrote completely is, as a whole, a JSON text of RFC 8259 that denotes the saved tree, so any conforming reader with a correctly rounding number conversion obtains the same names, words and numbers; different trees give different files.", "quantifier": "every model that can be saved without an exception", "why_tests_cant": "tests read the files with the same library only, and with sample models", "anchors": ["core/src/main/cpp/interfaces/saver.h:write_to_file", "core/src/main/cpp/interfaces/json.h:dump", "core/src/main/cpp/interfaces/json.h:dump_escaped"]}
{"id": "C94", "title": "When and how far training rebuilds, in doubles", "statement": "The moments at which accept and update rebuild the dictionary are determined by the rates noted at the rebuilds, the ids emitted since the last one and the minimal probability of the working dictionary, computed in the arithmetic of the program: rebuild exactly if -log(0.1 * 0.8 * ... * 0.8) / q, with one factor per stalled rebuild, is less than the number of ids, or if these are more than 20 million. The rate is the code length in bytes per symbol as it is computed, including rates that are not numbers. An expansion has exactly the number of places that exact arithmetic gives, for every dictionary size that is an int.", "quantifier": "every history of accept, update and result calls, every arithmetic obeying the laws, IEEE doubles in particular; all dictionary sizes up to 2^31", "why_tests_cant": "products with 1.3 that pass an integer depend on single bits and on the size; schedules depend on long histories", "anchors": ["core/src/main/cpp/algorithm/int_vgram_builder_p.cc:IntVGramBuilderImpl::update", "core/src/main/cpp/algorithm/int_vgram_builder_p.cc:IntVGramBuilderImpl::accept", "core/src/main/cpp/algorithm/stat_dict_p.cc:StatDictImpl::enough"]}
{"id": "C95", "title": "A tokenizer in front of an integer model is a text model", "statement": "README.md and docs/source/examples.rst present a CharTokenizer in front of an IntVGram as equivalent to a VGram. For the same texts, size, number of rounds and schedule both learn the same dictionary: the alphabet of the text model is the decoded alphabet of the integer model, with the same frequencies, and tokenizer.decode(vgram.transform(tok_texts)) is what transform of the text model returns.", "quantifier": "all lists of texts, sizes, numbers of rounds, random draws, both tokenizers", "why_tests_cant": "the two pipelines agree on dictionaries of single characters in sorted order, and a test of one example cannot show that they agree on all texts", "anchors": ["core/src/main/cpp/interfaces/vgram_builders/string_vgram.cc:StringVGram::fit", "core/src/main/cpp/interfaces/vgram_builders/string_vgram.cc:StringVGram::transform", "core/src/main/cpp/interfaces/vgram_builders/int_vgram.cc:IntVGram::transform", "core/src/main/cpp/interfaces/tokenizers/base_tokenizer.cc:BaseTokenizer::decode"]}
{"id": "C96", "title": "split() recovers the ids", "statement": "docs/source/examples.rst and vgram_builder.rst: transform of the Python class IntVGram returns one string per input, and split() of the string is the list of ids of the v-grams of that input, in decimal.", "quantifier": "every fitted or loaded model, all inputs, including ones without known symbols", "why_tests_cant": "the claim fails only for inputs without a known symbol, which training data never are", "anchors": ["core/src/main/cpp/interfaces/vgram_builders/int_vgram.cc:IntVGram::transform_to_string", "core/src/main/cpp/interfaces/vgram_builders/int_vgram.cc:IntVGram::transform"]}
{"id": "C97", "title": "fit on a loaded model", "statement": "docs/source/examples.rst: a fitted model loaded from its file is not fitted again; fit leaves its dictionary, frequencies and answers as they were saved. A model that was saved before its fit was complete is trained by fit after loading.", "quantifier": "every fitted text model, every file, all texts and schedules", "why_tests_cant": "needs an interrupted fit, a file and a second fit; the result looks like a fitted model", "anchors": ["core/src/main/cpp/interfaces/vgram_builders/int_vgram.cc:IntVGram::fit", "core/src/main/cpp/interfaces/vgram_builders/string_vgram.cc:StringVGram::fit", "core/src/main/cpp/interfaces/loader.h:load_string_vgram"]}
{"id": "C98", "title": "Every round reads all training data", "statement": "docs/source/vgram_builder.rst: fit makes iter_num iterations on all data; so every training sequence is read in every round.", "quantifier": "all lists of training sequences, all random draws, all numbers of rounds", "why_tests_cant": "the draws are random; with few sequences and many rounds every sequence is usually read sooner or later", "anchors": ["core/src/main/cpp/interfaces/vgram_builders/int_vgram.cc:IntVGram::fit", "core/src/main/cpp/interfaces/vgram_builders/int_vgram.cc:IntVGram::recompute_freqs"]}
{"id": "C99", "title": "The code map is written completely when saving", "statement": "Saving a model writes every symbol of its coder exactly once, in the order of the codes, although coder_to_json takes begin() and end() from two different copies of the map.", "quantifier": "every history of the coder, every order of the nodes in the hash tables, every place of the copies in memory, both conventions for end()", "why_tests_cant": "tests run with one standard library; with the usual ones the undefined behaviour happens to do what is meant", "anchors": ["core/src/main/cpp/interfaces/saver.h:coder_to_json", "core/src/main/cpp/interfaces/seq_coder.cc:SeqCoder::code_map"]}
{"id": "C100", "title": "The random numbers of pair scores are always the same", "statement": "next_dirichlet makes a new random engine in every call, so all calls see the same random numbers. With libstdc++ none of the four gamma variates of a pair is ever rejected: they are a fixed function of the four counts, made of four fixed normal variates, the first of which is not positive and the others not negative. So the call returns, every variate is a positive finite double; the parameters (and means) of the distributions are the counts plus one, but the variate of the pair is at most its count plus 3/4, and those of the alternatives are at least their counts plus 1/2; for counts below 2^48 a variate is from a 32nd of the count plus 1/2 to five times the count plus 3/4.", "quantifier": "all counts of pairs, every accuracy of std::log and std::sqrt within a factor of two, doubles", "why_tests_cant": "tests see that results vary with the counts, not that the sampling is a constant, and cannot try all parameters of the rejection loop", "anchors": ["core/src/main/cpp/algorithm/fast_random.cc:next_dirichlet", "core/src/main/cpp/algorithm/stat_dict_p.cc:StatDictImpl::expand"]}
{"id": "C101", "title": "Numbers that do not fit into an int", "statement": "Loading a file with a size, symbol, frequency or code out of the range of int throws an exception. (False of the code: such integers are silently reduced modulo 2^32, so a file with the size 2147483648 is loaded as a model of size -2147483648, and the conversion of a double out of that range is undefined behaviour. Apart from that undefined case the result, model or exception, is exactly that of loading the file with the reduced numbers; files whose numbers fit are loaded as written, and files written by save contain no double but the probability, so that saved models are never altered by the conversions as long as their numbers are ints.)", "quantifier": "every JSON tree and every byte string, all four loaders, all four save functions", "why_tests_cant": "the files are unbounded; on the tested compiler an undefined conversion looks like a result", "anchors": ["core/src/main/cpp/interfaces/loader.h:Loader::read_dict_json", "core/src/main/cpp/interfaces/loader.h:Loader::read_alphabet", "core/src/main/cpp/interfaces/json.h:from_json"]}
{"id": "C102", "title": "The hash table of an expansion", "statement": "The set of known words of an expansion, a libstdc++ unordered_set with VectorHash, finds exactly the words inserted before, whatever words share hash values or buckets and whenever the table is rehashed; it reads neither out of bounds nor through a null pointer, and an expansion with it gives the same words, frequencies and probability as one that searches a list. VectorHash gives 64-bit values that differ for words differing only in the last symbol, but collides for words as short as two codes below 62.", "quantifier": "every hash function, every rehash policy with at least one bucket, every list of keys, every state of the statistics, every environment and number of slots", "why_tests_cant": "collisions are rare in small examples and a table that mishandles them looks correct; the sequences of insertions and rehashes are unbounded", "anchors": ["core/src/main/cpp/algorithm/vector_hash.h:VectorHash", "core/src/main/cpp/algorithm/stat_dict_p.cc:StatDictImpl::expand"]}
{"id": "C103", "title": "Which pairs an expansion can learn", "statement": "With doubles and the gamma variates of libstdc++, the score of a pair is negative if the pair is rare, 24 (ab+1)(xy+1) <= (2ay+1)(2xb+1) for its contingency table ab, ay, xb, xy, and not negative if it is frequent, 3600 (ay+1)(xb+1) <= (2ab+1)(2xy+1), in spite of all rounding errors. So every word added by an expansion is made up by a pair that is not rare, and a word made up by frequent pairs only is left out only if all slots are used. For any sampler the sign of the score is that of the product of the first and last variate compared with that of the other two, up to a relative margin of 2^-47.", "quantifier": "all contingency tables with counts below 2^31, all sequences parsed since the last reset with fewer than 2^31 pairs, all slots, all std::log with the sign of a logarithm, all std::sqrt within a factor, doubles", "why_tests_cant": "the sign depends on four counts, a fixed sample and some twenty roundings; tests can only try single tables", "anchors": ["core/src/main/cpp/algorithm/stat_dict_p.cc:StatDictImpl::expand", "core/src/main/cpp/algorithm/fast_random.cc:next_dirichlet"]}
{"id": "C104", "title": "The sort of an expansion", "statement": "The comparison of the scores in an expansion is a strict weak order on items with finite scores. With such a comparison the std::sort of libstdc++ (introspective sort with unguarded loops, a heap sort if the recursion gets too deep, then insertion sorts) never leaves the vector, ends, and returns a sorted permutation, so it obeys the law that the theorems on expansions ask of it, and C103 holds of an expansion with the sampler and the sort of libstdc++. With a comparison that holds between equal elements, any 17 or more equal elements make it leave the vector.", "quantifier": "every vector, every comparison that is a strict weak order on its elements", "why_tests_cant": "the unguarded loops are correct only by the median of three and the place of the least element; small vectors never reach them, and the heap sort needs an adversarial vector", "anchors": ["core/src/main/cpp/algorithm/stat_dict_p.cc:StatDictImpl::expand"]}
