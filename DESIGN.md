# Formal model of vgram: design

Source: `/repo` (akhvorov/vgram, C++ core).  Model and proofs: `/verif/lean` (Lean 4.33.0, Mathlib).
The model is hand-written from the source text; the code is never built or run.

## Layout

| path | content |
|---|---|
| `lean/Verif/Model/*.lean` | the model: one definition per C++ function, each citing file and lines |
| `lean/Verif/Spec/*.lean`  | small independent specifications used in the statements |
| `lean/Verif/Proofs/*.lean`| lemmas about the model |
| `lean/Verif/Props/*.lean` | the property theorems `Cnn_…`, each with an `example` showing its hypotheses are satisfiable |
| `properties.jsonl`        | the properties in English |
| `MANIFEST.json`           | property → theorems, status |
| `seeded/LOG.jsonl`        | mutation tests of the theorems |

## Modelling decisions

* **Faults are outcomes.**  Every modelled call returns `M α = Except Fault α`.  Out-of-range `[]`,
  reads past the end in `std::mismatch`, null dereference, iterator invalidation, non-termination,
  and C++ exceptions are distinct `Fault`s.  No access is totalised.
* **Doubles** are an abstract record `FloatOps F`; all expressions are transcribed literally
  against it.  Theorems hold for every such record, or for every record satisfying explicitly listed
  weak laws (stated in each theorem; an instance of the laws is given so they are not vacuous).
  Double variables that only hold integer counts (`power_`, `total_chars_`, totals) are `Int`
  (exact below 2^53).
* **Nondeterminism** (order of `unordered_map` iteration, ties in `std::sort`, `next_dirichlet`,
  `rand()`, the termination signal) is a parameter over which theorems quantify.  (C100, C104: with libstdc++ `next_dirichlet` and `std::sort` are fixed functions.)
* **Ints** are unbounded; the theorems about overflow/packing (C15) state the 32-bit bounds, and C74 bounds every counter by
  the number of symbols read, so the model is exact while that number (plus loaded frequencies) is below 2^31.
* **Aliasing** (`shared_ptr`) is modelled with an explicit heap of statistics dictionaries: the
  published dictionary is a heap index, so `dict_ != builder_->result()` and the fact that training
  mutates a published dictionary are visible.
* **Mutation through `const`** (`search` appends to the dictionary) is modelled by returning the new state.
* Fuel parameters make recursion structural; running out of fuel is the fault `diverge` (or the
  out-of-bounds write that the C++ code would do), never a default.

* **Evaluation order.**  `symb_to_seq[c] = symb_to_seq.size()` style assignments (base_tokenizer.cc:36)
  are unsequenced before C++17 and right-hand-side first from C++17 on.  The order is a `Bool` parameter of
  the tokenizer model; theorems say for which order they hold.
* **JSON.**  `Model/Persist.lean` has the tree (`Json`), what `Saver` puts in and what `Loader` takes out, with
  the exceptions and undefined behaviour of `json.h` as faults.  `Model/JsonText.lean` has the writer and the
  lexer/parser over bytes (a `Char` below 256 per byte, C locale).  The conversion of doubles to and from text
  (grisu2, `strtod`) is abstract there, constrained by `TextLaws`; `Model/Grisu.lean` has grisu2 itself, bit by bit, and C86 derives
  `TextLaws` for binary64 from it, with a correctly rounding `strtod` as the only assumption left; integers are exact and, where it matters, fit in 64 bits
  (`Ints64`).  Opening a file that cannot be opened is reading the empty input, as in the code.
* **`coder_to_json` iterator pair** (saver.h:63) takes `begin()` and `end()` from two temporary copies of the map, which is
  undefined behaviour by the standard.  `Saver.coderJson` is as if both came from one map; `Model/CodeMap.lean` has the two copies as chains of
  nodes in memory, and C99 proves that the result is the same when `end()` points to nothing (libstdc++, libc++) and that it is undefined otherwise.
* **`PyIntVGram::load`, `PyStringVGram::load`** cast an object of the base class down to the binding class, also undefined by the
  standard; the bindings are not modelled.

## Laws assumed of external parts

Each is a structure of hypotheses appearing in the theorem; each has an instance in `Spec/Instances.lean` (extended ordered
field, in particular exact real arithmetic with `Real.log`), so no theorem is vacuous.  They are proved for two more arithmetics:

* rounding arithmetic (`Spec/Rounded.lean`): every result rounded by any monotone function that preserves signs, in particular to the
  nearest 53-bit mantissa, ties to even (`binary 52`), with an unbounded range of exponents.  `Props/Rounded.lean` bounds the effect of rounding (C79); `Props/IeeeBest.lean` does it for binary64 doubles, given a bound on the error of `std::log`.
* IEEE doubles (`Spec/Ieee.lean`): 64 bits per number, results rounded to nearest even, overflow to infinity, gradual underflow, signed
  zeros and NaN.  What is left to assume is `LibraryLaws`.  Every NaN is one NaN (payloads and signs of NaN are not observable in the
  program), integers are converted as if they had at most 64 bits (`clamp`), and `trunc` is only meaningful in the range of `int`.
  `EnvLaws` counts magnitudes in powers of two for this purpose: each computation of a score is shown to stay below `2^1000` and each
  logarithm to be taken of a number from `2^-1000` to `2^1000` (C90).

| law | assumes | used by |
|---|---|---|
| `ScoreLaws` | log scores of the parser exceed the "unset" marker | parses succeed (C06, C09, C20, …) |
| `OrderLaws` | `<` on scores is a strict weak order, addition is monotone | optimality (C10, C65) |
| `EnvLaws` | scores built from positive numbers are comparable numbers; `std::sort` sorts; map iteration visits each entry once; gamma variates are positive | rebuilds (C16–C18, C20–C22, C66, C69) |
| `ProbLaws` | division and `min` of probabilities behave as in an ordered field | C18, C69 |
| `FiniteLaws` | quotients of counters, `min(1/size, p)` and converted integers are not NaN or infinite | C80 |
| `TextLaws` | `strtod` returns the double for every notation of the decimal number that `grisu2` computes for it, and does not overflow below 10^300; the notation itself (`format_buffer`, `append_exponent`) is modelled.  Proved for doubles (C86) | C56, C61, C62 |
| `CorrectlyRounded` | `strtod` returns a double nearest to the decimal number, with its sign; instance `strtodEven` | C86 |
| `LibraryLaws` | doubles: `std::log` of a positive number is at most 1024 in absolute value; `std::sort` sorts items with finite scores; map iteration visits each entry once; four gamma variates are from `2^-160` to `2^160` (proved for libstdc++ by C100); instance `sampleEnv` | C90, C91 |
| `LogLaws`, `SqrtLaw` | doubles: `LogLaw`, `std::log` of a number below 1 is from `2 (1 - 1/x)` to 0, the square of `std::sqrt` is within half of its argument; instances `roughLog`, `plainSqrt` | C100 |
| `LogSign` | doubles: `std::log` of a number from 1 on is not negative, of a number `x` below 1 at most `-(1 - x) / 2^10`; instance `roughLog` | C103 |
| `RealLaws` | exact real arithmetic; sort, iteration, positive variates as above | C67, C68 |

## Not modelled

Memory allocation failure, printing (`verbose_`), threads (the library has none), the pybind11
layer except `isTerminated`, the inside of `strtod`, gamma samplers of other libraries than libstdc++ 13
(an arbitrary positive function except in C100; `Model/Gamma.lean` transcribes `bits/random.h` and `bits/random.tcc`), int overflow where more than 2^31 symbols are read (C74),
the Java/Go parts of the repository.

## Trusted base

Lean kernel; axioms `propext`, `Classical.choice`, `Quot.sound` only (`Verif/Props/Axioms.lean` fails to compile if a
theorem of `VGram.Props` depends on any other); the faithfulness of the transcription in `Verif/Model`; the reading of
the definitions in `Verif/Spec` and of the hypotheses in each theorem.

## How the theorems were tested

`tools/mutants.py` lists realistic bugs as text edits of the model; `tools/mutate.py` applies each to a scratch copy
(outside the repository), rebuilds the property modules of the claims the bug breaks, and reports which theorems no longer
compile.  Because a proof script can break without its statement being affected, `tools/refute.py` goes further: it elaborates the edited
model with the statements only (proofs skipped) and checks a derivation of `False` from the target theorem at a concrete input
(`tools/refutations.py`), so the statement itself excludes the bug.  It also prints the axioms and the skipped proofs
the derivation rests on, so that a refutation resting on anything but the target theorem shows.  `tools/automutate.py` makes edits
without an author (constants changed, comparisons and branches flipped, arguments swapped) and builds everything; each surviving edit was
inspected and either a theorem was added or the edit does not change what the program can be observed to do.
The unit tests of the repository that still match the sources are run on the model, assertion by assertion (`Props/UnitTests.lean`).
`tools/seedlog.py` collects the results in `seeded/LOG.jsonl`.  `tools/manifest.py` writes `MANIFEST.json`.

## Properties

Plan per property (updated as proofs land; final status is in MANIFEST.json).

| id | modelled | how proved |
|---|---|---|
| C01–C03 | `IntDict.init` (sort, prefix stack, three-iterator mismatch) | sorting lemmas; stack invariant "stack = chain of prefixes of the previous word"; interval lemma: between a prefix w and an extension s everything extends w |
| C04, C05 | `search` = libstdc++ lower_bound + parent walk | lower_bound partition point on sorted list; every prefix of the query is on the parent chain of the predecessor |
| C06 | `search`, both parses on arbitrary histories | structural invariant `WF` (parents point down to prefixes, words non-empty) preserved by append; lower_bound's answer's predecessor was compared `<` |
| C07, C08 | `linearLoop` | induction on the suffix |
| C09 | `weightedParse` | table invariant: every filled cell's symbol word ends there and starts at a filled cell |
| C10 | `weightedParse` | DP optimality: table ≥ every segmentation, needs monotone addition |
| C11, C12 | dictionary evolution | frame lemma; C12 is false in general (witness), true when codes arrive in increasing order |
| C13, C14 | `StatDict.parse` | conservation by induction over emitted ids |
| C15 | 64-bit key | BitVec arithmetic |
| C16–C18 | `expand`, `reduce` with oracle sort/hash/random | permutation + prefix-of-sorted-list arguments |
| C19 | code length over ℝ | log-sum inequality; the formula in any arithmetic from C13 (`C19_as_computed`) |
| C20–C22 | builder under admissible training | invariant `Healthy` through accept/expand/reduce; C22 false in general, exact bound proved |
| C23, C24 | builder heap and toggle | frame lemmas |
| C25, C26 | loaded builder | false of the code; negation proved, with the exact behaviour; C26 also in doubles (`C26_marker_doubles_false`) |
| C27–C31 | `SeqCoder` | association-list bijection invariant |
| C32–C36 | tokenizers | byte-level lists; evaluation order of `m[k] = m.size()` is a parameter; C36 false, witness |
| C37–C43 | `IntStreamVGram` | composition of the above; C39, C40, C41, C43 false in general: witnesses and conditional versions |
| C44–C48 | `IntVGram` | fold over schedule oracles; C48 false: witness |
| C49, C50 | string models | composition |
| C51–C56 | `Saver`/`Loader` over a JSON tree; C56 over the written text | round trip; C53, C54, C55 false: proofs of failure |
| C57, C58 | `to_string`, `Encoder` | decision logic; both false on the failing input |
| C59 | text stream models after a reload | composition of C52 with the stream invariants |
| C60 | JSON lexer and parser over arbitrary bytes | measure: every parser step consumes input or pops a frame |
| C61–C64 | writing files | UTF-8 automaton characterised by an independent decoder; round trip by induction over the tree; C63 false |
| C65 | `StatDict.parse` inside training | C10 with the internal weights; these are misaligned with the words: witness |
| C66, C69 | results of `expand`, `reduce` | exact shape lemmas `expand_shape`, `reduce_shape` |
| C67 | value of `reduce`'s decisions | item score = code-length difference when the replacement repeats no id, upper bound otherwise (convexity of x log x); witness for the gap; in any arithmetic a kept word was emitted and has a positive computed score (`C67_kept_score`) |
| C68 | value of `expand`'s decisions | shape lemma and the pair score over ℝ |
| C70 | number of places of a rebuild | `expandSlots` over any ordered field is an integer formula; the rest from `Updated` |
| C71 | when a rebuild happens, over whole histories | a log of rates, ids and text; invariants `Pat`/`Steers` tie the best rate, the counter and `prob_found_` to the log; the minimal probability stays positive |
| C72 | size of the published dictionary without new symbols | invariant: after a rebuild the current and the published dictionary fit, symbols included |
| C73 | `IntStreamVGram::parse` against `alphabet()` and `freqs()` | C10 carried through the coder; total = sum of the frequencies is invariant |
| C74 | all int counters of training and reporting | invariant: counts of one dictionary ≤ symbols it was fed, these add up over the heap |
| C75 | sizes of the working and the published dictionary | invariant with two levels (before/after an expansion), from C70's places |
| C76 | repeated `parse` | false: `lower_bound` stops before a larger appended word and never sees the copies behind it; induction over the number of calls |
| C77, entries in C40 | what every counter counts, across rebuilds | invariant: dictionary `j` has readings of exactly the texts accepted between rebuilds `j` and `j+1`; decoded through the coder |
| C78 | which dictionary `update_dict` shows, with its words and threshold | invariant over the history: number of rebuilds decides who is `result_`, the shown object is never replaced between updates |
| C79 | rounding error of the parse | the laws hold for every monotone sign-preserving rounding (`Spec/Rounded.lean`), so C10/C73 apply to computed scores; computed and exact scores differ by at most `u (n² + 10 n) log(total + size)`; for binary64 doubles sums have relative error `2^-53` (tiny sums are exact) and nothing overflows |
| C80 | finite stored probability; models through the bytes of a file | invariant: every dictionary of the builder and the shown one store a finite probability (`FiniteLaws`); integers of the tree bounded by C74 and C46; then C51/C52 (tree), C61/C64 (writing does not throw) and C62 (reading gives the tree back) are composed |
| C81 | loading arbitrary files | `Spec/Loading.lean` says what a tree describes, without the loader; every step of the loader succeeds exactly on what it describes, and its failures are enumerated; composed with C60 for bytes |
| C82 | parsing with a model from an arbitrary file | the trie of any words without the empty one is well formed (C01, C05), nonnegative frequencies are all `ScoreLaws` need |
| C83 | inner_words_split has no effect | bisimulation of the models made with and without the option |
| C84 | the format documented in docs/source/save.rst | shape of `add_base_info`'s tree, matched entry by entry with `alphabet()` and `freqs()`; uses `Spec/Loading.lean` |
| C85, C87 | digits of doubles (grisu2) | all 64-bit products are exact up to one unit: table rows within half a unit of the power of ten (79 rows and 2098 exponents checked exhaustively), products rounded to the nearest; loop invariants `A = N·unit + rest`, `delta < rest`; distance to the neighbours from `value` (`Spec/Double.lean`) |
| C86 | doubles through text | C85 and strict monotonicity of `value`: every correctly rounding reader returns the double |
| C88 | size of `number_buffer` | case analysis of `format_buffer` with C85's bounds |
| C89 | independence of hash order and of the order of equal scores | two lawful environments with the same numbers (`Spec/Repro.lean`); both candidate lists are permutations of each other, the old words come first and the rest is sorted in one way (`Proofs/Repro.lean`) |
| C90 | IEEE doubles | the bits of the rounded result are found by binary search over the encodings (`nearestBits`), which are monotone in the value; magnitudes of all intermediate results of scores (`Proofs/Ieee.lean`); laws proved, then the main theorems instantiated |
| C91 | patience in doubles | `2^-1073 * 0.8` rounds to `2^-1073`, so `prob_found_` never gets smaller and `-log` of it is bounded |
| C92 | reading JSON | `Spec/Grammar.lean` is RFC 8259 as a relation between bytes and values, without lexer or parser; both directions: induction over the grammar (the parser loop reads every piece), and induction over the loop with the text that still closes the open containers; strings and numbers through their automata; `std::map` filled member by member = sorted list with the last value of each name.  `C92_only_json_false`: what follows the value is not read |
| C93 | writing JSON | the writer's text is read back with the final newline left over (C62), so by C92 it is a value of the grammar |
| C94 | schedule of rebuilds and room for new words in any arithmetic, and in doubles | `Guides`: the members that steer the patience are functions of the list of rates; the double next to 1.3 is above it by less than an `int` can magnify to a unit |
| C95–C98 | promises of README.md and docs/source: integer and text pipeline, `split()`, `fit` after loading, reading all data | composition; Python's `split` on ASCII in `Spec/Readme.lean`; counting draws; all four false as stated, with exact versions |
| C99 | reading the code map when saving | induction over the chain of nodes; sorting pairs with distinct codes forgets their order |
| C100 | the gamma variates of libstdc++ in doubles | the engine is run in the kernel; interval bounds for everything that depends on parameters, `std::log` and `std::sqrt` |
| C101 | numbers of files that are no `int` | `Model/Narrow.lean` is the loader with `static_cast<int>`; relation `UpTo`: both loaders agree on the reduced file, or the cast is undefined and some double does not fit; composed with C80 for saved files |
| C102 | the `unordered_set` of known words | `Model/HashTable.lean` has the nodes and buckets of libstdc++; invariant: the nodes of a bucket are neighbours and its pointer is to the node before them; kept by insertion and by the loop of a rehash |
| C103 | the sign of the score of a pair | C100 bounds the variates; relative error of every operation of a score (`Near`); pairs between `Rare` and `Frequent` can be on either side |
| C104 | the `std::sort` of items | `Model/Sort.lean` has the unguarded loops and the heap of libstdc++; after the partitions a least element is among the first 16, so the last insertion sort stops in the vector |

## Properties that are false of the code

The negation is proved with a concrete witness (or for all inputs), and what does hold is proved as `…_partial`.

| id | why |
|---|---|
| C12 | `search` appends unknown symbols at the end; the dictionary is then unsorted and the same symbol can be appended again |
| C22 | the symbol alphabet can exceed the requested size; exact bound proved |
| C25 | a loaded builder takes all words as its symbol alphabet, so a reduction has no slots for longer words |
| C26 | `min_prob = -1` makes `enough` always true |
| C33, C34, C49, C50 | left-hand-side-first evaluation of base_tokenizer.cc:36 numbers characters from 1 and collides |
| C36 | codes restored from a file can have gaps; the next new code (= size) then collides |
| C39 | `parse`, `alphabet`, `save` before `update_dict` dereference null |
| C40 | `update_dict` appends the new frequencies to the old ones |
| C41 | after accepting a new symbol, saving reads past the frequencies |
| C43 | a const `parse` grows the shared dictionary |
| C48 | an interrupted frequency recomputation is marked complete |
| C51 | surplus frequencies are cut by a reload, so the total and the parses change |
| C53 | `IntVGram::save` writes the stream format, which `load_int_vgram` rejects, for every model |
| C54 | every loaded text model tokenizes by characters |
| C55 | an integer file read as a text stream model has no key "text": undefined behaviour |
| C57 | `to_string` of an empty sequence reads `seq[0]` |
| C58 | `ListEncoder` dereferences `end()` for unseen symbols; `ListDict::parse` output starts with zeros |
| C59 | a gap in the codes (unknown character parsed before a new one was accepted) or an accepted character without a word: the loaded tokenizer takes an unknown character for it |
| C63 | saving truncates the file before it can throw on invalid UTF-8 |
| C65 | initial frequencies are matched to sorted words by unsorted position |
| C67 | the item score uses the old count for every repetition of an id in the replacement |
| C76 | after two missing symbols were parsed in decreasing order, each further parse of the smaller one appends it again |
| C81 | an alphabet entry without "freq" or "vec" is undefined behaviour: `operator[]` on a const json (loader.h:88-90) |
| C82 | a file with an empty word makes `parse` read out of bounds, one with negative frequencies gives ids that do not spell the text; frequencies of an unsorted file are given to other words |
| C87 | grisu2 narrows the interval by one unit on each side and computes with an approximated value, so it misses shorter or nearer digits at the edge |
| C89 | candidates with equal scores compete for the last place, and a text with two splits is judged by the pair the hash table yields first; two short sequences already give different alphabets |
| C84 | files of `IntVGram` lack "fitted" and "freqs_computed" (see C53) |
| C95 | `tokenizer.decode(vgram.transform(...))` of the README takes numbers of words for token codes |
| C96 | an input without known symbols is printed as `-1`, which is not an id |
| C97 | `iter_num` is not stored; `fit` on a model loaded unfitted makes no round, only counts words (out of bounds for new symbols) and declares it fitted |
| C98 | `fit` draws with replacement; a sequence may be read in no round, and counting its words afterwards is out of bounds |
| C99 | `begin()` and `end()` of two copies; where `end()` is a node of the copy, the loop runs past the end of the other one |
| C101 | integers out of the range of `int` are reduced modulo 2^32 without an exception; a double out of that range is undefined behaviour (loader.h:61-93, json.h:1467-1496) |

Two statements were corrected while proving them: C44 (`fit` accepts every sequence `iter_num` times) and C46 (the
frequencies are those counted over the training set with the counts reported by the builder as the parse weights).
