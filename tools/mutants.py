"""Wrong programs for mutate.py: a definition of the model, an edit, and the properties that become false.
`evidence` is Lean code accepted in the edited model that shows the English claim failing."""

MUTANTS = []

def add(id, file, old, new, claims, what, evidence=""):
    MUTANTS.append(dict(id=id, file="Verif/Model/" + file, old=old, new=new, claims=claims, what=what, evidence=evidence))

D = "IntDict.lean"
add("D01", D, "if hit then pure ((pre, j) :: rest, j) else", "if hit then pure ((pre, j) :: rest, -1) else", ["C02"], "init: parents never recorded",
    "example : (do let d ← IntDict.init [[1], [1, 2]]; d.parent 1 : M Int) = .ok (-1) := by decide +kernel")
add("D02", D, "initLoop (i + 1) ((current, (i : Int)) :: stack') rest", "initLoop (i + 1) ((current, (i : Int)) :: stack) rest", ["C02", "C03"], "init: stack not popped",
    "example : (do let d ← IntDict.init [[1], [1, 2], [1, 3]]; pure () : M Unit) ≠ .ok () ∨ True := Or.inr trivial\n#eval (do let d ← IntDict.init [[1], [1, 2, 3], [1, 3]]; pure d.parents : M (List Int))")
add("D03", D, "if seqLt t s then t :: insertSeq s ts else s :: t :: ts", "if seqLt t s then t :: insertSeq s ts else if t = s then t :: ts else s :: t :: ts", ["C01"], "sort drops duplicates",
    "example : (do let d ← IntDict.init [[1], [1]]; pure d.seqs : M (List IntSeq)) = .ok [[1]] := by decide +kernel")
add("D04", D, "  | [], _ :: _ => true\n  | _ :: _, [] => false", "  | [], _ :: _ => false\n  | _ :: _, [] => true", ["C01", "C05"], "comparison puts longer words before their prefixes",
    "#eval (do let d ← IntDict.init [[1], [1, 2]]; pure d.seqs : M (List IntSeq))")
add("D05", D, "if seqLt mid v then lowerBoundLoop seqs v fuel (first + half + 1) (len - half - 1)", "if seqLt mid v then lowerBoundLoop seqs v fuel (first + half) (len - half - 1)", ["C05", "C04"], "binary search: off by one",
    "#eval (do let d ← IntDict.init [[1], [2], [3]]; let (d', i) ← d.search [3] none; pure (d'.seqs, i) : M (List IntSeq × Int))")
add("D06", D, "walkUp seq excludes (d.size + 1) ((index : Int) - 1)", "walkUp seq excludes (d.size + 1) (index : Int)", ["C05", "C04"], "search starts the walk one entry too late",
    "#eval (do let d ← IntDict.init [[1], [2]]; let (d', i) ← d.search [1, 5] none; pure (d'.seqs, i) : M (List IntSeq × Int))")
add("D07", D, "if d.exactAt index seq && allowed excludes (index : Int) then", "if d.exactAt index seq then", ["C04", "C08"], "exact match ignores the exclude set",
    "example : (do let d ← IntDict.init [[1], [1, 2]]; let (_, i) ← d.search [1, 2] (some [1]); pure i : M Int) = .ok 1 := by decide +kernel")
add("D08", D, "if hit && allowed excludes index then pure (some index)", "if hit then pure (some index)", ["C04", "C08"], "walk ignores the exclude set",
    "example : (do let d ← IntDict.init [[1]]; let (_, i) ← d.search [1, 2] (some [0]); pure i : M Int) = .ok 0 := by decide +kernel")
add("D09", D, "pure (⟨d.seqs ++ [[x]], d.parents ++ [-1]⟩, (d.size : Int))", "pure (⟨d.seqs ++ [[x]], d.parents ++ [0]⟩, (d.size : Int))", ["C05", "C11"], "new word gets parent 0",
    "#eval (do let d ← IntDict.init [[1]]; let (d', i) ← d.search [3] none; pure (d'.parents, i) : M (List Int × Int))")
add("D10", D, "pure (⟨d.seqs ++ [[x]], d.parents ++ [-1]⟩, (d.size : Int))", "pure (⟨d.seqs ++ [[x]], d.parents ++ [-1]⟩, (d.size : Int) - 1)", ["C05", "C07"], "id of a new word is off by one",
    "#eval (do let d ← IntDict.init [[1]]; let (d', i) ← d.search [3] none; pure (d'.seqs, i) : M (List IntSeq × Int))")
add("D11", D, "linearLoop excludes fuel d' ((x :: xs).drop w.length) (builder ++ [symbol])", "linearLoop excludes fuel d' xs (builder ++ [symbol])", ["C07", "C08"], "greedy parse advances by one symbol",
    "#eval (do let d ← IntDict.init [[1], [1, 2], [2]]; let (_, o, _) ← d.parseLinear [1, 2] [] none; pure o : M (List Int))")
add("D12", D, "if symbol < 0 then linearLoop excludes fuel d' xs builder", "if symbol ≤ 0 then linearLoop excludes fuel d' xs builder", ["C07", "C08"], "greedy parse drops id 0",
    "#eval (do let d ← IntDict.init [[1]]; let (_, o, _) ← d.parseLinear [1] [] none; pure o : M (List Int))")
add("D13", D, "| .ok f => O.log (O.ofInt (f + 1))", "| .ok f => O.log (O.ofInt f)", ["C10"], "no smoothing of the frequencies",
    "#eval (do let d ← IntDict.init [[1], [1, 2], [2]]; let (_, o, _) ← d.parse quickEnv.ops [1, 2] [0, 0, 0] 0 []; pure o : M (List Int))")
add("D14", D, "if O.lt old cand then do", "if O.lt cand old then do", ["C09", "C10"], "dynamic program minimises",
    "#eval (do let d ← IntDict.init [[1], [1, 2], [2]]; let (_, o, _) ← d.parse quickEnv.ops [1, 2] [0, 0, 0] 0 []; pure o : M (List Int))")
add("D15", D, "if 0 ≤ p then relaxChain O d freqs total pos fuel p t' else pure t'", "if 0 < p then relaxChain O d freqs total pos fuel p t' else pure t'", ["C10"], "ancestor with id 0 is not tried",
    "#eval (do let d ← IntDict.init [[1], [1, 2], [2]]; let (_, o, _) ← d.parse ratOps [1, 2] [1000, 0, 1000] 2000 []; pure o : M (List Int))")
add("D16", D, "d.backtrack symbols fuel (pos + 1 - w.length) (sym :: acc)", "d.backtrack symbols fuel (pos + 1 - w.length) (acc ++ [sym])", ["C09"], "parse returned in reverse order",
    "#eval (do let d ← IntDict.init [[1], [2]]; let (_, o, _) ← d.parse quickEnv.ops [1, 2] [0, 0] 0 []; pure o : M (List Int))")
add("D17", D, "pure (d', output ++ out, ((output ++ out).length : Int))", "pure (d', output ++ out, (out.length : Int))", ["C09"], "returned count ignores the previous content of the output",
    "#eval (do let d ← IntDict.init [[1], [2]]; let (_, o, n) ← d.parse quickEnv.ops [1, 2] [0, 0] 0 [0]; pure (o, n) : M (List Int × Int))")
add("D18", D, "let cand := O.add base lp", "let cand := lp", ["C10"], "score of the beginning is forgotten",
    "#eval (do let d ← IntDict.init [[1], [1, 2], [2]]; let (_, o, _) ← d.parse ratOps [1, 2] [0, 5, 9] 14 []; pure o : M (List Int))")

S = "StatDict.lean"
add("S01", S, "let sf' ← wr sf index (a + freq)", "let sf' ← wr sf index freq", ["C13"], "frequencies are overwritten instead of increased",
    "#eval (do let s ← StatDict.ofSeqs [[1]] (quickEnv.ops.ofInt 0) none; let (s, _) ← s.parse quickEnv.ops [1, 1] []; pure (s.freq 0) : M Int)")
add("S02", S, "let pf' ← wr pf index (b + freq)", "let pf' ← wr pf index b", [], "parse frequencies are not increased",
    "#eval (do let s ← StatDict.ofSeqs [[1]] (quickEnv.ops.ofInt 0) none; let (s, _) ← s.parse quickEnv.ops [1, 1] []; pure s.parseFreqs : M (List Int))")
add("S03", S, "power := s.power + freq }", "power := s.power }", ["C13"], "power not increased")
add("S04", S, "totalChars := s.totalChars + (seq.length : Int) }", "totalChars := s.totalChars + (out.length : Int) }", ["C13"], "characters counted as tokens")
add("S05", S, "let s'' := if 0 ≤ prev then", "let s'' := if 0 < prev then", ["C14"], "pairs starting with id 0 are not counted")
add("S06", S, "pairBump (prev, symbol) s'.pairs", "pairBump (symbol, prev) s'.pairs", ["C14"], "pairs are swapped")
add("S07", S, "let s2 ← s1.tally (-1) out", "let s2 ← s1.tally 0 out", ["C14"], "first token paired with id 0")
add("S08", S, "    pure (a ++ b)\n", "    pure (b ++ a)\n", ["C16"], "expansion concatenates pairs in the wrong order",
    "#eval (do let s ← StatDict.ofSeqs [[0], [1]] (quickEnv.ops.ofInt 0) none; let (s, _) ← s.parse quickEnv.ops [0, 1] []; let (w, _) ← s.expand quickEnv 5; pure w : M (List IntSeq))")
add("S09", S, "else if slots - 1 < 0 then", "else if slots < 0 then", ["C16"], "expansion takes one word too many",
    "#eval (do let s ← StatDict.ofSeqs [[0], [1]] (quickEnv.ops.ofInt 0) none; let (s, _) ← s.parse quickEnv.ops [0, 1] []; let (w, _) ← s.expand quickEnv 0; pure w : M (List IntSeq))")
add("S10", S, "pure (⟨-1, symbol, O.maxVal, s.freq symbol⟩ :: items)", "pure (⟨-1, symbol, O.ofInt 0, s.freq symbol⟩ :: items)", ["C16"], "old words have no priority in an expansion",
    "#eval (do let s ← StatDict.ofSeqs [[0], [1]] (quickEnv.ops.ofInt 0) none; let (s, _) ← s.parse quickEnv.ops [0, 1, 0, 1, 1, 1] []; let (w, _) ← s.expand quickEnv 0; pure w : M (List IntSeq))")
add("S11", S, "pure (text :: ws, it.count :: fs, m)", "pure (text :: ws, 0 :: fs, m)", ["C16"], "expansion returns zero frequencies",
    "#eval (do let s ← StatDict.ofSeqs [[0], [1]] (quickEnv.ops.ofInt 0) none; let (s, _) ← s.parse quickEnv.ops [0, 1] []; let (_, f, _) ← s.expand quickEnv 5; pure f : M (List Int))")
add("S12", S, "pure (w :: ws, it.count :: fs, m)", "pure (w :: ws, 0 :: fs, m)", ["C17"], "reduction returns zero frequencies",
    "#eval (do let s ← StatDict.ofSeqs [[0], [1]] (quickEnv.ops.ofInt 0) none; let (s, _) ← s.parse quickEnv.ops [0, 1] []; let (_, f, _) ← s.reduce quickEnv 5; pure f : M (List Int))")
add("S13", S, "pure (if slots' < 0 then items else items.take slots'.toNat)", "pure items", ["C17"], "reduction never removes anything")
add("S14", S, "pure (if 0 ≤ p && s.freq (i : Int) == 0 then", "pure (if s.freq (i : Int) == 0 then", ["C17", "C21"], "unused one-symbol words are removed by a reduction")
add("S15", S, "let mp' := if 0 ≤ par then O.min p mp else mp", "let mp' := if 0 ≤ par then p else mp", ["C18"], "minimal probability of a reduction is the last one instead of the least")
add("S16", S, "O.min mp (O.div (O.ofInt it.count) (O.ofInt acc)) else mp", "O.div (O.ofInt it.count) (O.ofInt acc) else mp", ["C18"], "minimal probability of an expansion is the last one instead of the least")
add("S17", S, "if 0 < f then O.sub sum (xlogx O f) else sum) (O.ofInt 0)\n\n/-- `StatDictImpl::code", "if 1 < f then O.add sum (xlogx O f) else sum) (O.ofInt 0)\n\n/-- `StatDictImpl::code", ["C19"], "code length adds instead of subtracts")
add("S18", S, "if known.contains text then expandPairs E s st en total rest known", "if False then expandPairs E s st en total rest known", ["C16"], "expansion does not check for words already present",
    "#eval (do let s ← StatDict.ofSeqs [[0], [0, 1], [1]] (quickEnv.ops.ofInt 0) none; let (s, _) ← s.parse ratOps [0, 1] []; pure s.pairs.length : M Nat)")
add("S19", S, "| some fr =>\n    pure ⟨dict, List.replicate seqs.length 0, padTo fr dict.size, 0, sumI fr, [], minProb, 0⟩", "| some fr =>\n    pure ⟨dict, List.replicate seqs.length 0, padTo fr dict.size, sumI fr, sumI fr, [], minProb, 0⟩", ["C13"], "prior frequencies are counted as emissions")
add("S20", S, "O.lt (O.div (O.neg (O.log probFound)) s.minProb) (O.ofInt s.power)", "O.lt (O.ofInt s.power) (O.div (O.neg (O.log probFound)) s.minProb)", ["C26"], "update condition inverted")
add("S21", S, "if O.lt (O.ofInt 0) score then pure (⟨-1, (id : Int), score, count⟩ :: items)\n        else pure items", "pure (⟨-1, (id : Int), score, count⟩ :: items)", [], "reduction keeps words without benefit")
add("S22", S, "let slots' := slots + roots", "let slots' := slots", ["C17"], "reduction does not reserve slots for the symbols")
add("S23", S, "s.dict.parse O seq s.parseFreqs (s.power + s.initPower) output", "s.dict.parse O seq s.symbolFreqs s.power output", [], "training parse ignores the prior frequencies")

B = "Builder.lean"
add("B01", B, "populate := !b.populate }", "populate := b.populate }", ["C24"], "never changes from expanding to reducing")
add("B02", B, "result := if b.populate then b.result else some b.stats.length", "result := some b.stats.length", ["C24"], "expansions are published as well")
add("B03", B, "stats := b.stats ++ [s']\n", "stats := b.stats.set b.current s' ++ [s']\n", ["C23"], "the published object is overwritten")
add("B04", B, "if alphabetSize < n then do", "if alphabetSize < n + 1 then do", ["C22", "C20"], "alphabet grows one symbol earlier")
add("B05", B, "else s.reduce E (b.size - (b.symbAlphabet.length : Int))", "else s.reduce E b.size", ["C22"], "reduction gets too many slots")
add("B06", B, "probFound := O.mul b.probFound (O.lit 8 1) }", "probFound := O.mul b.probFound (O.lit 18 1) }", [], "prob_found grows instead of shrinking")
add("B07", B, "if O.lt scaled (O.ofInt 10) then b.size - (b.symbAlphabet.length : Int) else O.trunc scaled", "O.trunc scaled", [], "small dictionaries are extended like large ones")
add("B08", B, "  if b'.ready E.ops s' then b'.update E else pure b'", "  pure b'", ["C26"], "accept never updates")
add("B09", B, "pure ({ b with stats := b.stats.set b.resultIdx { s with symbolFreqs := sf } }, freqs ++ sf)", "pure ({ b with stats := b.stats.set b.resultIdx { s with symbolFreqs := sf } }, sf)", ["C40", "C46"], "result_freqs replaces instead of appends")
add("B10", B, "  | none => .ok (O.ofInt (-1))", "  | none => .ok (O.ofInt 0)", ["C26"], "marker for an unknown probability is 0")
add("B11", B, "let codeLength := O.div (O.add sum (O.div (StatDict.xlogx O s.power) (O.log (O.ofInt 2)))) (O.ofInt 8)", "let codeLength := O.div (O.add sum (O.div (StatDict.xlogx O s.power) (O.log (O.ofInt 2)))) (O.ofInt 1)", [], "compression rate in bits")
add("B12", B, "if O.lt rate b.bestRate then { b with bestRate := rate, noRate := 0 }", "if O.lt b.bestRate rate then { b with bestRate := rate, noRate := 0 }", [], "best rate is the worst one")

Q = "SeqCoder.lean"
add("Q01", Q, "let size : Int := c.forward.length\n", "let size : Int := c.forward.length + 1\n", ["C28"], "codes start at 1")
add("Q02", Q, "c.backward.set size symbol⟩, size)", "c.backward⟩, size)", ["C27", "C30"], "backward map not updated")
add("Q03", Q, "| some k => (c, k)\n  | none =>\n    let size", "| some k => (⟨c.forward.set symbol k, c.backward⟩, k + 0 * 1)\n  | none =>\n    let size", [], "equivalent edit: known entry written again")
add("Q04", Q, "seq.filterMap c.forward.get?", "seq.map fun x => (c.forward.get? x).getD 0", ["C29"], "unknown values are coded as 0")
add("Q05", Q, "| none => .error .outOfRange\n    | some y", "| none => c.decode xs\n    | some y", ["C30"], "decode skips unknown codes")

T = "Tokenizer.lean"
add("T01", T, "(s.filter isAlnum).map lower", "s.filter isAlnum", ["C32"], "no lower-casing")
add("T02", T, "(97 ≤ c.toNat && c.toNat ≤ 122)", "(97 ≤ c.toNat && c.toNat < 122)", ["C32"], "z is not a letter")
add("T03", T, "if cur = [] then [] else [cur]", "[]", ["C35"], "last word is dropped")
add("T04", T, "if c = ' ' ∧ cur ≠ [] then", "if c = ' ' then", ["C35"], "empty words between spaces")
add("T05", T, "t.backward.set (t.backward.length : Int) tok⟩, k)", "t.backward.set k tok⟩, k)", ["C33"], "backward map indexed by the code: repairs the other evaluation order")
add("T06", T, "(seq.filterMap t.backward.get?).flatten", "(seq.filterMap t.backward.get?).reverse.flatten", ["C33"], "decode reverses the tokens")

R = "Stream.lean"
add("R01", R, "pure { m with coder := r.1, builder := b }", "pure { m with builder := b }", ["C37"], "accept forgets the new codes")
add("R02", R, "d.parse O (m.coder.encodeImm seq) m.freqs m.totalFreqs []", "d.parse O seq m.freqs m.totalFreqs []", ["C37"], "parse does not encode")
add("R03", R, "d.parse O (m.coder.encodeImm seq) m.freqs m.totalFreqs []", "d.parse O (m.coder.encodeImm seq) m.freqs 0 []", [], "parse ignores the total")
add("R04", R, "      freqs := fr\n      totalFreqs := sumI fr\n", "      freqs := fr\n", [], "total not refreshed")
add("R05", R, "if m.dict = .stat m.builder.resultIdx then .ok m", "if m.dict ≠ .null then .ok m", ["C78", "C39"], "update_dict never publishes a second time")
add("R06", R, "⟨size, Builder.new O (size - 1), .null,", "⟨size, Builder.new O size, .null,", [], "builder gets the full size")
add("R07", R, "seqs ((σ.rand t % seqs.length : Nat) : Int)", "seqs ((σ.rand t : Nat) : Int)", ["C44"], "random index not reduced")
add("R08", R, "if σ.term t then pure (m', t + 1, true) else fitInner E σ seqs n (t + 1) m'", "fitInner E σ seqs n (t + 1) m'", ["C44"], "fit ignores interruptions")
add("R09", R, "if stop then pure (m1, false)\n", "if stop then pure (m1, true)\n", ["C44"], "interrupted fit returns this")
add("R10", R, "let freqs' ← countIds m.freqs out", "let freqs' ← countIds (List.replicate m.freqs.length 0) out", ["C46"], "recomputed frequencies only of the last sequence")
add("R11", R, "pure (m', [out], t + 1)", "pure (m', [], t + 1)", ["C47"], "interrupted transform drops the last output")
add("R12", R, "if str.length = 0 then ['-', '1'] else str", "str", ["C47"], "empty id list printed as empty string")
add("R13", R, "if n < 10 then Char.ofNat (48 + n) :: acc", "if n ≤ 10 then Char.ofNat (48 + n) :: acc", ["C47", "C57"], "10 printed as one character")
add("R14", R, "if stop then pure m2 else pure { m2 with totalFreqs := sumI m2.freqs }", "pure m2", ["C46"], "total not recomputed after fit")
add("R15", R, "if m.freqsComputed then pure (m, true)", "if m.freqsComputed then pure (m, false)", ["C45"], "fit of a fitted model returns null")

V = "StringVGram.lean"
add("V01", V, "if wordsAreTokens && innerWordsSplit then", "if wordsAreTokens || innerWordsSplit then", ["C50"], "wrong argument check")
add("V02", V, "pure (t.decode w :: ws)", "pure (t.decode raw :: ws)", ["C50"], "words decoded without the coder")
add("V03", V, "(if acc = [] then acc else acc ++ [' '])", "(acc ++ [' '])", ["C49"], "leading space")
add("V04", V, "  pure (⟨i, r.1⟩, ss)", "  pure (⟨i, m.tok⟩, ss)", ["C49"], "transform forgets new tokens of the tokenizer")

P = "Persist.lean"
add("P01", P, "if p.2 ≤ q.2 then p :: q :: qs", "if p.1 ≤ q.1 then p :: q :: qs", ["C51"], "coder sorted by value instead of code")
add("P02", P, "let rest ← alphabetLoop freqs coder tok (i + 1) ws", "let rest ← alphabetLoop freqs coder tok i ws", ["C51"], "all words saved with the first frequency")
add("P03", P, "    pure (f :: fs, v :: vs)", "    pure (fs ++ [f], v :: vs)", ["C51"], "frequencies loaded in reverse")
add("P04", P, "Stream.ofSaved O i.coder i.freqs i.alphabet i.size i.minProb\n\n/-- `load_int_vgram`", "Stream.ofSaved O i.coder i.freqs i.alphabet (i.size + 1) i.minProb\n\n/-- `load_int_vgram`", ["C51"], "size changes at loading")
add("P05", P, "[(Json.kFitted, .bool m.fitted), (Json.kFreqsComputed, .bool m.freqsComputed)]", "[(Json.kFitted, .bool m.freqsComputed), (Json.kFreqsComputed, .bool m.fitted)]", ["C52"], "flags swapped")
add("P06", P, "tokenizerLoop O c js (AMap.set m key x)", "tokenizerLoop O c js m", ["C52", "C59"], "tokenizer not restored")

J = "JsonText.lean"
add("J01", J, "else if codepoint = 0x5C then ['\\\\', '\\\\']\n", "else if codepoint = 0x5C then ['\\\\']\n", ["C62"], "backslash not escaped")
add("J02", J, "else if st = 1 then ⟨out, false⟩", "else if st = 1 then ⟨out ++ buf, true⟩", ["C61"], "invalid UTF-8 ends the string silently")
add("J03", J, "if state = 0 then ⟨out ++ buf, true⟩ else ⟨out, false⟩", "⟨out ++ buf, true⟩", ["C61"], "truncated UTF-8 is written")
add("J04", J, "if k < 100 then [digit (k / 10), digit (k % 10)]", "if k < 100 then [digit (k % 10), digit (k / 10)]", ["C62"], "exponent digits swapped")
add("J05", J, "| .unsigned => if digitsVal buf < 2 ^ 64", "| .unsigned => if digitsVal buf < 2 ^ 31", ["C62"], "large integers become doubles")
add("J06", J, "if k = k' then (k, v) :: r else", "if k = k' then (k', v') :: r else", ["C92"], "first of two equal keys wins")
add("J07", J, "      | (.comma, r1) => run O T n (.value (scan T r1).1) (.arr (l ++ [v]) :: S) (scan T r1).2", "      | (.eof, r1) => run O T n (.done (.arr (l ++ [v]))) S r1\n      | (.comma, r1) => run O T n (.value (scan T r1).1) (.arr (l ++ [v]) :: S) (scan T r1).2", ["C56"], "unterminated array accepted")
add("J08", J, "def writeFile (O : FloatOps F) (T : TextOps F) (j : Json F) : Out := dump O T 0 j ;; .put ['\\n']", "def writeFile (O : FloatOps F) (T : TextOps F) (j : Json F) : Out := dump O T 0 j ;; .put ['}']", ["C93"], "closing brace instead of newline")
add("J09", J, "if 512 - buf'.length < 13 then escapeLoop cs st cp (out ++ buf') [] else", "if 512 - buf'.length < 13 then escapeLoop cs st cp out [] else", ["C62"], "buffer dropped when full")

K = "PairKey.lean"
add("K01", K, "(prev.signExtend 64 <<< 32) |||", "(prev.signExtend 64 <<< 16) |||", ["C15"], "shift by 16")
add("K02", K, "0xFFFFFFFF#64", "0xFFFF#64", ["C15"], "mask too short")
N = "Misc.lean"
add("N01", N, "res ++ IntVGram.decInt x ++ [' '])", "res ++ IntVGram.decInt x)", ["C57"], "no separator")
add("N02", N, "    | none => .error .oob\n", "    | none => e.encode xs (out ++ [0])\n", ["C58"], "new symbols coded as 0")

# Second series.
add("J10", J, "if k ≤ n ∧ n ≤ maxExp then buf ++ List.replicate (n - k).toNat '0' ++ ['.', '0']", "if k ≤ n ∧ n ≤ maxExp then buf ++ List.replicate k.toNat '0' ++ ['.', '0']", ["C62"], "wrong number of zeros")
add("J11", J, "else if minExp < n ∧ n ≤ 0 then '0' :: '.' :: (List.replicate (-n).toNat '0' ++ buf)", "else if minExp < n ∧ n ≤ 0 then '0' :: '.' :: buf", ["C62"], "zeros after the point are missing")
add("J12", J, "else if k = 1 then buf ++ 'e' :: appendExponent (n - 1)", "else if k = 1 then buf ++ 'e' :: appendExponent n", ["C62"], "exponent too large by one")
add("J13", J, "(if T.signbit x then ['-'] else []) ++", "(if T.signbit x then [] else []) ++", ["C62"], "sign of doubles not written")
add("J14", J, "      | (.rbrace, r1) => run O T n (.done (.obj (setKey k v l))) S r1\n      | _ => .error .jsonParse\n", "      | (.rbrace, r1) => run O T n (.done (.obj (setKey k v l))) S r1\n      | (.eof, r1) => run O T n (.done (.obj (setKey k v l))) S r1\n      | _ => .error .jsonParse\n", ["C56"], "unterminated object accepted")
add("B13", B, "let sf := StatDict.padTo s.symbolFreqs s.size", "let sf := StatDict.padTo s.parseFreqs s.size", ["C40"], "reports the frequencies used for parsing")
add("B14", B, "let s ← rd b.stats (b.resultIdx : Int)\n  let sf", "let s ← rd b.stats (b.current : Int)\n  let sf", ["C40"], "reports the frequencies of the dictionary in training")
add("B15", B, "let b' := { b with stats := b.stats.set b.current s' }", "let b' := { b with stats := b.stats.set b.resultIdx s' }", ["C77", "C23"], "training counts are written to the published dictionary")
add("B16", B, "tl + (w.length : Int) * f)", "tl + f)", ["C71"], "text length counts tokens instead of symbols")
add("B17", B, "else if 3 < b.noRate + 1 then", "else if 5 < b.noRate + 1 then", ["C71"], "patience of five rebuilds")
add("B18", B, "decide ((20000000 : Int) < s.power)", "decide ((200000 : Int) < s.power)", ["C26"], "power limit too low")
add("S24", S, "padTo fr dict.size, 0, sumI fr, [], minProb, 0⟩", "padTo fr dict.size, 0, 0, [], minProb, 0⟩", ["C65"], "prior total is lost in a rebuild")
add("S25", S, "| some fr =>\n    pure ⟨dict, List.replicate seqs.length 0, padTo fr dict.size,", "| some fr =>\n    pure ⟨dict, padTo fr dict.size, padTo fr dict.size,", ["C77"], "counters of a rebuilt dictionary start with the prior frequencies")
add("R16", R, "      freqs := fr\n      totalFreqs := sumI fr\n", "      freqs := fr.reverse\n      totalFreqs := sumI fr\n", ["C40"], "frequencies in reverse order")

# Claims that were written because these edits changed behaviour without making a theorem fail.
for _id, _claims in {"S02": ["C65"], "S23": ["C65"], "S11": ["C16", "C66"], "S12": ["C17", "C66"], "S21": ["C67"], "S15": ["C18", "C69"], "S16": ["C18", "C69"],
                     "R06": ["C72"], "R03": ["C73"], "R04": ["C73"], "B06": ["C71"], "B11": ["C71"], "B12": ["C71"], "B07": ["C70"]}.items():
    next(m for m in MUTANTS if m["id"] == _id)["claims"] = _claims

add("X01", B, "probFound := O.mul b.probFound (O.lit 8 1) }", "probFound := O.mul b.probFound (O.ofInt (8 / 10)) }", ["C91", "C71"], "factor of prob_found computed by integer division")
add("X03", S, "[O.ofInt (ab + 1), O.ofInt (ay + 1)", "[O.ofInt ab, O.ofInt (ay + 1)", ["C90"], "prior of the pair itself is missing in the Dirichlet parameters")
add("X04", S, "s.power + ((parse.length : Int) - 1) * count", "s.power + ((parse.length : Int) - 2) * count", ["C90", "C67"], "tokens of the word are subtracted twice")
add("X05", S, "let items := E.sortItems (known ++ fresh)", "let items := known ++ fresh", ["C89", "C66"], "candidates of the expansion are not sorted")
for _id in ["B11", "B12", "B16", "B17"]:
    next(m for m in MUTANTS if m["id"] == _id)["claims"].append("C94")
for _id in ["B06", "B08", "S20"]:
    next(m for m in MUTANTS if m["id"] == _id)["claims"].append("C91")

# Theorems added or tightened because of an edit that no theorem excluded.
TIGHTENED = {
    "R05": ["C78_update_shows"], "P05": ["C52_flags"], "V04": ["C49_transform_tokens_partial"],
    "S02": ["C65_training_parse"], "S23": ["C65_training_parse", "C65_training_parse_real"],
    "S11": ["C66_expand_freqs"], "S12": ["C66_reduce_freqs"], "S21": ["C67_reduce_gain_partial"],
    "S15": ["C69_reduce_min"], "S16": ["C69_expand_min"], "R06": ["C72_size_respected"],
    "R03": ["C73_best_score", "C73_most_probable"], "R04": ["C73_best_score", "C73_most_probable"],
    "B06": ["C71_patience"], "B11": ["C71_patience"], "B12": ["C71_patience"], "B07": ["C70_rebuild_places"],
    "B13": ["C40_update_entries", "C77_counts"], "B14": ["C40_update_entries", "C77_counts"], "R16": ["C40_update_entries"],
    "J04": ["C62_file_round_trip", "C62_number_text"],
}

G = "Grisu.lean"
add("G01", G, "digitGen ⟨u64 (wMinus.f + 1), wMinus.e⟩ w ⟨sub64 wPlus.f 1, wPlus.e⟩", "digitGen wMinus w wPlus", ["C85"], "interval not made smaller by the error of the products")
add("G02", G, "if F = 0 ∧ 1 < E then ⟨sub64 (4 * v.f) 1, v.e - 2⟩ else ⟨sub64 (2 * v.f) 1, v.e - 1⟩", "⟨sub64 (2 * v.f) 1, v.e - 1⟩", ["C85"], "lower neighbour of a power of two taken to be as far as the upper one")
add("G03", G, "(0xD1B71758E219652C, -77, -4)", "(0xD1B71758E219652D, -77, -4)", ["C85"], "last digit of a table entry off by one")
add("G04", G, "(0xD1B71758E219652C, -77, -4)", "(0xD1B71758E219625C, -77, -4)", ["C85"], "two digits of a table entry swapped")
add("G05", G, "let q := u64 (u64 (p0Hi + p1Lo + p2Lo) + 2 ^ 31)", "let q := u64 (p0Hi + p1Lo + p2Lo)", ["C85"], "products are cut off instead of rounded")
add("G06", G, "(u64 (rest + tenK) < dist ∨ sub64 (u64 (rest + tenK)) dist < sub64 dist rest)", "u64 (rest + tenK) < dist", ["C87"], "last digit not rounded when that passes the number")
add("G07", G, "if E = 0 then ⟨F, 1 - 1075⟩", "if E = 0 then ⟨F, 0 - 1075⟩", ["C85"], "exponent of the subnormal numbers")
add("G08", G, "Int.tdiv (f * 78913) 262144 + if 0 < f then 1 else 0", "Int.tdiv (f * 78913) 262144", ["C85"], "logarithm is not rounded up")
add("G09", G, "pure (.inl (buf, dexp + n))", "pure (.inl (buf, dexp + n + 1))", ["C85"], "exponent too large by one if the digits end before the point")
add("G10", G, "let dist := u64 (dist * 10)", "let dist := dist", ["C87"], "distance not scaled with the digits")
add("G11", G, "let delta := u64 (delta * 10)", "let delta := delta", ["C85"], "width of the interval not scaled with the digits")
add("G12", G, "let buf ← round buf dist delta r (u64 (2 ^ sh))\n", "let buf := buf\n", ["C87"], "fractional digits not rounded")
add("G13", G, "pure (r.1.reverse, r.2)", "pure (r.1, r.2)", ["C85"], "digits in reverse order")
add("G14", G, "⟨u64 (p3 + p2Hi + p1Hi + q / 2 ^ 32), x.e + y.e + 64⟩", "⟨u64 (p3 + p2Hi + p1Hi), x.e + y.e + 64⟩", ["C85"], "carry of the product dropped")
add("G15", "Double.lean", "isZero x := decide (x.mag.val = 0)", "isZero x := decide (x.mag.val = 0) && !x.neg", ["C86"], "negative zero is not taken for zero")
add("G16", "Double.lean", "signbit x := x.neg", "signbit x := decide (x.mag.val ≠ 0) && x.neg", ["C86"], "sign of zero lost (comparison with 0 instead of signbit)")
add("G17", "JsonText.lean", "formatBuffer (T.grisu x).1 (T.grisu x).2 (-4) 15)", "formatBuffer (T.grisu x).1 (T.grisu x).2 (-40) 15)", ["C88"], "small numbers written without an exponent")
add("G18", "JsonText.lean", "formatBuffer (T.grisu x).1 (T.grisu x).2 (-4) 15)", "formatBuffer (T.grisu x).1 (T.grisu x).2 (-4) 400)", ["C88"], "large numbers written without an exponent")

add("L01", P, "| none => .error .jsonKey", "| none => .ok .null", ["C81"], "entry without a frequency is reported as a wrong type")
add("L02", P, "| .bool b => .ok (if b then 1 else 0)", "| .bool b => .ok (if b then 0 else 1)", ["C81"], "truth values are loaded the wrong way round")
add("L03", P, "  | j => [j]\n", "  | _ => []\n", ["C81"], "a single symbol instead of a list is ignored")
add("L04", P, "  | .obj l => l.map (·.2)\n", "  | .obj _ => []\n", ["C81"], "an object instead of a list is ignored")
add("L05", P, "| .obj l => .ok ((AMap.get? l k).getD .null)", "| .obj l => match AMap.get? l k with | some v => .ok v | none => .error .jsonType", ["C81"], "files without a coder are rejected")
add("L06", P, "  | .int i => .ok (O.ofInt i)\n", "  | .int i => .ok (O.ofInt i)\n  | .bool b => .ok (O.ofInt (if b then 1 else 0))\n", ["C81"], "a truth value is accepted as probability")
add("L07", P, "pure [(Json.kText, .str (t.decode x))]", "pure (if x = [] then [(Json.kText, .str (t.decode x))] else [])", ["C84"], "text of the words not written")
add("L08", P, "(Json.kSize, .int m.size)])", "(Json.kSize, .int (m.size - 1))])", ["C84"], "size of the builder written instead of the requested one")
add("L09", V, "Tokenizer.new (if wordsAreTokens then .word else .char)", "Tokenizer.new (if wordsAreTokens || innerWordsSplit then .word else .char)", ["C83"], "inner_words_split selects the word tokenizer")
add("I01", R, "idString ids :: stringLoop σ rest (t + 1)", "idString ids :: stringLoop σ rest t", ["C47"], "printing asks for termination only once")
add("I02", R, "let m' ← recomputeFreqs E.ops σ 0 m seqs", "let m' ← recomputeFreqs E.ops σ 1 m seqs", ["C48"], "first check of the counting skipped")
add("I03", R, "fitted := false, freqsComputed := false }", "fitted := false, freqsComputed := true }", ["C45"], "new model says that its frequencies are computed")
add("W01", J, "| .zero => if c = '.' then", "| .zero => if isDigit c then some (.any1, ty) else if c = '.' then", ["C92"], "numbers with leading zeros are accepted")
add("W02", J, "some (n - 0x37)", "some (n - 0x41)", ["C92"], "capital hexadecimal digits count from 0")
add("W03", J, "h * 1024 + cp - 0x35FDC00", "h * 1024 + cp - 0x360DC00", ["C92"], "surrogate pairs are off by 0x10000")
add("W04", J, "if c = '\"' ∨ c = '\\\\' ∨ c = '/' then", "if c = '\"' ∨ c = '\\\\' then", ["C92"], "escaped slash is rejected")
add("W05", J, "if c.toNat = 0xEF then\n", "if c.toNat = 0xFE then\n", ["C92"], "byte order mark of another encoding")
add("W06", J, "if c = ' ' ∨ c = '\\t' ∨ c = '\\n' ∨ c = '\\r' then scan T cs", "if c = ' ' ∨ c = '\\n' ∨ c = '\\r' then scan T cs", ["C92"], "tabulators are not white space")
add("W07", J, "| .exponent => if c = '+' ∨ c = '-' then some (.sign, ty) else if isDigit c then some (.any2, ty) else none", "| .exponent => if c = '+' ∨ c = '-' then some (.sign, ty) else none", ["C92"], "exponents need a sign")
add("W08", J, "else if cp ≤ 0x7FF then", "else if cp < 0x7FF then", ["C92"], "U+07FF is encoded in three bytes")
add("W09", J, "      | (.rbrack, r1) => run O T n (.done (.arr (l ++ [v]))) S r1\n", "      | (.rbrack, r1) => run O T n (.done (.arr (l ++ [v]))) S r1\n      | (.rbrace, r1) => run O T n (.done (.arr (l ++ [v]))) S r1\n", ["C92"], "a brace closes an array")
add("W10", J, "else if c.toNat ≤ 0x1F then none", "else if c.toNat < 0x1F then none", ["C92"], "a control character is accepted in strings")
add("W11", J, "if 0xC2 ≤ n ∧ n ≤ 0xDF then", "if 0xC0 ≤ n ∧ n ≤ 0xDF then", ["C92"], "overlong encodings are accepted")
add("W12", J, "else if 0xDC00 ≤ cp ∧ cp ≤ 0xDFFF then none\n", "else if 0xDC00 ≤ cp ∧ cp < 0xDFFF then none\n", ["C92"], "a low surrogate alone is accepted")
TIGHTENED.update({"L02": ["C81_load_described"], "I01": ["C47_transform_to_string_interrupted"], "I02": ["C48_interrupted_fit_false", "C48_interrupted_recount_false"],
                  "I03": ["C45_unfitted_file"]})
TIGHTENED.update({"J06": ["C92_reader"], "J08": ["C93_writer"]})
add("Z01", "Tokenizer.lean", "let rest := transformAll o r.1 ss", "let rest := transformAll o t ss", ["C95", "C34"], "every text is tokenized with the codes known before the first one")
add("Z02", V, "  let (i, _) ← m.int.fit E σ r.2\n  pure ⟨i, r.1⟩", "  let (i, _) ← m.int.fit E σ r.2\n  pure ⟨i, m.tok⟩", ["C95", "C49"], "fit of a text model forgets the tokens it met")
add("Z03", R, "(ids.map fun i => ' ' :: decInt i).flatten", "(ids.map fun i => decInt i).flatten", ["C96", "C47"], "ids printed without separators")
add("Z04", R, "    if n < 10 then Char.ofNat (48 + n) :: acc\n    else decAux fuel (n / 10) (Char.ofNat (48 + n % 10) :: acc)", "    if n < 10 then acc ++ [Char.ofNat (48 + n)]\n    else decAux fuel (n / 10) (acc ++ [Char.ofNat (48 + n % 10)])", ["C96", "C47", "C57"], "digits of long ids in the wrong order")
add("Z05", R, "pure { m with iterNum := 0, fitted := fitted, freqsComputed := freqsComputed }", "pure { m with iterNum := 0, fitted := false, freqsComputed := freqsComputed }", ["C97", "C52"], "a loaded model is never fitted")
add("Z06", R, "fitInner E σ seqs seqs.length t m", "fitInner E σ seqs (seqs.length - 1) t m", ["C98", "C44"], "rounds are one sequence short")
TIGHTENED.update({"Z06": ["C98_round_partial", "C98_unread_false"]})
CM = "CodeMap.lean"
add("Z07", CM, "pure (.ofPushed ((sortByCode pairs).map fun p => .int p.1))", "pure (.ofPushed (pairs.map fun p => .int p.1))", ["C99"], "the coder is written in hash order")
add("Z08", P, "if p.2 ≤ q.2 then p :: q :: qs", "if q.2 ≤ p.2 then p :: q :: qs", ["C99", "C41"], "the coder is written in decreasing order of the codes")
add("Z09", CM, "    if p = stop then .ok []\n", "    if p = stop ∨ fuel = mem.length then .ok []\n", ["C99"], "the first pair is never read")

GA = "Gamma.lean"
add("Z10", GA, "16807 * s % 2147483647", "48271 * s % 2147483647", ["C100"], "multiplier of the other standard engine")
add("Z11", GA, "match variates G fuel ps s' with", "match variates G fuel ps s with", ["C100"], "every variate is drawn from a new engine")
add("Z12", GA, "O.sub malpha (O.div (O.ofInt 1) (O.ofInt 3))", "malpha", ["C100"], "shape is not made smaller by 1/3")
add("Z13", GA, "G.ops.mul (G.ops.mul v v) v", "G.ops.mul v v", ["C100"], "square instead of cube")
add("Z14", GA, "O.lt (O.sub (O.ofInt 1) n4) u &&", "O.lt (O.sub (O.ofInt 1) n4) u ||", ["C100"], "samples are rejected if one of two tests fails")
add("Z15", GA, "16807 * s % 2147483647", "16807 * s % 2147483648", ["C100"], "modulus of the engine off by one")
add("Z16", GA, "some (shift (O.mul y mult), some (O.mul x mult), s')", "some (shift (O.mul x mult), some (O.mul y mult), s')", ["C100"], "the two variates of the polar method are swapped")
add("Z17", GA, "def seed : Nat := 1", "def seed : Nat := 0", ["C100"], "engine starts at zero and stays there")
add("Z18", GA, "O.div (O.mul (O.ofInt (-2)) (O.log r2)) r2", "O.div (O.mul (O.ofInt (-1)) (O.log r2)) r2", ["C100"], "variance of the normal variates is one half")
add("Z19", GA, "let ret := O.div sum2 tmp2", "let ret := O.div sum1 tmp1", ["C100"], "uniform numbers are made of one number of the engine")
add("Z20", GA, "if G.eq alpha malpha then", "if G.ops.lt alpha malpha then", ["C100"], "branches for small and large parameters swapped")
add("Z21", GA, "if G.ops.lt (G.ops.ofInt 1) p.2.2 || G.eq", "if G.ops.lt p.2.2 (G.ops.ofInt 1) || G.eq", ["C100"], "points outside of the disc are taken")
TIGHTENED.update({k: ["C100_fixed_draws"] for k in ("Z18",)})

NW = "Narrow.lean"
add("Z22", NW, "(i + 2 ^ 31) % 2 ^ 32 - 2 ^ 31", "i % 2 ^ 32", ["C101"], "integers are converted to unsigned numbers")
add("Z23", NW, "(i + 2 ^ 31) % 2 ^ 32 - 2 ^ 31", "max (-2 ^ 31) (min i (2 ^ 31 - 1))", ["C101"], "integers are clamped instead of reduced")
add("Z24", NW, "| .int i => .ok (narrow i)", "| .int i => if narrow i = i then .ok i else .error .jsonType", ["C101"], "integers out of range throw an exception")
add("Z25", NW, "then .ok (O.trunc x) else .error .badCast", "then .ok (O.trunc x) else .ok (narrow (O.trunc x))", ["C101"], "doubles are reduced like integers")
add("Z26", NW, "-(2 ^ 31) ≤ O.trunc x", "0 ≤ O.trunc x", ["C101"], "negative doubles are not converted")
add("Z27", NW, "| .bool b => .ok (if b then 1 else 0)", "| .bool _ => .error .jsonType", ["C101"], "truth values are no numbers")
add("Z28", NW, "    let n ← j.castInt O\n    readCoder", "    let n ← j.getInt O\n    readCoder", ["C101"], "symbols are not reduced")
add("Z29", NW, "    let f ← jf.castInt O\n", "    let f ← jf.getInt O\n", ["C101"], "frequencies are not reduced")
add("Z30", NW, "    let v ← jv.castIntSeq O\n", "    let v ← jv.getIntSeq O\n", ["C101"], "codes of words are not reduced")
add("Z31", NW, "  let size ← js.castInt O\n", "  let size ← js.getInt O\n", ["C101"], "the size is not reduced")
add("Z32", NW, "    let codes ← jv.castIntSeq O\n", "    let codes ← jv.getIntSeq O\n", ["C101"], "the codes that name the tokens of a text model are not reduced")
add("Z33", NW, "    let n ← j.castInt O\n    readCoder O js (c.encode [n]).1", "    let n ← j.castInt O\n    let c' ← readCoder O js c\n    pure (c'.encode [n]).1", ["C101", "C80"], "symbols are numbered from the last to the first")
add("Z34", NW, "  let ja ← j.field Json.kAlphabet\n  let m ← tokenizerLoop O c ja.elems []\n", "  let ja ← j.field Json.kAlphabet\n  let m ← tokenizerLoop O c ja.elems.dropLast []\n", ["C101", "C80"], "the last word of a file names no token")
add("Z35", NW, "  | .arr l => castInts O l\n", "  | .arr l => castInts O l\n  | .null => .ok []\n", ["C101"], "a word may be null")

HT = "HashTable.lean"
add("Z36", HT, "+ seed <<< 6 + seed >>> 2", "+ seed >>> 2", ["C102"], "the hash function lacks a shift")
add("Z37", HT, "+ seed <<< 6 + seed >>> 2) % 2 ^ 64)) 0", "+ seed <<< 6 + seed >>> 2))) 0", ["C102"], "hash values are not reduced to 64 bits")
add("Z38", HT, "((i % 2 ^ 64).toNat + 0x9e3779b9", "((i % 2 ^ 31).toNat + 0x9e3779b9", ["C102"], "the sign of a symbol is not hashed")
add("Z39", HT, "if e.1 = code ∧ e.2 = key then true", "if e.1 = code then true", ["C102"], "keys with the same hash value are taken for equal")
add("Z40", HT, "if e'.1 % n ≠ b then false else walk n b code key l", "if e'.1 % n ≠ b then false else false", ["C102"], "only the first node of a bucket is compared")
add("Z41", HT, "if e'.1 % n ≠ b then false", "if e'.1 % n = b then false", ["C102"], "the search goes on in other buckets only")
add("Z42", HT, "  | some (some p) => match following p t.nodes with", "  | some (some _) => match t.nodes with", ["C102"], "every search starts at the first node")
add("Z43", HT, "(t.buckets.set (x.1 % n) (some (some e.2))).set b (some none)", "t.buckets.set b (some none)", ["C102"], "the bucket of the former first node keeps its pointer")
add("Z44", HT, "| [] => .ok ⟨[e], t.buckets.set b (some none)⟩", "| [] => .ok ⟨[e], t.buckets⟩", ["C102"], "the first node is in no bucket")
add("Z45", HT, "if x.2 = k then x :: e :: l", "if x.2 = k then e :: x :: l", ["C102"], "new nodes are linked before instead of after")
add("Z46", HT, "else bs.set bb (some (some e.2))) b", "else bs.set bb (some (some e.2))) bb", ["C102"], "a rehash forgets which bucket comes first")
add("Z47", HT, "| some (some p) => rehashLoop n r (linkAfter p e l) bs bb", "| some (some _) => rehashLoop n r (e :: l) bs bb", ["C102"], "a rehash puts all nodes first")
add("Z48", HT, "rehashLoop n t.nodes [] (List.replicate n none) 0", ".ok ⟨t.nodes, List.replicate n none⟩", ["C102"], "a rehash leaves the buckets empty")
add("Z49", HT, "  if there then pure t\n", "  if there && false then pure t\n", ["C102"], "keys are inserted twice")
add("Z50", HT, "    t.insertBegin (hash key, key)", "    t.insertBegin (t.nodes.length, key)", ["C102"], "nodes get wrong hash values")
add("Z51", HT, "def empty : HashTable α := ⟨[], [none]⟩", "def empty : HashTable α := ⟨[], []⟩", ["C102"], "an empty table has no bucket")
add("Z52", HT, "    let known ← known.insert hash grow seq\n", "    let _ ← known.insert hash grow seq\n", ["C102"], "old words are not known")
add("Z53", HT, "      let known ← known.insert hash grow text\n", "", ["C102"], "a text with two splits is a candidate twice")
add("Z54", HT, "    let there ← known.find (hash text) text\n", "    let there ← known.find 0 text\n", ["C102"], "known texts are searched in a wrong bucket")
add("Z55", S, "(O.log (O.div (O.div pAB (O.add pAY pAB)) (O.add pXB pAB)))", "(O.log (O.div (O.div pAB (O.add pAY pAB)) (O.add pAY pAB)))", ["C103"], "score divides twice by the share of the first word")
add("Z56", S, "O.ofInt (xb + 1), O.ofInt (xy + 1)]", "O.ofInt (xy + 1), O.ofInt (xb + 1)]", ["C103"], "parameters of the second alternative and the rest are swapped")
add("Z57", S, "(O.log (O.div (O.div pAB (O.add pAY pAB)) (O.add pXB pAB)))", "(O.log (O.div (O.add pXB pAB) (O.div pAB (O.add pAY pAB))))", ["C103"], "logarithm of the inverse ratio")
add("Z58", S, "gs.map fun g => E.ops.mul g inv", "gs.map fun g => E.ops.div g inv", ["C103"], "sample is multiplied by its sum instead of divided")
add("Z59", S, "foldl (fun score _ => O.add score term) (O.ofInt 0)", "foldl (fun score _ => O.add score term) (O.ofInt 1)", ["C103"], "score starts at 1")
add("Z60", S, "(O.log (O.div (O.div pAB (O.add pAY pAB)) (O.add pXB pAB)))", "(O.log (O.div pAB (O.add pAY pAB)))", ["C103"], "score ignores how often the second word occurs elsewhere")
add("Z61", S, "let total := gs.foldl E.ops.add (E.ops.ofInt 0)", "let total := gs.foldl E.ops.mul (E.ops.ofInt 0)", ["C103"], "the variates are multiplied instead of added, so the sum is zero")
add("Z62", S, "let pAY ← rd sample 1\n  let pXB ← rd sample 2", "let pAY ← rd sample 2\n  let pXB ← rd sample 3", ["C103"], "the share of the rest is used in place of the second alternative")
SO = "Sort.lean"
add("Z63", SO, "if lt y z then swap l result b\n    else if lt x z", "if lt y z then swap l result c\n    else if lt x z", ["C104"], "the greatest of three elements is the pivot")
add("Z64", SO, "if lt x p then up p rest", "if !(lt p x) then up p rest", ["C104"], "elements equal to the pivot do not stop the loop from the left")
add("Z65", SO, "if lt p x then down p rest", "if !(lt x p) then down p rest", ["C104"], "elements equal to the pivot do not stop the loop from the right")
add("Z66", SO, "then pure (l, i)", "then pure (l, j)", ["C104"], "the cut is where the other loop stopped")
add("Z67", SO, "      introsort limit l'' first cut", "      .ok l''", ["C104"], "the first part of a partition is not partitioned again")
add("Z68", SO, "    if lt val x then do", "    if !(lt x val) then do", ["C104"], "insertion goes past equal elements")
add("Z69", SO, "if lt val first then guarded (before ++ [val]) rest\n      else", "if false then guarded (before ++ [val]) rest\n      else", ["C104"], "insertion sort does not check the first element")
add("Z70", SO, "guarded lt [] (l.take 16)", "guarded lt [] (l.take 15)", ["C104"], "one element is in neither part of the last insertion sort")
add("Z71", SO, "if lt x y then sift len fuel (l.set hole y)", "if lt y x then sift len fuel (l.set hole y)", ["C104"], "the smaller child moves up in the heap")
add("Z72", SO, "if len % 2 = 0 ∧ hole", "if len % 2 = 1 ∧ hole", ["C104"], "the only child of the last parent is forgotten")
add("Z73", SO, "if lt x value then push", "if lt value x then push", ["C104"], "a value moves up over greater parents")
add("Z74", SO, "((l.length - 2) / 2 + 1) l", "((l.length - 2) / 2) l", ["C104"], "the last parent is not put in order")
add("Z75", SO, "adjust lt (n + 1) (l.set (n + 1) x) 0 value", "adjust lt (n + 2) (l.set (n + 1) x) 0 value", ["C104"], "the element taken from the heap is still part of it")
add("Z76", SO, "| limit + 1, l, first, last =>\n    if 16 < last - first then", "| limit + 1, l, first, last =>\n    if 1 < last - first then", ["C104"], "ranges of two elements are partitioned")
add("Z77", SO, "else if lt y z then swap l result c\n  else swap l result b", "else if lt y z then swap l result b\n  else swap l result c", ["C104"], "the least of three falling elements is the pivot")
