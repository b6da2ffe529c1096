import Verif.Model.IntDict

/-!
# Model of `StatDictImpl` and `StatItem`

core/src/main/cpp/algorithm/stat_dict_p.h, stat_dict_p.cc, fast_random.cc
-/

namespace VGram

/-- `StatItem` stat_dict_p.h:75-94, stat_dict_p.cc:287-309. -/
structure StatItem (F : Type) where
  first : Int
  second : Int
  score : F
  count : Int
  deriving DecidableEq

/-- `pairs_freqs_` stat_dict_p.h:56, an `unordered_map<int64_t,int>`.
Simplification: an association list (one entry per key) keyed by the pair of ids instead of the
packed 64-bit key `(prev << 32) | symbol` (stat_dict_p.cc:97); theorem C15 shows that the packing is
injective and inverted by the unpacking of stat_dict_p.cc:117-118.  The iteration order of the
hash table is `Env.pairOrder`. -/
abbrev PairMap := List ((Int × Int) × Int)

/-- Everything that is not determined by the C++ text: the floating-point operations, the result
of the unstable `std::sort`, the iteration order of the hash table and the gamma variates. -/
structure Env (F : Type) where
  ops : FloatOps F
  /-- `std::sort(items, -a.score() < -b.score())` stat_dict_p.cc:156, 239 -/
  sortItems : List (StatItem F) → List (StatItem F)
  /-- order in which `for (auto& p : pairs_freqs_)` visits the entries, stat_dict_p.cc:114, 124, 159 -/
  pairOrder : PairMap → PairMap
  /-- the `i`-th gamma variate drawn for `params`, fast_random.cc:13-15.  The engine is
  default-constructed in every call, so the draws are a function of the parameters. -/
  gammas : List F → Nat → F

/-- The data members of `StatDictImpl`, stat_dict_p.h:51-58.  The `double`s `power_`,
`parse_freqs_init_power_`, `total_chars_` only hold integers and are `Int` (exact below 2^53). -/
structure StatDict (F : Type) where
  dict : IntDict
  symbolFreqs : List Int
  parseFreqs : List Int
  power : Int
  initPower : Int
  pairs : PairMap
  minProb : F
  totalChars : Int
  deriving DecidableEq

namespace StatDict

variable {F : Type}

/-- `StatDictImpl::StatDictImpl(double)` stat_dict_p.cc:13-19. -/
def new (minProb : F) : StatDict F := ⟨IntDict.empty, [], [], 0, 0, [], minProb, 0⟩

/-- `for (i = v.size(); i < n; i++) v.push_back(0)` stat_dict_p.cc:29-30, 38-41. -/
def padTo (l : List Int) (n : Nat) : List Int := l ++ List.replicate (n - l.length) 0

/-- `StatDictImpl::StatDictImpl(seqs, min_prob_result, init_freqs)` stat_dict_p.cc:21-34;
`none` is the null pointer. -/
def ofSeqs (seqs : List IntSeq) (minProb : F) (initFreqs : Option (List Int)) : M (StatDict F) := do
  let dict ← IntDict.init seqs
  match initFreqs with
  | none =>
    pure ⟨dict, List.replicate seqs.length 0, List.replicate dict.size 0, 0, 0, [], minProb, 0⟩
  | some fr =>
    pure ⟨dict, List.replicate seqs.length 0, padTo fr dict.size, 0, sumI fr, [], minProb, 0⟩

/-- `StatDictImpl::update_symbol` stat_dict_p.cc:36-46. -/
def updateSymbol (s : StatDict F) (index : Int) (freq : Int) : M (StatDict F) := do
  let grow : Bool := decide ((s.symbolFreqs.length : Int) ≤ index)
  let sf := if grow then padTo s.symbolFreqs (index.toNat + 1) else s.symbolFreqs
  let pf := if grow then padTo s.parseFreqs (index.toNat + 1) else s.parseFreqs
  let a ← rd sf index
  let sf' ← wr sf index (a + freq)
  let b ← rd pf index
  let pf' ← wr pf index (b + freq)
  pure { s with symbolFreqs := sf', parseFreqs := pf', power := s.power + freq }

/-- `StatDictImpl::search` stat_dict_p.cc:48-54. -/
def search (s : StatDict F) (seq : IntSeq) (excludes : Option (List Int)) : M (StatDict F × Int) := do
  let (d, i) ← s.dict.search seq excludes
  pure ({ s with dict := d }, i)

/-- `StatDictImpl::size` stat_dict_p.cc:60-62. -/
def size (s : StatDict F) : Nat := s.dict.size

/-- `StatDictImpl::freq` stat_dict_p.cc:72-74 (a negative index compares greater than every
`size_t`, hence gives 0). -/
def freq (s : StatDict F) (index : Int) : Int :=
  match rd s.symbolFreqs index with
  | .ok f => f
  | .error _ => 0

/-- `x * log(x)` for an integer-valued `x`. -/
def xlogx (O : FloatOps F) (x : Int) : F := O.mul (O.ofInt x) (O.log (O.ofInt x))

/-- The accumulation loop of `code_length_per_char`, stat_dict_p.cc:77-82. -/
def codeLengthSum (O : FloatOps F) (s : StatDict F) : F :=
  (List.range s.size).foldl (fun sum (i : Nat) =>
    let f := s.freq (i : Int)
    if 0 < f then O.sub sum (xlogx O f) else sum) (O.ofInt 0)

/-- `StatDictImpl::code_length_per_char` stat_dict_p.cc:76-84. -/
def codeLengthPerChar (O : FloatOps F) (s : StatDict F) : F :=
  O.div (O.add (s.codeLengthSum O) (xlogx O s.power)) (O.ofInt s.totalChars)

/-- `StatDictImpl::enough` stat_dict_p.cc:86-88. -/
def enough (O : FloatOps F) (s : StatDict F) (probFound : F) : Bool :=
  O.lt (O.div (O.neg (O.log probFound)) s.minProb) (O.ofInt s.power)

/-- `pairs_freqs_[key] += 1` stat_dict_p.cc:97. -/
def pairBump (k : Int × Int) : PairMap → PairMap
  | [] => [(k, 1)]
  | (k', n) :: rest => if k' = k then (k', n + 1) :: rest else (k', n) :: pairBump k rest

/-- The loop over `*parse_result` in `StatDictImpl::parse`, stat_dict_p.cc:94-99. -/
def tally (s : StatDict F) : Int → List Int → M (StatDict F)
  | _, [] => .ok s
  | prev, symbol :: rest => do
    let s' ← s.updateSymbol symbol 1
    let s'' := if 0 ≤ prev then { s' with pairs := pairBump (prev, symbol) s'.pairs } else s'
    tally s'' symbol rest

/-- `StatDictImpl::parse` stat_dict_p.cc:90-101.  Returns the new state, the output vector and
the returned count. -/
def parse (O : FloatOps F) (s : StatDict F) (seq : IntSeq) (output : List Int) :
    M (StatDict F × List Int × Int) := do
  let (d, out, _) ← s.dict.parse O seq s.parseFreqs (s.power + s.initPower) output
  let s1 := { s with dict := d, totalChars := s.totalChars + (seq.length : Int) }
  let s2 ← s1.tally (-1) out
  pure (s2, out, (out.length : Int))

/-- `stat_item_to_text` stat_dict_p.cc:276-283. -/
def itemText (s : StatDict F) (it : StatItem F) : M IntSeq := do
  if 0 ≤ it.first then
    let a ← s.dict.get it.first
    let b ← s.dict.get it.second
    pure (a ++ b)
  else s.dict.get it.second

/-- First loop of `expand`, stat_dict_p.cc:106-110, a range-for over the dictionary's own vector.
A `search` that appends to that vector invalidates the loop's iterators. -/
def expandKnown (O : FloatOps F) (s : StatDict F) : List IntSeq → M (List (StatItem F))
  | [] => .ok []
  | seq :: rest => do
    let (d', symbol) ← s.dict.search seq none
    if d'.size = s.dict.size then do
      let items ← expandKnown O s rest
      pure (⟨-1, symbol, O.maxVal, s.freq symbol⟩ :: items)
    else .error .iterInvalid

/-- Loop computing `start_with` and `ends_with`, stat_dict_p.cc:112-121 (integer-valued doubles). -/
def pairMarginals : PairMap → List Int → List Int → M (List Int × List Int)
  | [], st, en => .ok (st, en)
  | ((a, b), f) :: rest, st, en => do
    let x ← rd st a
    let st' ← wr st a (x + f)
    let y ← rd en b
    let en' ← wr en b (y + f)
    pairMarginals rest st' en'

/-- `next_dirichlet` fast_random.cc:10-23. -/
def nextDirichlet (E : Env F) (params : List F) : List F :=
  let gs := (List.range params.length).map (E.gammas params)
  let total := gs.foldl E.ops.add (E.ops.ofInt 0)
  let inv := E.ops.div (E.ops.ofInt 1) total
  gs.map fun g => E.ops.mul g inv

/-- The scoring of one pair, stat_dict_p.cc:134-145.  The loop body does not depend on the loop
counter (`next_dirichlet` is a function of its parameters), it is still run ten times. -/
def pairScore (E : Env F) (freq ab ay xb xy : Int) : M F := do
  let O := E.ops
  let sample := nextDirichlet E [O.ofInt (ab + 1), O.ofInt (ay + 1), O.ofInt (xb + 1), O.ofInt (xy + 1)]
  let pAB ← rd sample 0
  let pAY ← rd sample 1
  let pXB ← rd sample 2
  let term := O.div (O.mul (O.div (O.mul (O.ofInt freq) pAB) (O.add pAY pAB))
    (O.log (O.div (O.div pAB (O.add pAY pAB)) (O.add pXB pAB)))) (O.ofInt 10)
  pure ((List.range 10).foldl (fun score _ => O.add score term) (O.ofInt 0))

/-- Second loop of `expand`, stat_dict_p.cc:124-154; `known` is the set of texts seen so far, the
result are the items pushed by this loop. -/
def expandPairs (E : Env F) (s : StatDict F) (st en : List Int) (total : Int) :
    PairMap → List IntSeq → M (List (StatItem F))
  | [], _ => .ok []
  | ((first, second), f) :: rest, known => do
    let e ← rd en second
    let b ← rd st first
    let xb := e - f
    let ay := b - f
    let xy := total - ay - xb - f
    let score ← pairScore E f f ay xb xy
    let item : StatItem F := ⟨first, second, score, f⟩
    let text ← s.itemText item
    if known.contains text then expandPairs E s st en total rest known
    else do
      let items ← expandPairs E s st en total rest (text :: known)
      pure (item :: items)

/-- Last loop of `expand`, stat_dict_p.cc:163-174: new words, their frequencies, minimal probability. -/
def expandTake (O : FloatOps F) (s : StatDict F) (acc : Int) :
    List (StatItem F) → Int → F → M (List IntSeq × List Int × F)
  | [], _, mp => .ok ([], [], mp)
  | it :: rest, slots, mp =>
    if O.lt it.score (O.ofInt 0) then .ok ([], [], mp)
    else if slots - 1 < 0 then .ok ([], [], mp)
    else do
      let text ← s.itemText it
      let mp' := if 0 ≤ it.first then O.min mp (O.div (O.ofInt it.count) (O.ofInt acc)) else mp
      let (ws, fs, m) ← expandTake O s acc rest (slots - 1) mp'
      pure (text :: ws, it.count :: fs, m)

/-- `StatDictImpl::expand` stat_dict_p.cc:103-176.  Returns the new word list, its frequencies and
the minimal probability.  (A run that returns normally has not changed the dictionary: see
`expandKnown`.) -/
def expand (E : Env F) (s : StatDict F) (slots : Int) : M (List IntSeq × List Int × F) := do
  let known ← expandKnown E.ops s s.dict.seqs
  let slots' := slots + (s.dict.size : Int)
  let zeros := List.replicate s.symbolFreqs.length (0 : Int)
  let (st, en) ← pairMarginals (E.pairOrder s.pairs) zeros zeros
  let total := sumI st
  let fresh ← expandPairs E s st en total (E.pairOrder s.pairs) s.dict.seqs
  let items := E.sortItems (known ++ fresh)
  let acc := sumI ((E.pairOrder s.pairs).map (·.2))
  expandTake E.ops s acc items slots' s.minProb

/-- The forward loop of `StatDictImpl::weightedParse`, stat_dict_p.cc:250-263.  Unlike
`IntDictImpl::weightedParse` there is no check for `sym < 0`, so a miss reads `get(-1)`. -/
def wForward (O : FloatOps F) (d : IntDict) (freqs : List Int) (total : Int) (excludes : List Int) :
    Nat → IntSeq → DP F → M (DP F)
  | _, [], t => .ok t
  | pos, x :: xs, t => do
    let (_, sym) ← d.search (x :: xs) (some excludes)
    let t' ← relaxChain O d freqs total pos (d.size + 1) sym t
    wForward O d freqs total excludes (pos + 1) xs t'

/-- The backtracking loop, stat_dict_p.cc:264-272.  Here `pos` is an `int`: a word longer than
`pos` makes it negative and the loop ends. -/
def wBacktrack (d : IntDict) (symbols : List Int) : Nat → Nat → List Int → M (List Int)
  | _, 0, acc => .ok acc
  | 0, _ + 1, _ => .error .oob
  | fuel + 1, pos + 1, acc => do
    let sym ← rd symbols ((pos + 1 : Nat) : Int)
    let w ← d.get sym
    wBacktrack d symbols fuel (pos + 1 - w.length) (sym :: acc)

/-- `StatDictImpl::weightedParse` stat_dict_p.cc:243-274, as called at :219 (non-null excludes, so
the dictionary is not changed).  Returns the ids inserted into `result`. -/
def weightedParse (O : FloatOps F) (d : IntDict) (seq : IntSeq) (freqs : List Int) (total : Int)
    (excludes : List Int) : M (List Int) := do
  let t ← wForward O d freqs total excludes 0 seq (DP.start O seq.length)
  wBacktrack d t.symbols seq.length seq.length []

/-- The score of a multi-symbol word in `stat_items`, stat_dict_p.cc:221-230. -/
def itemScore (O : FloatOps F) (s : StatDict F) (codeLength : F) (count : Int) (parse : List Int) : F :=
  let newPower := s.power + ((parse.length : Int) - 1) * count
  let c0 := O.add (O.sub (O.add codeLength (xlogx O count)) (xlogx O s.power)) (xlogx O newPower)
  let c := parse.foldl (fun c next =>
    let old := s.freq next
    let new := old + count
    O.sub c (O.sub (xlogx O new) (if 0 < old then xlogx O old else O.ofInt 0))) c0
  O.sub c codeLength

/-- The loop of `stat_items`, stat_dict_p.cc:212-238, over the given ids. -/
def statItemsLoop (O : FloatOps F) (s : StatDict F) (codeLength : F) (excludes : List Int) :
    List Nat → M (List (StatItem F))
  | [] => .ok []
  | id :: rest =>
    if excludes.contains (id : Int) then statItemsLoop O s codeLength excludes rest
    else do
      let count := s.freq (id : Int)
      let seq ← s.dict.get (id : Int)
      if 1 < seq.length then do
        let parse ← weightedParse O s.dict seq s.symbolFreqs s.power ((id : Int) :: excludes)
        let score := itemScore O s codeLength count parse
        let items ← statItemsLoop O s codeLength excludes rest
        if O.lt (O.ofInt 0) score then pure (⟨-1, (id : Int), score, count⟩ :: items)
        else pure items
      else do
        let items ← statItemsLoop O s codeLength excludes rest
        pure (⟨-1, (id : Int), O.maxVal, count⟩ :: items)

/-- `stat_items` stat_dict_p.cc:210-241. -/
def statItems (E : Env F) (s : StatDict F) (excludes : List Int) : M (List (StatItem F)) := do
  let codeLength := E.ops.mul (s.codeLengthPerChar E.ops) (E.ops.ofInt s.totalChars)
  let items ← statItemsLoop E.ops s codeLength excludes (List.range s.symbolFreqs.length)
  pure (E.sortItems items)

/-- `for (s < symbol_freqs_.size()) if (parent(s) < 0) slots += 1` stat_dict_p.cc:197-199. -/
def countRoots (s : StatDict F) : List Nat → M Int
  | [] => .ok 0
  | i :: rest => do
    let p ← s.dict.parent (i : Int)
    let n ← countRoots s rest
    pure (if p < 0 then n + 1 else n)

/-- The exclude set of `filter_stat_items`, stat_dict_p.cc:200-203. -/
def unusedIds (s : StatDict F) : List Nat → M (List Int)
  | [] => .ok []
  | i :: rest => do
    let p ← s.dict.parent (i : Int)
    let ex ← unusedIds s rest
    pure (if 0 ≤ p && s.freq (i : Int) == 0 then (i : Int) :: ex else ex)

/-- `filter_stat_items` stat_dict_p.cc:196-208.  The condition
`items->size() > std::min((int)items->size(), slots)` compares unsigned with signed: for negative
`slots` the right-hand side becomes huge and nothing is popped. -/
def filterStatItems (E : Env F) (s : StatDict F) (slots : Int) : M (List (StatItem F)) := do
  let roots ← s.countRoots (List.range s.symbolFreqs.length)
  let slots' := slots + roots
  let excludes ← s.unusedIds (List.range s.size)
  let items ← s.statItems E excludes
  pure (if slots' < 0 then items else items.take slots'.toNat)

/-- The loop of `reduce`, stat_dict_p.cc:186-192. -/
def reduceLoop (O : FloatOps F) (s : StatDict F) (power : Int) :
    List (StatItem F) → F → M (List IntSeq × List Int × F)
  | [], mp => .ok ([], [], mp)
  | it :: rest, mp => do
    let p := O.div (O.ofInt (it.count + 1)) (O.ofInt (power + (s.size : Int)))
    let par ← s.dict.parent it.second
    let mp' := if 0 ≤ par then O.min p mp else mp
    let w ← s.dict.get it.second
    let (ws, fs, m) ← reduceLoop O s power rest mp'
    pure (w :: ws, it.count :: fs, m)

/-- `StatDictImpl::reduce` stat_dict_p.cc:178-194. -/
def reduce (E : Env F) (s : StatDict F) (slots : Int) : M (List IntSeq × List Int × F) := do
  let items ← s.filterStatItems E slots
  let power := sumI (items.map (·.count))
  let O := E.ops
  reduceLoop O s power items (O.min (O.div (O.ofInt 1) (O.ofInt (s.size : Int))) s.minProb)

end StatDict

end VGram
