import Verif.Model.Basic

/-!
# Model of `IntDictImpl`

core/src/main/cpp/algorithm/int_dict_p.h, int_dict_p.cc
-/

namespace VGram

/-- `std::vector<int>::operator<` (lexicographical compare), used by `std::sort`
(int_dict_p.cc:38) and `std::lower_bound` (int_dict_p.cc:104). -/
def seqLt : IntSeq → IntSeq → Bool
  | [], [] => false
  | [], _ :: _ => true
  | _ :: _, [] => false
  | a :: as, b :: bs => if a < b then true else if b < a then false else seqLt as bs

/-- Insertion into an ordered list; part of the model of `std::sort` (int_dict_p.cc:38). -/
def insertSeq (s : IntSeq) : List IntSeq → List IntSeq
  | [] => [s]
  | t :: ts => if seqLt t s then t :: insertSeq s ts else s :: t :: ts

/-- `std::sort(seqs_.begin(), seqs_.end())` int_dict_p.cc:38.
Simplification: the algorithm is insertion sort; the result of `std::sort` is the same list,
because `operator<` on `vector<int>` is a total order whose equal elements are identical
(theorem `sortSeqs_unique` in Proofs/IntDict). -/
def sortSeqs : List IntSeq → List IntSeq
  | [] => []
  | s :: ss => insertSeq s (sortSeqs ss)

/-- `std::mismatch(p.begin(), p.end(), q.begin()).first == p.end()`, the three-iterator form
used at int_dict_p.cc:44 and :112.  It is "is `p` a prefix of `q`", except that the
algorithm has no end iterator for `q`: running off the end of `q` is an out-of-bounds read. -/
def mismatchAtEnd : IntSeq → IntSeq → M Bool
  | [], _ => .ok true
  | _ :: _, [] => .error .oob
  | a :: p, b :: q => if a = b then mismatchAtEnd p q else .ok false

/-- The data members `seqs_`, `parents_` of `IntDictImpl` (int_dict_p.h:30-31). -/
structure IntDict where
  seqs : List IntSeq
  parents : List Int
  deriving DecidableEq, Repr

/-- `IntDictImpl::IntDictImpl()` int_dict_p.cc:12-15. -/
def IntDict.empty : IntDict := ⟨[], []⟩

/-- The inner `while (!parents_stack.empty())` loop of `init`, int_dict_p.cc:42-49.
The stack is a list with its top (`back()`) first.  Returns the remaining stack and the value
written to `parents_[i]` (initially -1, int_dict_p.cc:36). -/
def popToPrefix (current : IntSeq) : List (IntSeq × Int) → M (List (IntSeq × Int) × Int)
  | [] => .ok ([], -1)
  | (pre, j) :: rest => do
    let hit ← mismatchAtEnd pre current
    if hit then pure ((pre, j) :: rest, j) else popToPrefix current rest

/-- The outer loop of `init`, int_dict_p.cc:40-51: `i` is the loop counter, the list is what
is left of the sorted `seqs_`, the result is the list of `parents_` values from `i` on. -/
def initLoop : Nat → List (IntSeq × Int) → List IntSeq → M (List Int)
  | _, _, [] => .ok []
  | i, stack, current :: rest => do
    let (stack', p) ← popToPrefix current stack
    let ps ← initLoop (i + 1) ((current, (i : Int)) :: stack') rest
    pure (p :: ps)

/-- `IntDictImpl::IntDictImpl(const std::vector<IntSeq>&)` and `init`, int_dict_p.cc:17-19, 34-52. -/
def IntDict.init (seqs : List IntSeq) : M IntDict := do
  let sorted := sortSeqs seqs
  let parents ← initLoop 0 [] sorted
  pure ⟨sorted, parents⟩

/-- `IntDictImpl::IntDictImpl(const IntSeq&)` int_dict_p.cc:21-27: one one-symbol word per element. -/
def IntDict.initSymbols (syms : IntSeq) : M IntDict := IntDict.init (syms.map fun a => [a])

/-- `IntDictImpl::size()` int_dict_p.cc:148-150. -/
def IntDict.size (d : IntDict) : Nat := d.seqs.length

/-- `IntDictImpl::get(int)` int_dict_p.cc:144-146. -/
def IntDict.get (d : IntDict) (i : Int) : M IntSeq := rd d.seqs i

/-- `IntDictImpl::parent(int)` int_dict_p.cc:156-158. -/
def IntDict.parent (d : IntDict) (i : Int) : M Int := rd d.parents i

/-- `IntDictImpl::alphabet()` int_dict_p.cc:152-154. -/
def IntDict.alphabet (d : IntDict) : List IntSeq := d.seqs

/-- The loop of libstdc++'s `std::lower_bound` as called at int_dict_p.cc:104.  The concrete
algorithm matters because `seqs_` need not stay sorted (see `search`).  `fuel` only makes the
recursion structural; `len` shrinks in every step, so `fuel = len` is never exhausted before
`len = 0` (theorem `lowerBound_ok`). -/
def lowerBoundLoop (seqs : List IntSeq) (v : IntSeq) : Nat → Nat → Nat → M Nat
  | 0, first, _ => .ok first
  | fuel + 1, first, len =>
    if len = 0 then .ok first
    else do
      let half := len / 2
      let mid ← rd seqs ((first + half : Nat) : Int)
      if seqLt mid v then lowerBoundLoop seqs v fuel (first + half + 1) (len - half - 1)
      else lowerBoundLoop seqs v fuel first half

/-- `std::lower_bound(seqs_.begin(), seqs_.end(), seq) - seqs_.begin()` int_dict_p.cc:104. -/
def lowerBound (seqs : List IntSeq) (v : IntSeq) : M Nat :=
  lowerBoundLoop seqs v seqs.length 0 seqs.length

/-- `excludes == nullptr || excludes->count(index) == 0` int_dict_p.cc:106, 113.
`none` is the null pointer. -/
def allowed (excludes : Option (List Int)) (index : Int) : Bool :=
  match excludes with
  | none => true
  | some ex => !(ex.contains index)

/-- The loop walking up the parents, int_dict_p.cc:111-118.  `some i` is `return index`, `none`
is leaving the loop.  `fuel` bounds the number of iterations; running out of it is reported as
`diverge` and never happens on a dictionary the code can build (theorem C06). -/
def IntDict.walkUp (d : IntDict) (seq : IntSeq) (excludes : Option (List Int)) : Nat → Int → M (Option Int)
  | 0, _ => .error .diverge
  | fuel + 1, index =>
    if 0 ≤ index ∧ index < (d.size : Int) then do
      let w ← rd d.seqs index
      let hit ← mismatchAtEnd w seq
      if hit && allowed excludes index then pure (some index)
      else do
        let p ← rd d.parents index
        d.walkUp seq excludes fuel p
    else .ok none

/-- `index >= 0 && index < size() && seqs_[index] == seq` int_dict_p.cc:105. -/
def IntDict.exactAt (d : IntDict) (index : Nat) (seq : IntSeq) : Bool :=
  match d.seqs[index]? with
  | some w => w == seq
  | none => false

/-- `IntDictImpl::search` int_dict_p.cc:103-128.  Without an exclude set (`none`) a query that
has no prefix in the dictionary *appends* the one-symbol word `[seq[0]]` at the end
(int_dict_p.cc:119-123), whatever its place in the order. -/
def IntDict.search (d : IntDict) (seq : IntSeq) (excludes : Option (List Int)) : M (IntDict × Int) := do
  let index ← lowerBound d.seqs seq
  if d.exactAt index seq && allowed excludes (index : Int) then
    pure (d, (index : Int))
  else do
    let found ← d.walkUp seq excludes (d.size + 1) ((index : Int) - 1)
    match found with
    | some i => pure (d, i)
    | none =>
      match excludes with
      | some _ => pure (d, -1)
      | none =>
        match seq with
        | [] => .error .oob
        | x :: _ => pure (⟨d.seqs ++ [[x]], d.parents ++ [-1]⟩, (d.size : Int))

/-- The loop of `linearParse`, int_dict_p.cc:56-65.  Each iteration that makes progress
shortens `suffix`, so `fuel = seq.length` suffices unless a zero-length word is matched, in
which case the C++ loop does not terminate (`diverge`). -/
def IntDict.linearLoop (excludes : Option (List Int)) : Nat → IntDict → IntSeq → List Int → M (IntDict × List Int)
  | _, d, [], builder => .ok (d, builder)
  | 0, _, _ :: _, _ => .error .diverge
  | fuel + 1, d, x :: xs, builder => do
    let (d', symbol) ← d.search (x :: xs) excludes
    if symbol < 0 then linearLoop excludes fuel d' xs builder
    else do
      let w ← d'.get symbol
      if w.length ≤ (x :: xs).length then
        linearLoop excludes fuel d' ((x :: xs).drop w.length) (builder ++ [symbol])
      else .error .oob

/-- `IntDictImpl::parse(seq, output, excludes)` and `linearParse`, int_dict_p.cc:54-67, 139-142.
Returns the dictionary after the call, the output vector and the returned count. -/
def IntDict.parseLinear (d : IntDict) (seq : IntSeq) (output : List Int) (excludes : Option (List Int)) :
    M (IntDict × List Int × Int) := do
  let (d', out) ← linearLoop excludes seq.length d seq output
  pure (d', out, (out.length : Int))

/-- `sym_log_prob` int_dict_p.cc:83, stat_dict_p.cc:255.  Simplification: `total_freq` is a
`double` holding an integer count; it is kept as an `Int` and converted after adding `size()`
(exact below 2^53). -/
def symLogProb {F : Type} (O : FloatOps F) (freqs : List Int) (total : Int) (size : Nat) (sym : Int) : F :=
  let a := match rd freqs sym with
    | .ok f => O.log (O.ofInt (f + 1))
    | .error _ => O.ofInt 0
  O.sub a (O.log (O.ofInt (total + (size : Int))))

/-- The dynamic-programming arrays `score` and `symbols` of `weightedParse`. -/
structure DP (F : Type) where
  score : List F
  symbols : List Int
  deriving DecidableEq

/-- The body of the do-while loop, int_dict_p.cc:82-87 / stat_dict_p.cc:254-260. -/
def relaxOne {F : Type} (O : FloatOps F) (d : IntDict) (freqs : List Int) (total : Int) (pos : Nat) (sym : Int)
    (t : DP F) : M (DP F) := do
  let w ← d.get sym
  let lp := symLogProb O freqs total d.size sym
  let old ← rd t.score ((w.length + pos : Nat) : Int)
  let base ← rd t.score (pos : Int)
  let cand := O.add base lp
  if O.lt old cand then do
    let score ← wr t.score ((w.length + pos : Nat) : Int) cand
    let symbols ← wr t.symbols ((w.length + pos : Nat) : Int) sym
    pure ⟨score, symbols⟩
  else pure t

/-- The do-while loop over a word and its ancestors, int_dict_p.cc:81-89 / stat_dict_p.cc:253-262.
`fuel` bounds the length of the parent chain (`diverge` when exceeded). -/
def relaxChain {F : Type} (O : FloatOps F) (d : IntDict) (freqs : List Int) (total : Int) (pos : Nat) :
    Nat → Int → DP F → M (DP F)
  | 0, _, _ => .error .diverge
  | fuel + 1, sym, t => do
    let t' ← relaxOne O d freqs total pos sym t
    let p ← d.parent sym
    if 0 ≤ p then relaxChain O d freqs total pos fuel p t' else pure t'

/-- The forward loop of `IntDictImpl::weightedParse`, int_dict_p.cc:76-90.  The third list is
`suffix`, i.e. `seq` without its first `pos` elements.  `search` may append to the dictionary. -/
def IntDict.forward {F : Type} (O : FloatOps F) (freqs : List Int) (total : Int) (excludes : Option (List Int)) :
    Nat → IntSeq → IntDict → DP F → M (IntDict × DP F)
  | _, [], d, t => .ok (d, t)
  | pos, x :: xs, d, t => do
    let (d', sym) ← d.search (x :: xs) excludes
    if sym < 0 then forward O freqs total excludes (pos + 1) xs d' t
    else do
      let t' ← relaxChain O d' freqs total pos (d'.size + 1) sym t
      forward O freqs total excludes (pos + 1) xs d' t'

/-- The initial arrays, int_dict_p.cc:72-74. -/
def DP.start {F : Type} (O : FloatOps F) (len : Nat) : DP F :=
  ⟨O.ofInt 0 :: List.replicate len O.lowest, List.replicate (len + 1) 0⟩

/-- The backtracking loop, int_dict_p.cc:91-98, together with the copy-out of :99.
`solution` is filled from its back, so what is inserted into `builder` is the list of visited
symbols in reverse order of the visit.  `fuel = len - index`: with `index = len` the next write
`solution[len - (++index)]` is out of bounds.  `pos` is a `size_t`: when the word is longer than
`pos` the subtraction wraps and the next access is out of bounds. -/
def IntDict.backtrack (d : IntDict) (symbols : List Int) : Nat → Nat → List Int → M (List Int)
  | _, 0, acc => .ok acc
  | 0, _ + 1, _ => .error .oob
  | fuel + 1, pos + 1, acc => do
    let sym ← rd symbols ((pos + 1 : Nat) : Int)
    let w ← d.get sym
    if w.length ≤ pos + 1 then d.backtrack symbols fuel (pos + 1 - w.length) (sym :: acc)
    else .error .oob

/-- `IntDictImpl::weightedParse` int_dict_p.cc:69-101, called with `excludes = nullptr`
(its only caller, :132).  Returns the dictionary after the call, the symbols inserted into
`builder`, and `score[len]`. -/
def IntDict.weightedParse {F : Type} (O : FloatOps F) (d : IntDict) (seq : IntSeq) (freqs : List Int) (total : Int) :
    M (IntDict × List Int × F) := do
  let (d', t) ← IntDict.forward O freqs total none 0 seq d (DP.start O seq.length)
  let out ← d'.backtrack t.symbols seq.length seq.length []
  let sc ← rd t.score (seq.length : Int)
  pure (d', out, sc)

/-- `IntDictImpl::parse(seq, freqs, total_freq, output)` int_dict_p.cc:130-137.  Returns the
dictionary after the call, the output vector and the returned count.  Not modelled: the
diagnostic print of :133-135. -/
def IntDict.parse {F : Type} (O : FloatOps F) (d : IntDict) (seq : IntSeq) (freqs : List Int) (total : Int)
    (output : List Int) : M (IntDict × List Int × Int) := do
  let (d', out, _) ← d.weightedParse O seq freqs total
  pure (d', output ++ out, ((output ++ out).length : Int))

end VGram
