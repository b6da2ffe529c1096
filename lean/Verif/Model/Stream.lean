import Verif.Model.Builder
import Verif.Model.SeqCoder

/-!
# Model of `IntStreamVGram` and `IntVGram`

core/src/main/cpp/interfaces/vgram_builders/int_stream_vgram.{h,cc}, int_vgram.{h,cc}
-/

namespace VGram

/-- What the `shared_ptr<IntDict> dict_` (int_stream_vgram.h:50) points to: nothing, the
dictionary inside the `i`-th statistics dictionary of the builder (published by `result()`), or a
dictionary owned by the model (constructed by the loading constructor). -/
inductive DictPtr
  | null | stat (i : Nat) | own
  deriving DecidableEq, Repr

/-- Data members of `IntStreamVGram`, int_stream_vgram.h:48-55.  `min_probability_` is not
initialised by the size constructor (`none`). -/
structure Stream (F : Type) where
  size : Int
  builder : Builder F
  dict : DictPtr
  own : IntDict
  coder : SeqCoder
  freqs : List Int
  totalFreqs : Int
  minProb : Option F

namespace Stream

variable {F : Type}

/-- `IntStreamVGram(int size, int verbose)` int_stream_vgram.cc:15-26. -/
def new (O : FloatOps F) (size : Int) : Stream F :=
  ⟨size, Builder.new O (size - 1), .null, IntDict.empty, SeqCoder.new, [], 0, none⟩

/-- `IntStreamVGram(coder, freqs, alphabet, size, min_probability)` int_stream_vgram.cc:83-97. -/
def ofSaved (O : FloatOps F) (coder : SeqCoder) (freqs : List Int) (alphabet : List IntSeq) (size : Int)
    (minProb : F) : M (Stream F) := do
  let d ← IntDict.init alphabet
  let b ← Builder.ofSaved O d freqs alphabet minProb
  pure ⟨size, b, .own, d, coder, freqs, sumI freqs, some minProb⟩

/-- `*dict_`. -/
def getDict (m : Stream F) : M IntDict :=
  match m.dict with
  | .null => .error .nullDeref
  | .own => .ok m.own
  | .stat i => do
    let s ← rd m.builder.stats (i : Int)
    pure s.dict

/-- Writing through `dict_`. -/
def setDict (m : Stream F) (d : IntDict) : Stream F :=
  match m.dict with
  | .null => m
  | .own => { m with own := d }
  | .stat i =>
    { m with builder := { m.builder with stats := m.builder.stats.modify i fun s => { s with dict := d } } }

/-- `IntStreamVGram::accept` int_stream_vgram.cc:28-30. -/
def accept (E : Env F) (m : Stream F) (seq : IntSeq) : M (Stream F) := do
  let r := m.coder.encode seq
  let b ← m.builder.accept E r.2
  pure { m with coder := r.1, builder := b }

/-- `IntStreamVGram::parse` int_stream_vgram.cc:32-48.  Declared `const`, but it parses through a
pointer to a non-const dictionary, so the new state is returned too. -/
def parse (O : FloatOps F) (m : Stream F) (seq : IntSeq) : M (Stream F × List Int) := do
  let _ ← m.builder.alpha
  let d ← m.getDict
  let (d', out, _) ← d.parse O (m.coder.encodeImm seq) m.freqs m.totalFreqs []
  pure (m.setDict d', out)

/-- `IntStreamVGram::update_dict` int_stream_vgram.cc:50-57. -/
def updateDict (O : FloatOps F) (m : Stream F) : M (Stream F) :=
  if m.dict = .stat m.builder.resultIdx then .ok m
  else do
    let (b, fr) ← m.builder.resultFreqs m.freqs
    let mp ← b.getMinProbability O
    pure { m with
      dict := .stat m.builder.resultIdx
      builder := b
      freqs := fr
      totalFreqs := sumI fr
      minProb := some mp }

/-- The loop of `alphabet`, int_stream_vgram.cc:61-63. -/
def decodeAll (c : SeqCoder) : List IntSeq → M (List IntSeq)
  | [] => .ok []
  | w :: ws => do
    let x ← c.decode w
    let xs ← decodeAll c ws
    pure (x :: xs)

/-- `IntStreamVGram::alphabet` int_stream_vgram.cc:59-65. -/
def alphabet (m : Stream F) : M (List IntSeq) := do
  let d ← m.getDict
  decodeAll m.coder d.seqs

end Stream

/-- Data members of `IntVGram`, int_vgram.h:36-38. -/
structure IntVGram (F : Type) extends Stream F where
  iterNum : Int
  fitted : Bool
  freqsComputed : Bool

namespace IntVGram

variable {F : Type}

/-- `IntVGram(int size, int iter_num, int verbose)` int_vgram.cc:20-26, int_vgram.h:37-38. -/
def new (O : FloatOps F) (size iterNum : Int) : IntVGram F :=
  { Stream.new O size with iterNum := iterNum, fitted := false, freqsComputed := false }

/-- `IntVGram(coder, freqs, alphabet, size, min_probability, fitted, freqs_computed)`
int_vgram.cc:119-133. -/
def ofSaved (O : FloatOps F) (coder : SeqCoder) (freqs : List Int) (alphabet : List IntSeq) (size : Int)
    (minProb : F) (fitted freqsComputed : Bool) : M (IntVGram F) := do
  let m ← Stream.ofSaved O coder freqs alphabet size minProb
  pure { m with iterNum := 0, fitted := fitted, freqsComputed := freqsComputed }

/-- The environment of a `fit`/`transform` call: the values returned by `rand()`
(int_vgram.cc:42) and the answers of `isTerminated()` (int_vgram.cc:43, 75, 95, 108), both
indexed by the number of the call. -/
structure Sched where
  rand : Nat → Nat
  term : Nat → Bool

/-- The inner loop of `fit`, int_vgram.cc:41-46: `n` iterations are left, `t` calls of
`rand()`/`isTerminated()` have been made.  The `Bool` is "terminated". -/
def fitInner (E : Env F) (σ : Sched) (seqs : List IntSeq) : Nat → Nat → IntVGram F → M (IntVGram F × Nat × Bool)
  | 0, t, m => .ok (m, t, false)
  | n + 1, t, m => do
    let seq ← rd seqs ((σ.rand t % seqs.length : Nat) : Int)
    let s ← m.toStream.accept E seq
    let m' := { m with toStream := s }
    if σ.term t then pure (m', t + 1, true) else fitInner E σ seqs n (t + 1) m'

/-- The outer loop of `fit`, int_vgram.cc:37-52: `n` iterations are left. -/
def fitOuter (E : Env F) (σ : Sched) (seqs : List IntSeq) : Nat → Nat → IntVGram F → M (IntVGram F × Nat × Bool)
  | 0, t, m => .ok (m, t, false)
  | n + 1, t, m => do
    let (m1, t1, stop) ← fitInner E σ seqs seqs.length t m
    if stop then pure (m1, t1, true)
    else do
      let s ← m1.toStream.updateDict E.ops
      fitOuter E σ seqs n t1 { m1 with toStream := s }

/-- `freqs_[symb]++` for every non-negative id, int_vgram.cc:70-74. -/
def countIds : List Int → List Int → M (List Int)
  | fr, [] => .ok fr
  | fr, symb :: rest =>
    if 0 ≤ symb then do
      let a ← rd fr symb
      let fr' ← wr fr symb (a + 1)
      countIds fr' rest
    else countIds fr rest

/-- The loop of `recompute_freqs`, int_vgram.cc:67-78; the `Bool` is "terminated". -/
def recomputeLoop (O : FloatOps F) (σ : Sched) (fr : List Int) (total : Int) :
    List IntSeq → Nat → IntVGram F → M (IntVGram F × Nat × Bool)
  | [], t, m => .ok (m, t, false)
  | seq :: rest, t, m => do
    let r := m.coder.encode seq
    let d ← m.toStream.getDict
    let (d', out, _) ← d.parse O r.2 fr total []
    let freqs' ← countIds m.freqs out
    let m' := { m with toStream := { m.toStream.setDict d' with coder := r.1, freqs := freqs' } }
    if σ.term t then pure (m', t + 1, true) else recomputeLoop O σ fr total rest (t + 1) m'

/-- `IntVGram::recompute_freqs` int_vgram.cc:59-80. -/
def recomputeFreqs (O : FloatOps F) (σ : Sched) (t : Nat) (m : IntVGram F) (seqs : List IntSeq) :
    M (IntVGram F) := do
  let (b, fr) ← m.builder.resultFreqs []
  let m1 := { m with builder := b, freqs := List.replicate fr.length 0 }
  let (m2, _, stop) ← recomputeLoop O σ fr (sumI fr) seqs t m1
  if stop then pure m2 else pure { m2 with totalFreqs := sumI m2.freqs }

/-- `IntVGram::fit` int_vgram.cc:28-57.  The `Bool` is `true` when `this` is returned and `false`
for the null pointer. -/
def fit (E : Env F) (σ : Sched) (m : IntVGram F) (seqs : List IntSeq) : M (IntVGram F × Bool) := do
  if m.fitted then
    if m.freqsComputed then pure (m, true)
    else do
      let m' ← recomputeFreqs E.ops σ 0 m seqs
      pure ({ m' with freqsComputed := true }, true)
  else do
    let (m1, t, stop) ← fitOuter E σ seqs m.iterNum.toNat 0 m
    if stop then pure (m1, false)
    else do
      let m2 ← recomputeFreqs E.ops σ t { m1 with fitted := true } seqs
      pure ({ m2 with freqsComputed := true }, true)

/-- The loop of `transform`, int_vgram.cc:105-111. -/
def transformLoop (O : FloatOps F) (σ : Sched) : List IntSeq → Nat → Stream F → M (Stream F × List (List Int) × Nat)
  | [], t, m => .ok (m, [], t)
  | seq :: rest, t, m => do
    let (m', out) ← m.parse O seq
    if σ.term t then pure (m', [out], t + 1)
    else do
      let (m'', outs, t') ← transformLoop O σ rest (t + 1) m'
      pure (m'', out :: outs, t')

/-- `IntVGram::transform` int_vgram.cc:102-113. -/
def transform (O : FloatOps F) (σ : Sched) (m : IntVGram F) (seqs : List IntSeq) :
    M (IntVGram F × List (List Int)) := do
  let (s, outs, _) ← transformLoop O σ seqs 0 m.toStream
  pure ({ m with toStream := s }, outs)

/-- Decimal digits, most significant first (`std::to_string`). -/
def decAux : Nat → Nat → Str → Str
  | 0, _, acc => acc
  | fuel + 1, n, acc =>
    if n < 10 then Char.ofNat (48 + n) :: acc
    else decAux fuel (n / 10) (Char.ofNat (48 + n % 10) :: acc)

/-- `std::to_string(int)`. -/
def decInt : Int → Str
  | .ofNat n => decAux (n + 1) n []
  | .negSucc n => '-' :: decAux (n + 2) (n + 1) []

/-- The string built for one id list, int_vgram.cc:86-93. -/
def idString (ids : List Int) : Str :=
  let str := (ids.map fun i => ' ' :: decInt i).flatten
  if str.length = 0 then ['-', '1'] else str

/-- The loop of `transform_to_string`, int_vgram.cc:85-98, over the transformed sequences. -/
def stringLoop (σ : Sched) : List (List Int) → Nat → List Str
  | [], _ => []
  | ids :: rest, t => if σ.term t then [idString ids] else idString ids :: stringLoop σ rest (t + 1)

/-- `IntVGram::transform_to_string` int_vgram.cc:82-100. -/
def transformToString (O : FloatOps F) (σ : Sched) (m : IntVGram F) (seqs : List IntSeq) :
    M (IntVGram F × List Str) := do
  let (s, outs, t) ← transformLoop O σ seqs 0 m.toStream
  pure ({ m with toStream := s }, stringLoop σ outs t)

end IntVGram

end VGram
