import Verif.Model.Stream
import Verif.Model.Tokenizer

/-!
# Model of `StringStreamVGram` and `StringVGram`

core/src/main/cpp/interfaces/vgram_builders/string_stream_vgram.cc, string_vgram.cc
-/

namespace VGram

/-- Data members of `StringStreamVGram`, string_stream_vgram.h:44-48. -/
structure StringStream (F : Type) where
  stream : Stream F
  tok : Tokenizer
  wordsAreTokens : Bool
  innerWordsSplit : Bool

namespace StringStream

variable {F : Type}

/-- `StringStreamVGram(size, verbose, inner_words_split, words_are_tokens)` and `check_args`,
string_stream_vgram.cc:14-28, 70-74. -/
def new (O : FloatOps F) (size : Int) (innerWordsSplit wordsAreTokens : Bool) : M (StringStream F) :=
  if wordsAreTokens && innerWordsSplit then .error .invalidArg
  else .ok ⟨Stream.new O size, Tokenizer.new (if wordsAreTokens then .word else .char),
    wordsAreTokens, innerWordsSplit⟩

/-- `StringStreamVGram(stream_builder, tokenizer, …)` with the default flags,
string_stream_vgram.cc:30-36, as called by the loader. -/
def ofParts (m : Stream F) (t : Tokenizer) : StringStream F := ⟨m, t, false, false⟩

/-- `accept` string_stream_vgram.cc:38-40. -/
def accept (E : Env F) (o : EvalOrder) (m : StringStream F) (s : Str) : M (StringStream F) := do
  let r := m.tok.transform o s
  let st ← m.stream.accept E r.2
  pure { m with tok := r.1, stream := st }

/-- The loop of `parse`, string_stream_vgram.cc:46-50. -/
def wordsOf (m : Stream F) (t : Tokenizer) : List Int → M (List Str)
  | [] => .ok []
  | id :: rest => do
    let d ← m.getDict
    let raw ← rd d.seqs id
    let w ← m.coder.decode raw
    let ws ← wordsOf m t rest
    pure (t.decode w :: ws)

/-- `parse` string_stream_vgram.cc:42-52; it assigns codes to new tokens although it is `const`. -/
def parse (O : FloatOps F) (o : EvalOrder) (m : StringStream F) (s : Str) : M (StringStream F × List Str) := do
  let r := m.tok.transform o s
  let (st, ids) ← m.stream.parse O r.2
  let ws ← wordsOf st r.1 ids
  pure ({ m with tok := r.1, stream := st }, ws)

/-- `update_dict` string_stream_vgram.cc:54-56. -/
def updateDict (O : FloatOps F) (m : StringStream F) : M (StringStream F) := do
  let st ← m.stream.updateDict O
  pure { m with stream := st }

/-- `alphabet` string_stream_vgram.cc:58-60. -/
def alphabet (m : StringStream F) : M (List Str) := do
  let ws ← m.stream.alphabet
  pure (ws.map m.tok.decode)

end StringStream

/-- Data members of `StringVGram`, string_vgram.h:43-44. -/
structure StringVGram (F : Type) where
  int : IntVGram F
  tok : Tokenizer

namespace StringVGram

variable {F : Type}

/-- `StringVGram(size, iter_num, …)` string_vgram.cc:11-23.  The tokenizer is a fresh one of the given kind. -/
def new (O : FloatOps F) (size iterNum : Int) (k : TokKind) : StringVGram F :=
  ⟨IntVGram.new O size iterNum, Tokenizer.new k⟩

/-- `fit` string_vgram.cc:25-28 (returns `this` even when the inner `fit` was interrupted). -/
def fit (E : Env F) (o : EvalOrder) (σ : IntVGram.Sched) (m : StringVGram F) (seqs : List Str) :
    M (StringVGram F) := do
  let r := m.tok.transformAll o seqs
  let (i, _) ← m.int.fit E σ r.2
  pure ⟨i, r.1⟩

/-- The inner loop of `transform`, string_vgram.cc:36-41; the accumulator is `decoded_words`. -/
def joinWords (t : Tokenizer) (alphabet : List IntSeq) : List Int → Str → M Str
  | [], acc => .ok acc
  | id :: rest, acc => do
    let w ← rd alphabet id
    joinWords t alphabet rest ((if acc = [] then acc else acc ++ [' ']) ++ t.decode w)

/-- The outer loop of `transform`, string_vgram.cc:34-43. -/
def joinAll (t : Tokenizer) (alphabet : List IntSeq) : List (List Int) → M (List Str)
  | [] => .ok []
  | ids :: rest => do
    let s ← joinWords t alphabet ids []
    let ss ← joinAll t alphabet rest
    pure (s :: ss)

/-- `transform` string_vgram.cc:30-45. -/
def transform (O : FloatOps F) (o : EvalOrder) (σ : IntVGram.Sched) (m : StringVGram F) (seqs : List Str) :
    M (StringVGram F × List Str) := do
  let r := m.tok.transformAll o seqs
  let (i, outs) ← m.int.transform O σ r.2
  let alpha ← i.toStream.alphabet
  let ss ← joinAll r.1 alpha outs
  pure (⟨i, r.1⟩, ss)

/-- `alphabet` string_vgram.cc:55-57. -/
def alphabet (m : StringVGram F) : M (List Str) := do
  let ws ← m.int.toStream.alphabet
  pure (ws.map m.tok.decode)

end StringVGram

end VGram
