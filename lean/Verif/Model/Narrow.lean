import Verif.Model.Persist

/-!
# `Loader` with 32-bit integers

`Persist.lean` reads numbers of a file as unbounded integers.  This is `Loader` (core/src/main/cpp/interfaces/loader.h) once more, with the conversions to `int` that
`get<int>()` performs: `static_cast<int>` of a 64-bit integer or of a `double` (json.h:1467-1496).
-/

namespace VGram

namespace Json

variable {F : Type}

/-- `static_cast<int>` of a 64-bit integer keeps the lowest 32 bits.  (Implementation-defined before C++20; this is what GCC, Clang and MSVC do.) -/
def narrow (i : Int) : Int := (i + 2 ^ 31) % 2 ^ 32 - 2 ^ 31

/-- `get<int>()`, json.h:1467-1496.  Converting a `double` is undefined if the integral part does not fit. -/
def castInt (O : FloatOps F) : Json F → M Int
  | .int i => .ok (narrow i)
  | .num x => if O.isFinite x = true ∧ -(2 ^ 31) ≤ O.trunc x ∧ O.trunc x < 2 ^ 31 then .ok (O.trunc x) else .error .badCast
  | .bool b => .ok (if b then 1 else 0)
  | _ => .error .jsonType

/-- `get<int>()` of every element. -/
def castInts (O : FloatOps F) : List (Json F) → M (List Int)
  | [] => .ok []
  | j :: js => do
    let i ← j.castInt O
    let is ← castInts O js
    pure (i :: is)

/-- `get<IntSeq>()`, json.h:1419-1434 (must be an array). -/
def castIntSeq (O : FloatOps F) : Json F → M (List Int)
  | .arr l => castInts O l
  | _ => .error .jsonType

end Json

namespace Narrow

open Loader (Info)

variable {F : Type}

/-- `read_coder` loader.h:81-85. -/
def readCoder (O : FloatOps F) : List (Json F) → SeqCoder → M SeqCoder
  | [], c => .ok c
  | j :: js, c => do
    let n ← j.castInt O
    readCoder O js (c.encode [n]).1

/-- `read_alphabet` loader.h:87-92. -/
def readAlphabet (O : FloatOps F) : List (Json F) → M (List Int × List IntSeq)
  | [] => .ok ([], [])
  | j :: js => do
    let jf ← j.fieldConst Json.kFreq
    let f ← jf.castInt O
    let jv ← j.fieldConst Json.kVec
    let v ← jv.castIntSeq O
    let (fs, vs) ← readAlphabet O js
    pure (f :: fs, v :: vs)

/-- `read_dict` loader.h:59-71. -/
def readDict (O : FloatOps F) (j : Json F) : M (Info F) := do
  let js ← j.field Json.kSize
  let size ← js.castInt O
  let jm ← j.field Json.kMinProb
  let mp ← jm.getNum O
  let jc ← j.field Json.kCoder
  let coder ← readCoder O jc.elems SeqCoder.new
  let ja ← j.field Json.kAlphabet
  let (fs, ws) ← readAlphabet O ja.elems
  pure ⟨size, mp, coder, fs, ws⟩

/-- `load_int_stream_vgram` loader.h:13-21. -/
def loadStream (O : FloatOps F) (j : Json F) : M (Stream F) := do
  let i ← readDict O j
  Stream.ofSaved O i.coder i.freqs i.alphabet i.size i.minProb

/-- `load_int_vgram` and `read_fitable_dict`, loader.h:23-34, 50-57. -/
def loadIntVGram (O : FloatOps F) (j : Json F) : M (IntVGram F) := do
  let i ← readDict O j
  let jf ← j.field Json.kFitted
  let fitted ← jf.getBool
  let jc ← j.field Json.kFreqsComputed
  let computed ← jc.getBool
  IntVGram.ofSaved O i.coder i.freqs i.alphabet i.size i.minProb fitted computed

/-- The loop of `load_tokenizer`, loader.h:98-104. -/
def tokenizerLoop (O : FloatOps F) (c : SeqCoder) : List (Json F) → AMap Str Int → M (AMap Str Int)
  | [], m => .ok m
  | j :: js, m => do
    let jv ← j.fieldConst Json.kVec
    let codes ← jv.castIntSeq O
    let vec ← c.decode codes
    match vec with
    | [x] => do
      let jt ← j.fieldConst Json.kText
      let key ← jt.getStr
      tokenizerLoop O c js (AMap.set m key x)
    | _ => tokenizerLoop O c js m

/-- `load_tokenizer` loader.h:94-107. -/
def loadTokenizer (O : FloatOps F) (c : SeqCoder) (j : Json F) : M Tokenizer := do
  let ja ← j.field Json.kAlphabet
  let m ← tokenizerLoop O c ja.elems []
  pure (Tokenizer.ofMap .char m)

/-- `load_string_stream_vgram` loader.h:36-40. -/
def loadStringStream (O : FloatOps F) (j : Json F) : M (StringStream F) := do
  let m ← loadStream O j
  let t ← loadTokenizer O m.coder j
  pure (StringStream.ofParts m t)

/-- `load_string_vgram` loader.h:42-47. -/
def loadStringVGram (O : FloatOps F) (j : Json F) : M (StringVGram F) := do
  let m ← loadIntVGram O j
  let t ← loadTokenizer O m.coder j
  pure ⟨m, t⟩

end Narrow

end VGram
