import Verif.Model.StringVGram

/-!
# Model of `Saver` and `Loader`

core/src/main/cpp/interfaces/saver.h, loader.h, and the conversions of json.h they use.
The file content is a JSON tree; the text level is in `JsonText.lean`.
-/

namespace VGram

/-- A `nlohmann::json` value.  An object is a `std::map`; its entries are listed in iteration order, that is by key. -/
inductive Json (F : Type)
  | null
  | bool (b : Bool)
  | int (i : Int)
  | num (x : F)
  | str (s : Str)
  | arr (l : List (Json F))
  | obj (l : List (Str × Json F))

namespace Json

variable {F : Type}

/-- Keys used by saver.h / loader.h. -/
def kSize : Str := ['s', 'i', 'z', 'e']
@[inherit_doc kSize] def kMinProb : Str := ['m', 'i', 'n', '_', 'p', 'r', 'o', 'b']
@[inherit_doc kSize] def kCoder : Str := ['c', 'o', 'd', 'e', 'r']
@[inherit_doc kSize] def kAlphabet : Str := ['a', 'l', 'p', 'h', 'a', 'b', 'e', 't']
@[inherit_doc kSize] def kFitted : Str := ['f', 'i', 't', 't', 'e', 'd']
@[inherit_doc kSize] def kFreqsComputed : Str := ['f', 'r', 'e', 'q', 's', '_', 'c', 'o', 'm', 'p', 'u', 't', 'e', 'd']
@[inherit_doc kSize] def kVec : Str := ['v', 'e', 'c']
@[inherit_doc kSize] def kFreq : Str := ['f', 'r', 'e', 'q']
@[inherit_doc kSize] def kText : Str := ['t', 'e', 'x', 't']

/-- A double stored into a json value and written to the file: non-finite numbers are dumped as
`null` (json.h `serializer::dump_float`). -/
def ofNum (O : FloatOps F) (x : F) : Json F := if O.isFinite x then .num x else .null

/-- `j.push_back` repeatedly on a default-constructed `json`: stays `null` when nothing is pushed. -/
def ofPushed (l : List (Json F)) : Json F := if l.isEmpty then .null else .arr l

/-- `get<int>()`, json.h:1467-1496. -/
def getInt (O : FloatOps F) : Json F → M Int
  | .int i => .ok i
  | .num x => .ok (O.trunc x)
  | .bool b => .ok (if b then 1 else 0)
  | _ => .error .jsonType

/-- `get<double>()`, json.h:1243-1266. -/
def getNum (O : FloatOps F) : Json F → M F
  | .int i => .ok (O.ofInt i)
  | .num x => .ok x
  | _ => .error .jsonType

/-- `get<bool>()`, json.h:1269-1276. -/
def getBool : Json F → M Bool
  | .bool b => .ok b
  | _ => .error .jsonType

/-- `get<std::string>()`, json.h:1279-1288. -/
def getStr : Json F → M Str
  | .str s => .ok s
  | _ => .error .jsonType

/-- `get<int>()` of every element. -/
def getInts (O : FloatOps F) : List (Json F) → M (List Int)
  | [] => .ok []
  | j :: js => do
    let i ← j.getInt O
    let is ← getInts O js
    pure (i :: is)

/-- `get<IntSeq>()`, json.h:1419-1434 (must be an array). -/
def getIntSeq (O : FloatOps F) : Json F → M (List Int)
  | .arr l => getInts O l
  | _ => .error .jsonType

/-- Elements visited by a range-for over a json value: nothing for `null`, elements of an array,
values of an object, the value itself for a scalar. -/
def elems : Json F → List (Json F)
  | .null => []
  | .arr l => l
  | .obj l => l.map (·.2)
  | j => [j]

/-- Non-const `operator[](key)`, json.h:15446-15463: a missing key (or a `null` receiver) gives
`null`, a non-object throws `type_error` 305. -/
def field (j : Json F) (k : Str) : M (Json F) :=
  match j with
  | .null => .ok .null
  | .obj l => .ok ((AMap.get? l k).getD .null)
  | _ => .error .jsonType

/-- Const `operator[](key)`, json.h:15495-15505: a missing key is undefined behaviour. -/
def fieldConst (j : Json F) (k : Str) : M (Json F) :=
  match j with
  | .obj l => match AMap.get? l k with
    | some v => .ok v
    | none => .error .jsonKey
  | _ => .error .jsonType

end Json

namespace Saver

variable {F : Type}

/-- Insertion by code, for `std::sort(pairs, a.second < b.second)` saver.h:64-65. -/
def insertByCode (p : Int × Int) : List (Int × Int) → List (Int × Int)
  | [] => [p]
  | q :: qs => if p.2 ≤ q.2 then p :: q :: qs else q :: insertByCode p qs

/-- `std::sort` of the code map by code, saver.h:64-65. -/
def sortByCode : List (Int × Int) → List (Int × Int)
  | [] => []
  | p :: ps => insertByCode p (sortByCode ps)

/-- `coder_to_json` saver.h:62-71.  (The source takes `begin()` and `end()` of two different
temporaries at :63; the model assumes this behaves as intended.) -/
def coderJson (c : SeqCoder) : Json F := .ofPushed ((sortByCode c.codeMap).map fun p => .int p.1)

/-- The loop of `alphabet_to_json`, saver.h:78-86; `i` is the loop counter. -/
def alphabetLoop (freqs : List Int) (coder : SeqCoder) (tok : Option Tokenizer) :
    Nat → List IntSeq → M (List (Json F))
  | _, [] => .ok []
  | i, w :: ws => do
    let f ← rd freqs (i : Int)
    let text : List (Str × Json F) ← match tok with
      | none => pure []
      | some t => do
        let x ← coder.decode w
        pure [(Json.kText, .str (t.decode x))]
    let rest ← alphabetLoop freqs coder tok (i + 1) ws
    pure (.obj ((Json.kFreq, .int f) :: text ++ [(Json.kVec, .arr (w.map .int))]) :: rest)

/-- `add_base_info` saver.h:49-55.  `more` are the entries of `add_fitted_info`, whose keys lie between `"coder"` and `"min_prob"`. -/
def baseInfo (O : FloatOps F) (m : Stream F) (tok : Option Tokenizer) (more : List (Str × Json F)) : M (List (Str × Json F)) := do
  let mp ← match m.minProb with
    | some x => pure x
    | none => .error .uninit
  let d ← m.getDict
  let alpha ← alphabetLoop m.freqs m.coder tok 0 d.seqs
  pure ([(Json.kAlphabet, .ofPushed alpha), (Json.kCoder, coderJson m.coder)] ++ more ++ [(Json.kMinProb, Json.ofNum O mp), (Json.kSize, .int m.size)])

/-- `add_fitted_info` saver.h:57-60. -/
def fittedInfo (m : IntVGram F) : List (Str × Json F) :=
  [(Json.kFitted, .bool m.fitted), (Json.kFreqsComputed, .bool m.freqsComputed)]

/-- `Saver::save(const IntStreamVGram*)` saver.h:15-19; also what `IntVGram::save` runs, because
`IntStreamVGram::save` (int_stream_vgram.cc:71-73) is not virtual and its `this` is an
`IntStreamVGram*`. -/
def saveStream (O : FloatOps F) (m : Stream F) : M (Json F) := do
  let b ← baseInfo O m none []
  pure (.obj b)

/-- `IntVGram::save`, inherited from `IntStreamVGram`, int_stream_vgram.cc:71-73. -/
def saveIntVGram (O : FloatOps F) (m : IntVGram F) : M (Json F) := saveStream O m.toStream

/-- `Saver::save(const StringStreamVGram*)` saver.h:28-32. -/
def saveStringStream (O : FloatOps F) (m : StringStream F) : M (Json F) := do
  let b ← baseInfo O m.stream (some m.tok) []
  pure (.obj b)

/-- `Saver::save(const StringVGram*)` saver.h:34-39. -/
def saveStringVGram (O : FloatOps F) (m : StringVGram F) : M (Json F) := do
  let b ← baseInfo O m.int.toStream (some m.tok) (fittedInfo m.int)
  pure (.obj b)

end Saver

namespace Loader

variable {F : Type}

/-- `read_coder` loader.h:81-85. -/
def readCoder (O : FloatOps F) : List (Json F) → SeqCoder → M SeqCoder
  | [], c => .ok c
  | j :: js, c => do
    let n ← j.getInt O
    readCoder O js (c.encode [n]).1

/-- `read_alphabet` loader.h:87-92: frequencies and words. -/
def readAlphabet (O : FloatOps F) : List (Json F) → M (List Int × List IntSeq)
  | [] => .ok ([], [])
  | j :: js => do
    let jf ← j.fieldConst Json.kFreq
    let f ← jf.getInt O
    let jv ← j.fieldConst Json.kVec
    let v ← jv.getIntSeq O
    let (fs, vs) ← readAlphabet O js
    pure (f :: fs, v :: vs)

/-- Result of `read_dict`. -/
structure Info (F : Type) where
  size : Int
  minProb : F
  coder : SeqCoder
  freqs : List Int
  alphabet : List IntSeq

/-- `read_dict` loader.h:59-71. -/
def readDict (O : FloatOps F) (j : Json F) : M (Info F) := do
  let js ← j.field Json.kSize
  let size ← js.getInt O
  let jm ← j.field Json.kMinProb
  let mp ← jm.getNum O
  let jc ← j.field Json.kCoder
  let coder ← readCoder O jc.elems SeqCoder.new
  let ja ← j.field Json.kAlphabet
  let (fs, ws) ← readAlphabet O ja.elems
  pure ⟨size, mp, coder, fs, ws⟩

/-- `load_int_stream_vgram` loader.h:13-21. -/
def loadStream (O : FloatOps F) (j : Json F) : M (Stream F) := do
  let i ← readDict O j
  Stream.ofSaved O i.coder i.freqs i.alphabet i.size i.minProb

/-- `load_int_vgram` and `read_fitable_dict`, loader.h:23-34, 50-57. -/
def loadIntVGram (O : FloatOps F) (j : Json F) : M (IntVGram F) := do
  let i ← readDict O j
  let jf ← j.field Json.kFitted
  let fitted ← jf.getBool
  let jc ← j.field Json.kFreqsComputed
  let computed ← jc.getBool
  IntVGram.ofSaved O i.coder i.freqs i.alphabet i.size i.minProb fitted computed

/-- The loop of `load_tokenizer`, loader.h:98-104. -/
def tokenizerLoop (O : FloatOps F) (c : SeqCoder) : List (Json F) → AMap Str Int → M (AMap Str Int)
  | [], m => .ok m
  | j :: js, m => do
    let jv ← j.fieldConst Json.kVec
    let codes ← jv.getIntSeq O
    let vec ← c.decode codes
    match vec with
    | [x] => do
      let jt ← j.fieldConst Json.kText
      let key ← jt.getStr
      tokenizerLoop O c js (AMap.set m key x)
    | _ => tokenizerLoop O c js m

/-- `load_tokenizer` loader.h:94-107: always a `CharTokenizer`. -/
def loadTokenizer (O : FloatOps F) (c : SeqCoder) (j : Json F) : M Tokenizer := do
  let ja ← j.field Json.kAlphabet
  let m ← tokenizerLoop O c ja.elems []
  pure (Tokenizer.ofMap .char m)

/-- `load_string_stream_vgram` loader.h:36-40. -/
def loadStringStream (O : FloatOps F) (j : Json F) : M (StringStream F) := do
  let m ← loadStream O j
  let t ← loadTokenizer O m.coder j
  pure (StringStream.ofParts m t)

/-- `load_string_vgram` loader.h:42-47. -/
def loadStringVGram (O : FloatOps F) (j : Json F) : M (StringVGram F) := do
  let m ← loadIntVGram O j
  let t ← loadTokenizer O m.coder j
  pure ⟨m, t⟩

end Loader

end VGram
