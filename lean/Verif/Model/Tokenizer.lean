import Verif.Model.Basic

/-!
# Model of `BaseTokenizer`, `CharTokenizer`, `WordTokenizer`

core/src/main/cpp/interfaces/tokenizers/*.cc
-/

namespace VGram

/-- Which subclass of `BaseTokenizer` an object is (char_tokenizer.cc, word_tokenizer.cc). -/
inductive TokKind
  | char | word
  deriving DecidableEq, Repr

/-- Order of evaluation of `forward_coder_[symb] = static_cast<int>(forward_coder_.size())`
(base_tokenizer.cc:36).  Before C++17 it is unspecified whether the subscript (which inserts a
new entry) or the right-hand side is evaluated first; the project is compiled as C++14. -/
inductive EvalOrder
  | rhsFirst | lhsFirst
  deriving DecidableEq, Repr

/-- `forward_coder_`, `backward_coder_` base_tokenizer.h:36-37, plus the dynamic type. -/
structure Tokenizer where
  kind : TokKind
  forward : AMap Str Int
  backward : AMap Int Str
  deriving DecidableEq, Repr

/-- `isalnum` in the "C" locale.  Simplification: for negative `char` values the C function is
formally undefined; like glibc the model answers "no". -/
def isAlnum (c : Char) : Bool :=
  (48 ≤ c.toNat && c.toNat ≤ 57) || (65 ≤ c.toNat && c.toNat ≤ 90) || (97 ≤ c.toNat && c.toNat ≤ 122)

/-- `::tolower` in the "C" locale. -/
def lower (c : Char) : Char := if 65 ≤ c.toNat && c.toNat ≤ 90 then Char.ofNat (c.toNat + 32) else c

namespace Tokenizer

/-- Default constructors, char_tokenizer.cc:12, word_tokenizer.cc:10. -/
def new (k : TokKind) : Tokenizer := ⟨k, [], []⟩

/-- `BaseTokenizer(forward_map)` base_tokenizer.cc:14-19.  The loop order over the hash map is
the list order of `m`; it matters only if two tokens share a code. -/
def ofMap (k : TokKind) (m : AMap Str Int) : Tokenizer :=
  ⟨k, m, m.foldl (fun b p => AMap.set b p.2 p.1) []⟩

/-- `normalize` char_tokenizer.cc:16-30, word_tokenizer.cc:14-16. -/
def normalize (k : TokKind) (s : Str) : Str :=
  match k with
  | .char => (s.filter isAlnum).map lower
  | .word => s

/-- The loop of `WordTokenizer::tokenize`, word_tokenizer.cc:21-31, with the state `current`. -/
def wordLoop : Str → Str → List Str
  | cur, [] => if cur = [] then [] else [cur]
  | cur, c :: cs => if c = ' ' ∧ cur ≠ [] then cur :: wordLoop [] cs else wordLoop (cur ++ [c]) cs

/-- `tokenize` char_tokenizer.cc:32-38, word_tokenizer.cc:18-33. -/
def tokenize (k : TokKind) (s : Str) : List Str :=
  match k with
  | .char => s.map fun c => [c]
  | .word => wordLoop [] s

/-- One iteration of the loop in `transform`, base_tokenizer.cc:34-40.  `backward_coder_` is
indexed by its own size *before* the insertion (base_tokenizer.cc:37). -/
def codeOne (o : EvalOrder) (t : Tokenizer) (tok : Str) : Tokenizer × Int :=
  match t.forward.get? tok with
  | some k => (t, k)
  | none =>
    let k : Int := match o with
      | .rhsFirst => t.forward.length
      | .lhsFirst => t.forward.length + 1
    (⟨t.kind, t.forward.set tok k, t.backward.set (t.backward.length : Int) tok⟩, k)

/-- The loop in `transform`, base_tokenizer.cc:34-40. -/
def codeAll (o : EvalOrder) (t : Tokenizer) : List Str → Tokenizer × List Int
  | [] => (t, [])
  | x :: xs =>
    let r := t.codeOne o x
    let rest := codeAll o r.1 xs
    (rest.1, r.2 :: rest.2)

/-- `BaseTokenizer::transform(const string&)` base_tokenizer.cc:30-42. -/
def transform (o : EvalOrder) (t : Tokenizer) (s : Str) : Tokenizer × List Int :=
  t.codeAll o (tokenize t.kind (normalize t.kind s))

/-- `BaseTokenizer::transform(const vector<string>&)` base_tokenizer.cc:21-28. -/
def transformAll (o : EvalOrder) (t : Tokenizer) : List Str → Tokenizer × List (List Int)
  | [] => (t, [])
  | s :: ss =>
    let r := t.transform o s
    let rest := transformAll o r.1 ss
    (rest.1, r.2 :: rest.2)

/-- `BaseTokenizer::decode(const vector<int>&)` base_tokenizer.cc:57-65: unknown codes are skipped. -/
def decode (t : Tokenizer) (seq : List Int) : Str := (seq.filterMap t.backward.get?).flatten

end Tokenizer

end VGram
