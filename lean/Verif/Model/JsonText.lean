import Verif.Model.Persist

/-!
# Model of the text level of json.h: `serializer`, `lexer`, `parser`

core/src/main/cpp/interfaces/json.h.  A byte is the `Char` with the same number.  The locale is the C locale.
-/

namespace VGram

variable {F : Type}

/-- The conversions between `double` and decimal digits, which are not modelled: the sign bit, the test for zero, `grisu2`
(json.h:10486, shortest digits of the absolute value and their decimal exponent) and `strtod`. -/
structure TextOps (F : Type) where
  signbit : F → Bool
  isZero : F → Bool
  grisu : F → Str × Int
  strtod : Str → F

/-! ## Writing -/

/-- What a sequence of writes put into the stream, and whether it ended without an exception. -/
structure Out where
  text : Str
  done : Bool
  deriving DecidableEq, Repr

namespace Out

/-- One successful write. -/
def put (s : Str) : Out := ⟨s, true⟩

/-- `a; b`: nothing of `b` is executed after an exception in `a`. -/
def seq (a b : Out) : Out := if a.done then ⟨a.text ++ b.text, b.done⟩ else a

@[inherit_doc] infixr:67 " ;; " => Out.seq

end Out

namespace Dump

/-- The digit character of `k`. -/
def digit (k : Nat) : Char := Char.ofNat (48 + k)

/-- `append_exponent` json.h:10591-10632. -/
def appendExponent (e : Int) : Str :=
  let k := e.natAbs
  (if e < 0 then '-' else '+') ::
    (if k < 10 then ['0', digit k]
    else if k < 100 then [digit (k / 10), digit (k % 10)]
    else [digit (k / 100), digit (k % 100 / 10), digit (k % 100 % 10)])

/-- `format_buffer` json.h:10643-10707. -/
def formatBuffer (buf : Str) (decimalExponent minExp maxExp : Int) : Str :=
  let k : Int := buf.length
  let n : Int := k + decimalExponent
  if k ≤ n ∧ n ≤ maxExp then buf ++ List.replicate (n - k).toNat '0' ++ ['.', '0']
  else if 0 < n ∧ n ≤ maxExp then buf.take n.toNat ++ '.' :: buf.drop n.toNat
  else if minExp < n ∧ n ≤ 0 then '0' :: '.' :: (List.replicate (-n).toNat '0' ++ buf)
  else if k = 1 then buf ++ 'e' :: appendExponent (n - 1)
  else buf.take 1 ++ '.' :: (buf.drop 1 ++ 'e' :: appendExponent (n - 1))

/-- `to_chars` json.h:10726-10769. -/
def toChars (T : TextOps F) (x : F) : Str :=
  (if T.signbit x then ['-'] else []) ++
    (if T.isZero x then ['0', '.', '0'] else formatBuffer (T.grisu x).1 (T.grisu x).2 (-4) 15)

/-- The loop of `dump_integer`, json.h:11317-11325: digits of `x`, last one first. -/
def revDigits : Nat → Nat → Str
  | 0, _ => []
  | fuel + 1, x => if x = 0 then [] else digit (x % 10) :: revDigits fuel (x / 10)

/-- `dump_integer` json.h:11305-11336. -/
def dumpInt (x : Int) : Str :=
  if x = 0 then ['0']
  else (revDigits x.natAbs x.natAbs ++ if x < 0 then ['-'] else []).reverse

/-- The table of `decode`, json.h:11430-11449. -/
def utf8d : List Nat := [
  0, 0, 0, 0, 0, 0, 0, 0, 0, 0, 0, 0, 0, 0, 0, 0, 0, 0, 0, 0, 0, 0, 0, 0, 0, 0, 0, 0, 0, 0, 0, 0,
  0, 0, 0, 0, 0, 0, 0, 0, 0, 0, 0, 0, 0, 0, 0, 0, 0, 0, 0, 0, 0, 0, 0, 0, 0, 0, 0, 0, 0, 0, 0, 0,
  0, 0, 0, 0, 0, 0, 0, 0, 0, 0, 0, 0, 0, 0, 0, 0, 0, 0, 0, 0, 0, 0, 0, 0, 0, 0, 0, 0, 0, 0, 0, 0,
  0, 0, 0, 0, 0, 0, 0, 0, 0, 0, 0, 0, 0, 0, 0, 0, 0, 0, 0, 0, 0, 0, 0, 0, 0, 0, 0, 0, 0, 0, 0, 0,
  1, 1, 1, 1, 1, 1, 1, 1, 1, 1, 1, 1, 1, 1, 1, 1, 9, 9, 9, 9, 9, 9, 9, 9, 9, 9, 9, 9, 9, 9, 9, 9,
  7, 7, 7, 7, 7, 7, 7, 7, 7, 7, 7, 7, 7, 7, 7, 7, 7, 7, 7, 7, 7, 7, 7, 7, 7, 7, 7, 7, 7, 7, 7, 7,
  8, 8, 2, 2, 2, 2, 2, 2, 2, 2, 2, 2, 2, 2, 2, 2, 2, 2, 2, 2, 2, 2, 2, 2, 2, 2, 2, 2, 2, 2, 2, 2,
  0xA, 0x3, 0x3, 0x3, 0x3, 0x3, 0x3, 0x3, 0x3, 0x3, 0x3, 0x3, 0x3, 0x4, 0x3, 0x3,
  0xB, 0x6, 0x6, 0x6, 0x5, 0x8, 0x8, 0x8, 0x8, 0x8, 0x8, 0x8, 0x8, 0x8, 0x8, 0x8,
  0x0, 0x1, 0x2, 0x3, 0x5, 0x8, 0x7, 0x1, 0x1, 0x1, 0x4, 0x6, 0x1, 0x1, 0x1, 0x1,
  1, 1, 1, 1, 1, 1, 1, 1, 1, 1, 1, 1, 1, 1, 1, 1, 1, 0, 1, 1, 1, 1, 1, 0, 1, 0, 1, 1, 1, 1, 1, 1,
  1, 2, 1, 1, 1, 1, 1, 2, 1, 2, 1, 1, 1, 1, 1, 1, 1, 1, 1, 1, 1, 1, 1, 2, 1, 1, 1, 1, 1, 1, 1, 1,
  1, 2, 1, 1, 1, 1, 1, 1, 1, 2, 1, 1, 1, 1, 1, 1, 1, 1, 1, 1, 1, 1, 1, 3, 1, 3, 1, 1, 1, 1, 1, 1,
  1, 3, 1, 1, 1, 1, 1, 3, 1, 3, 1, 1, 1, 1, 1, 1, 1, 3, 1, 1, 1, 1, 1, 1, 1, 1, 1, 1, 1, 1, 1, 1]

/-- `decode` json.h:11428-11459: new state and code point.  A `Char` above 255 is not a byte and is treated as an invalid one. -/
def decode (state codep byte : Nat) : Nat × Nat :=
  let type := if byte < 256 then utf8d.getD byte 8 else 8
  (utf8d.getD (256 + state * 16 + type) 1, if state ≠ 0 then (byte % 64 + codep * 64) % 2 ^ 32 else (0xff >>> type) &&& byte)

/-- A lower-case hexadecimal digit. -/
def hexDigit (k : Nat) : Char := if k < 10 then Char.ofNat (48 + k) else Char.ofNat (87 + k)

/-- The switch of `dump_escaped` for a complete code point, json.h:11078-11156, with `ensure_ascii` false;
`c` is the last byte of the code point. -/
def escapeOne (codepoint : Nat) (c : Char) : Str :=
  if codepoint = 0x08 then ['\\', 'b']
  else if codepoint = 0x09 then ['\\', 't']
  else if codepoint = 0x0A then ['\\', 'n']
  else if codepoint = 0x0C then ['\\', 'f']
  else if codepoint = 0x0D then ['\\', 'r']
  else if codepoint = 0x22 then ['\\', '"']
  else if codepoint = 0x5C then ['\\', '\\']
  else if codepoint ≤ 0x1F then ['\\', 'u', '0', '0', hexDigit (codepoint / 16), hexDigit (codepoint % 16)]
  else [c]

/-- `dump_escaped` json.h:11060-11294 with `error_handler_t::strict` and `ensure_ascii` false: `out` is what has been passed to the stream,
`buf` is the part of `string_buffer` that has not. -/
def escapeLoop : Str → Nat → Nat → Str → Str → Out
  | [], state, _, out, buf => if state = 0 then ⟨out ++ buf, true⟩ else ⟨out, false⟩
  | c :: cs, state, codep, out, buf =>
    let st := (decode state codep c.toNat).1
    let cp := (decode state codep c.toNat).2
    if st = 0 then
      let buf' := buf ++ escapeOne cp c
      if 512 - buf'.length < 13 then escapeLoop cs st cp (out ++ buf') [] else escapeLoop cs st cp out buf'
    else if st = 1 then ⟨out, false⟩
    else escapeLoop cs st cp out (buf ++ [c])

/-- A string value or a key between quotes, json.h:10992-10998. -/
def dumpStr (s : Str) : Out := Out.put ['"'] ;; escapeLoop s 0 0 [] [] ;; Out.put ['"']

/-- Indentation. -/
def spaces (n : Nat) : Out := Out.put (List.replicate n ' ')

mutual
/-- `dump` json.h:10853-11040 with `pretty_print` true, `ensure_ascii` false and `indent_step` 2; `ind` is `current_indent`. -/
def dump (O : FloatOps F) (T : TextOps F) (ind : Nat) : Json F → Out
  | .null => .put ['n', 'u', 'l', 'l']
  | .bool true => .put ['t', 'r', 'u', 'e']
  | .bool false => .put ['f', 'a', 'l', 's', 'e']
  | .int i => .put (dumpInt i)
  | .num x => .put (if O.isFinite x then toChars T x else ['n', 'u', 'l', 'l'])
  | .str s => dumpStr s
  | .arr [] => .put ['[', ']']
  | .arr (x :: xs) => .put ['[', '\n'] ;; dumpItems O T (ind + 2) (x :: xs) ;; .put ['\n'] ;; spaces ind ;; .put [']']
  | .obj [] => .put ['{', '}']
  | .obj (x :: xs) => .put ['{', '\n'] ;; dumpFields O T (ind + 2) (x :: xs) ;; .put ['\n'] ;; spaces ind ;; .put ['}']
termination_by structural j => j

/-- Elements of an array, json.h:10956-10968. -/
def dumpItems (O : FloatOps F) (T : TextOps F) (ind : Nat) : List (Json F) → Out
  | [] => .put []
  | [x] => spaces ind ;; dump O T ind x
  | x :: y :: ys => spaces ind ;; dump O T ind x ;; .put [',', '\n'] ;; dumpItems O T ind (y :: ys)
termination_by structural l => l

/-- Entries of an object, json.h:10880-10898. -/
def dumpFields (O : FloatOps F) (T : TextOps F) (ind : Nat) : List (Str × Json F) → Out
  | [] => .put []
  | [(k, v)] => spaces ind ;; dumpStr k ;; .put [':', ' '] ;; dump O T ind v
  | (k, v) :: y :: ys => spaces ind ;; dumpStr k ;; .put [':', ' '] ;; dump O T ind v ;; .put [',', '\n'] ;; dumpFields O T ind (y :: ys)
termination_by structural l => l
end

/-- `write_to_file` saver.h:42-47 for a file that can be opened: the bytes written, and whether no exception was thrown. -/
def writeFile (O : FloatOps F) (T : TextOps F) (j : Json F) : Out := dump O T 0 j ;; .put ['\n']

end Dump

/-! ## Reading -/

/-- `lexer::token_type` with the token's value, json.h:2484-2501. -/
inductive Tok (F : Type)
  | tTrue | tFalse | tNull
  | str (s : Str) | int (i : Int) | num (x : F)
  | lbrack | rbrack | lbrace | rbrace | colon | comma
  | err | eof

namespace Lex

/-- Which `get()` of `scan_string` comes next, json.h:2676-3255. -/
inductive SMode
  /-- the `get()` of the main loop -/
  | plain
  /-- the character after a backslash -/
  | esc
  /-- `k + 1` digits of `get_codepoint` are left; `hi` is a high surrogate read before -/
  | hex (k : Nat) (acc : Nat) (hi : Option Nat)
  /-- the backslash that must follow a high surrogate -/
  | lowBackslash (hi : Nat)
  /-- the `u` after that backslash -/
  | lowU (hi : Nat)
  /-- `next_byte_in_range`: the next byte must lie between `lo` and `hi`, then come the ranges in `rest` -/
  | cont (lo hi : Nat) (rest : List (Nat × Nat))
  deriving DecidableEq

/-- `get_codepoint` json.h:2598-2616, one digit. -/
def hexVal (c : Char) : Option Nat :=
  let n := c.toNat
  if 0x30 ≤ n ∧ n ≤ 0x39 then some (n - 0x30)
  else if 0x41 ≤ n ∧ n ≤ 0x46 then some (n - 0x37)
  else if 0x61 ≤ n ∧ n ≤ 0x66 then some (n - 0x57)
  else none

/-- The bytes of a code point, json.h:2804-2830. -/
def encodeCp (cp : Nat) : Str :=
  if cp < 0x80 then [Char.ofNat cp]
  else if cp ≤ 0x7FF then [Char.ofNat (0xC0 ||| (cp >>> 6)), Char.ofNat (0x80 ||| (cp &&& 0x3F))]
  else if cp ≤ 0xFFFF then [Char.ofNat (0xE0 ||| (cp >>> 12)), Char.ofNat (0x80 ||| ((cp >>> 6) &&& 0x3F)), Char.ofNat (0x80 ||| (cp &&& 0x3F))]
  else [Char.ofNat (0xF0 ||| (cp >>> 18)), Char.ofNat (0x80 ||| ((cp >>> 12) &&& 0x3F)), Char.ofNat (0x80 ||| ((cp >>> 6) &&& 0x3F)),
    Char.ofNat (0x80 ||| (cp &&& 0x3F))]

/-- The ranges for the bytes after a first byte `n ≥ 0x80`, json.h:3143-3247. -/
def contRanges (n : Nat) : Option (Nat × Nat × List (Nat × Nat)) :=
  if 0xC2 ≤ n ∧ n ≤ 0xDF then some (0x80, 0xBF, [])
  else if n = 0xE0 then some (0xA0, 0xBF, [(0x80, 0xBF)])
  else if (0xE1 ≤ n ∧ n ≤ 0xEC) ∨ n = 0xEE ∨ n = 0xEF then some (0x80, 0xBF, [(0x80, 0xBF)])
  else if n = 0xED then some (0x80, 0x9F, [(0x80, 0xBF)])
  else if n = 0xF0 then some (0x90, 0xBF, [(0x80, 0xBF), (0x80, 0xBF)])
  else if 0xF1 ≤ n ∧ n ≤ 0xF3 then some (0x80, 0xBF, [(0x80, 0xBF), (0x80, 0xBF)])
  else if n = 0xF4 then some (0x80, 0x8F, [(0x80, 0xBF), (0x80, 0xBF)])
  else none

/-- One character of `scan_string`: the next mode and the bytes added to the buffer, or `none` for a parse error.  Not used for the closing quote. -/
def stringStep (m : SMode) (c : Char) : Option (SMode × Str) :=
  match m with
  | .plain =>
    if c = '\\' then some (.esc, [])
    else if c.toNat ≤ 0x1F then none
    else if c.toNat ≤ 0x7F then some (.plain, [c])
    else match contRanges c.toNat with
      | some (lo, hi, rest) => some (.cont lo hi rest, [c])
      | none => none
  | .esc =>
    if c = '"' ∨ c = '\\' ∨ c = '/' then some (.plain, [c])
    else if c = 'b' then some (.plain, [Char.ofNat 8])
    else if c = 'f' then some (.plain, [Char.ofNat 12])
    else if c = 'n' then some (.plain, [Char.ofNat 10])
    else if c = 'r' then some (.plain, [Char.ofNat 13])
    else if c = 't' then some (.plain, [Char.ofNat 9])
    else if c = 'u' then some (.hex 3 0 none, [])
    else none
  | .hex k acc hi =>
    match hexVal c with
    | none => none
    | some d =>
      let cp := acc * 16 + d
      match k with
      | k' + 1 => some (.hex k' cp hi, [])
      | 0 =>
        match hi with
        | none =>
          if 0xD800 ≤ cp ∧ cp ≤ 0xDBFF then some (.lowBackslash cp, [])
          else if 0xDC00 ≤ cp ∧ cp ≤ 0xDFFF then none
          else some (.plain, encodeCp cp)
        | some h =>
          if 0xDC00 ≤ cp ∧ cp ≤ 0xDFFF then some (.plain, encodeCp (h * 1024 + cp - 0x35FDC00))
          else none
  | .lowBackslash hi => if c = '\\' then some (.lowU hi, []) else none
  | .lowU hi => if c = 'u' then some (.hex 3 0 (some hi), []) else none
  | .cont lo hi rest =>
    if lo ≤ c.toNat ∧ c.toNat ≤ hi then
      match rest with
      | [] => some (.plain, [c])
      | (lo', hi') :: rest' => some (.cont lo' hi' rest', [c])
    else none

/-- `scan_string` json.h:2676-3255 after the opening quote: token and remaining input. -/
def scanString : Str → SMode → Str → Tok F × Str
  | [], _, _ => (.err, [])
  | c :: cs, .plain, buf =>
    if c = '"' then (.str buf, cs)
    else match stringStep .plain c with
      | some (m, add) => scanString cs m (buf ++ add)
      | none => (.err, cs)
  | c :: cs, m, buf =>
    match stringStep m c with
    | some (m', add) => scanString cs m' (buf ++ add)
    | none => (.err, cs)

/-- The labels of `scan_number`, json.h:3364-3592. -/
inductive NMode
  | minus | zero | any1 | decimal1 | decimal2 | exponent | sign | any2
  deriving DecidableEq

/-- `number_type` in `scan_number`. -/
inductive NType
  | unsigned | integer | float
  deriving DecidableEq

/-- A decimal digit. -/
def isDigit (c : Char) : Bool := 48 ≤ c.toNat && c.toNat ≤ 57

/-- The value `strtoull` computes for a string of digits. -/
def digitsVal (s : Str) : Nat := s.foldl (fun a c => 10 * a + (c.toNat - 48)) 0

/-- One character in `scan_number`: the next label and the number type, `none` when no transition consumes it. -/
def numStep (m : NMode) (ty : NType) (c : Char) : Option (NMode × NType) :=
  match m with
  | .minus => if c = '0' then some (.zero, ty) else if isDigit c then some (.any1, ty) else none
  | .zero => if c = '.' then some (.decimal1, .float) else if c = 'e' ∨ c = 'E' then some (.exponent, .float) else none
  | .any1 => if isDigit c then some (.any1, ty) else if c = '.' then some (.decimal1, .float) else if c = 'e' ∨ c = 'E' then some (.exponent, .float) else none
  | .decimal1 => if isDigit c then some (.decimal2, ty) else none
  | .decimal2 => if isDigit c then some (.decimal2, ty) else if c = 'e' ∨ c = 'E' then some (.exponent, .float) else none
  | .exponent => if c = '+' ∨ c = '-' then some (.sign, ty) else if isDigit c then some (.any2, ty) else none
  | .sign => if isDigit c then some (.any2, ty) else none
  | .any2 => if isDigit c then some (.any2, ty) else none

/-- The labels at which the number may end. -/
def NMode.final : NMode → Bool
  | .zero | .any1 | .decimal2 | .any2 => true
  | _ => false

/-- `scan_number_done` json.h:3594-3643. -/
def numDone (T : TextOps F) (ty : NType) (buf : Str) : Tok F :=
  match ty with
  | .unsigned => if digitsVal buf < 2 ^ 64 then .int (digitsVal buf) else .num (T.strtod buf)
  | .integer => if digitsVal (buf.drop 1) ≤ 2 ^ 63 then .int (-(digitsVal (buf.drop 1) : Int)) else .num (T.strtod buf)
  | .float => .num (T.strtod buf)

/-- `scan_number` json.h:3317-3644 after the first character. -/
def scanNumber (T : TextOps F) : Str → NMode → NType → Str → Tok F × Str
  | [], m, ty, buf => if m.final then (numDone T ty buf, []) else (.err, [])
  | c :: cs, m, ty, buf =>
    match numStep m ty c with
    | some (m', ty') => scanNumber T cs m' ty' (buf ++ [c])
    | none => if m.final then (numDone T ty buf, c :: cs) else (.err, cs)

/-- `scan_literal` json.h:3651-3664 after the first character. -/
def scanLiteral (t : Tok F) : Str → Str → Tok F × Str
  | [], r => (t, r)
  | _ :: _, [] => (.err, [])
  | l :: ls, c :: cs => if c = l then scanLiteral t ls cs else (.err, cs)

/-- `scan` json.h:3855-3921 without the byte order mark. -/
def scan (T : TextOps F) : Str → Tok F × Str
  | [] => (.eof, [])
  | c :: cs =>
    if c = ' ' ∨ c = '\t' ∨ c = '\n' ∨ c = '\r' then scan T cs
    else if c = '[' then (.lbrack, cs)
    else if c = ']' then (.rbrack, cs)
    else if c = '{' then (.lbrace, cs)
    else if c = '}' then (.rbrace, cs)
    else if c = ':' then (.colon, cs)
    else if c = ',' then (.comma, cs)
    else if c = 't' then scanLiteral .tTrue ['r', 'u', 'e'] cs
    else if c = 'f' then scanLiteral .tFalse ['a', 'l', 's', 'e'] cs
    else if c = 'n' then scanLiteral .tNull ['u', 'l', 'l'] cs
    else if c = '"' then scanString cs .plain []
    else if c = '-' then scanNumber T cs .minus .integer [c]
    else if c = '0' then scanNumber T cs .zero .unsigned [c]
    else if isDigit c then scanNumber T cs .any1 .unsigned [c]
    else if c.toNat = 0 then (.eof, cs)
    else (.err, cs)

/-- The first call of `scan`: `skip_bom` json.h:3840-3852. -/
def scanFirst (T : TextOps F) (s : Str) : Tok F × Str :=
  match s with
  | [] => scan T []
  | c :: cs =>
    if c.toNat = 0xEF then
      match cs with
      | a :: b :: r => if a.toNat = 0xBB ∧ b.toNat = 0xBF then scan T r else (.err, [])
      | _ => (.err, [])
    else scan T (c :: cs)

end Lex

namespace Parse

open Lex

/-- Lexicographic order of `std::string`, by unsigned bytes. -/
def keyLt : Str → Str → Bool
  | _, [] => false
  | [], _ :: _ => true
  | a :: s, b :: t => a.toNat < b.toNat || (a.toNat = b.toNat && keyLt s t)

/-- `(*object)[k] = v` on the `std::map` of an object. -/
def setKey (k : Str) (v : Json F) : List (Str × Json F) → List (Str × Json F)
  | [] => [(k, v)]
  | (k', v') :: r => if k = k' then (k, v) :: r else if keyLt k k' then (k, v) :: (k', v') :: r else (k', v') :: setKey k v r

/-- An unfinished array or object: an entry of `states` (json.h:4979) together with the entry of
`ref_stack` (json.h:4425); for an object also the key whose value is being read. -/
inductive Frame (F : Type)
  | arr (l : List (Json F))
  | obj (l : List (Str × Json F)) (key : Str)

/-- Where the loop of `sax_parse_internal` stands: `last_token` is to be handled as the start of a value, or a value has just been completed
(json.h:5158). -/
inductive Mode (F : Type)
  | value (t : Tok F)
  | done (v : Json F)

/-- `sax_parse_internal` json.h:4975-5263 with `json_sax_dom_parser` json.h:4259-4432.  Fuel bounds the loop iterations;
`C60_parser_terminates` shows that the bound in `parse` is never reached. -/
def run (O : FloatOps F) (T : TextOps F) : Nat → Mode F → List (Frame F) → Str → M (Json F × Str)
  | 0, _, _, _ => .error .diverge
  | n + 1, .value t, S, r =>
    match t with
    | .lbrace =>
      match scan T r with
      | (.rbrace, r1) => run O T n (.done (.obj [])) S r1
      | (.str k, r1) =>
        match scan T r1 with
        | (.colon, r2) => run O T n (.value (scan T r2).1) (.obj [] k :: S) (scan T r2).2
        | _ => .error .jsonParse
      | _ => .error .jsonParse
    | .lbrack =>
      match scan T r with
      | (.rbrack, r1) => run O T n (.done (.arr [])) S r1
      | (t1, r1) => run O T n (.value t1) (.arr [] :: S) r1
    | .num x => if O.isFinite x then run O T n (.done (.num x)) S r else .error .outOfRange
    | .tFalse => run O T n (.done (.bool false)) S r
    | .tNull => run O T n (.done .null) S r
    | .tTrue => run O T n (.done (.bool true)) S r
    | .int i => run O T n (.done (.int i)) S r
    | .str s => run O T n (.done (.str s)) S r
    | _ => .error .jsonParse
  | n + 1, .done v, S, r =>
    match S with
    | [] => .ok (v, r)
    | .arr l :: S =>
      match scan T r with
      | (.comma, r1) => run O T n (.value (scan T r1).1) (.arr (l ++ [v]) :: S) (scan T r1).2
      | (.rbrack, r1) => run O T n (.done (.arr (l ++ [v]))) S r1
      | _ => .error .jsonParse
    | .obj l k :: S =>
      match scan T r with
      | (.comma, r1) =>
        match scan T r1 with
        | (.str k', r2) =>
          match scan T r2 with
          | (.colon, r3) => run O T n (.value (scan T r3).1) (.obj (setKey k v l) k' :: S) (scan T r3).2
          | _ => .error .jsonParse
        | _ => .error .jsonParse
      | (.rbrace, r1) => run O T n (.done (.obj (setKey k v l))) S r1
      | _ => .error .jsonParse

/-- `operator>>(std::istream&, basic_json&)` json.h:18502-18506: `parser(...).parse(false, j)`, json.h:4870-4940; the value and the unread input. -/
def parse (O : FloatOps F) (T : TextOps F) (s : Str) : M (Json F × Str) :=
  run O T (2 * s.length + 4) (.value (scanFirst T s).1) [] (scanFirst T s).2

/-- `read_dict_json` loader.h:73-79.  A file that cannot be opened reads like an empty one. -/
def readFile (O : FloatOps F) (T : TextOps F) (s : Str) : M (Json F) := do
  let (j, _) ← parse O T s
  pure j

end Parse

end VGram
