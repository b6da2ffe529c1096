import Verif.Spec.Text

/-!
# The grammar of JSON (RFC 8259)

A relation between byte strings and the values they denote, written after the RFC and without reference to the lexer or the parser.  Where the RFC leaves
the meaning open, the choices of json.h are stated: which numbers are integers, and which of several members with the same name counts.
-/

namespace VGram.Spec

variable {F : Type}

/-- White space. -/
def IsSpace (s : Str) : Prop := ∀ c ∈ s, c = ' ' ∨ c = '\t' ∨ c = '\n' ∨ c = '\r'

/-- The UTF-8 bytes of a Unicode character. -/
def utf8Bytes (c : Char) : Str := (utf8 c).map Char.ofNat

/-- A hexadecimal digit and its value. -/
def HexDigit (c : Char) (n : Nat) : Prop :=
  "0123456789abcdef".toList[n]? = some c ∨ "0123456789ABCDEF".toList[n]? = some c

/-- Four hexadecimal digits and their value. -/
def Hex4 (s : Str) (n : Nat) : Prop :=
  ∃ c₁ c₂ c₃ c₄ d₁ d₂ d₃ d₄, s = [c₁, c₂, c₃, c₄] ∧ HexDigit c₁ d₁ ∧ HexDigit c₂ d₂ ∧ HexDigit c₃ d₃ ∧ HexDigit c₄ d₄ ∧
    n = 4096 * d₁ + 256 * d₂ + 16 * d₃ + d₄

/-- One character of a string: how it is written between the quotes, and the bytes it stands for.  A value of type `Char` is a Unicode scalar value, so
surrogates occur only in pairs. -/
inductive StringChar : Str → Str → Prop
  | raw (c : Char) : 0x20 ≤ c.toNat → c ≠ '"' → c ≠ '\\' → StringChar (utf8Bytes c) (utf8Bytes c)
  | escape (e c : Char) :
      (e, c.toNat) ∈ [('"', 0x22), ('\\', 0x5C), ('/', 0x2F), ('b', 0x08), ('f', 0x0C), ('n', 0x0A), ('r', 0x0D), ('t', 0x09)] →
      StringChar ['\\', e] [c]
  | unicode (h : Str) (c : Char) : Hex4 h c.toNat → StringChar ('\\' :: 'u' :: h) (utf8Bytes c)
  | pair (h l : Str) (a b : Nat) (c : Char) : a < 0x400 → b < 0x400 → Hex4 h (0xD800 + a) → Hex4 l (0xDC00 + b) →
      c.toNat = 0x10000 + 0x400 * a + b → StringChar (('\\' :: 'u' :: h) ++ ('\\' :: 'u' :: l)) (utf8Bytes c)

/-- The text between the quotes of a string and the bytes it stands for. -/
inductive StringText : Str → Str → Prop
  | nil : StringText [] []
  | cons {a b s t : Str} : StringChar a b → StringText s t → StringText (a ++ s) (b ++ t)

/-- A number; `some i` when it has neither fraction nor exponent. -/
inductive NumberText : Str → Option Int → Prop
  | pos (t : Str) (n : Nat) : IsNumeral t n → NumberText t (some n)
  | neg (t : Str) (n : Nat) : IsNumeral t n → NumberText ('-' :: t) (some (-(n : Int)))
  | real (sign t f x : Str) (n : Nat) (e : Int) : sign = [] ∨ sign = ['-'] → IsNumeral t n →
      f = [] ∨ (∃ b, f = '.' :: b ∧ b ≠ [] ∧ ∀ c ∈ b, IsDigit c) → IsExp x e → ¬ (f = [] ∧ x = []) → NumberText (sign ++ (t ++ (f ++ x))) none

/-- The integers kept as integers: those of `int64_t` and of `uint64_t`. -/
def Fits64 (i : Int) : Prop := -(2 ^ 63) ≤ i ∧ i < 2 ^ 64

/-- `m` is the `std::map` of the members `l`: its keys are strictly increasing (by bytes), and it holds for every name the value of the last member with
this name. -/
def IsMap (l m : List (Str × Json F)) : Prop :=
  m.Pairwise (fun a b => a.1.map Char.toNat < b.1.map Char.toNat) ∧
    ∀ k v, (k, v) ∈ m ↔ ∃ l₁ l₂, l = l₁ ++ (k, v) :: l₂ ∧ ∀ e ∈ l₂, e.1 ≠ k

/-- What a text can be: a value, the values of an array, the members of an object. -/
inductive Piece (F : Type)
  | value (j : Json F)
  | items (l : List (Json F))
  | members (l : List (Str × Json F))

/-- The grammar.  The conversion of numbers with a fraction or an exponent, and of integers that do not fit, is `strtod`'s; a number that overflows
denotes nothing. -/
inductive Grammar (O : FloatOps F) (T : TextOps F) : Str → Piece F → Prop
  | null : Grammar O T "null".toList (.value .null)
  | true : Grammar O T "true".toList (.value (.bool true))
  | false : Grammar O T "false".toList (.value (.bool false))
  | int (t : Str) (i : Int) : NumberText t (some i) → Fits64 i → Grammar O T t (.value (.int i))
  | big (t : Str) (i : Int) : NumberText t (some i) → ¬ Fits64 i → O.isFinite (T.strtod t) = true → Grammar O T t (.value (.num (T.strtod t)))
  | real (t : Str) : NumberText t none → O.isFinite (T.strtod t) = true → Grammar O T t (.value (.num (T.strtod t)))
  | string (t s : Str) : StringText t s → Grammar O T ('"' :: (t ++ ['"'])) (.value (.str s))
  | emptyArray (w : Str) : IsSpace w → Grammar O T ('[' :: (w ++ [']'])) (.value (.arr []))
  | array (t : Str) (l : List (Json F)) : Grammar O T t (.items l) → Grammar O T ('[' :: (t ++ [']'])) (.value (.arr l))
  | emptyObject (w : Str) : IsSpace w → Grammar O T ('{' :: (w ++ ['}'])) (.value (.obj []))
  | object (t : Str) (l m : List (Str × Json F)) : Grammar O T t (.members l) → IsMap l m → Grammar O T ('{' :: (t ++ ['}'])) (.value (.obj m))
  | item (w t w' : Str) (j : Json F) : IsSpace w → Grammar O T t (.value j) → IsSpace w' → Grammar O T (w ++ (t ++ w')) (.items [j])
  | items (w t w' u : Str) (j : Json F) (l : List (Json F)) : IsSpace w → Grammar O T t (.value j) → IsSpace w' → Grammar O T u (.items l) →
      Grammar O T (w ++ (t ++ (w' ++ (',' :: u)))) (.items (j :: l))
  | member (w k s w₁ w₂ t w₃ : Str) (j : Json F) : IsSpace w → StringText k s → IsSpace w₁ → IsSpace w₂ → Grammar O T t (.value j) → IsSpace w₃ →
      Grammar O T (w ++ ('"' :: (k ++ ('"' :: (w₁ ++ (':' :: (w₂ ++ (t ++ w₃)))))))) (.members [(s, j)])
  | members (w k s w₁ w₂ t w₃ u : Str) (j : Json F) (l : List (Str × Json F)) : IsSpace w → StringText k s → IsSpace w₁ → IsSpace w₂ →
      Grammar O T t (.value j) → IsSpace w₃ → Grammar O T u (.members l) →
      Grammar O T (w ++ ('"' :: (k ++ ('"' :: (w₁ ++ (':' :: (w₂ ++ (t ++ (w₃ ++ (',' :: u)))))))))) (.members ((s, j) :: l))

/-- `t` is a JSON value that denotes `j`. -/
def Value (O : FloatOps F) (T : TextOps F) (t : Str) (j : Json F) : Prop := Grammar O T t (.value j)

/-- The byte order mark of UTF-8. -/
def byteOrderMark : Str := [Char.ofNat 0xEF, Char.ofNat 0xBB, Char.ofNat 0xBF]

/-- A whole JSON text: a value with white space around it. -/
def JsonDoc (O : FloatOps F) (T : TextOps F) (s : Str) (j : Json F) : Prop :=
  ∃ w t w', s = w ++ (t ++ w') ∧ IsSpace w ∧ Value O T t j ∧ IsSpace w'

end VGram.Spec
