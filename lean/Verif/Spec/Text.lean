import Mathlib.Data.Rat.Defs
import Mathlib.Algebra.Order.Field.Rat
import Verif.Model.JsonText
import Verif.Spec.Decimal

/-!
# Laws of the conversions between doubles and text
-/

namespace VGram.Spec

variable {F : Type}

/-- The text of an exponent: nothing, or `e`, a sign or none, and digits. -/
inductive IsExp : Str → Int → Prop
  | none : IsExp [] 0
  | plus (c : Char) (sg ds : Str) : c = 'e' ∨ c = 'E' → sg = [] ∨ sg = ['+'] → ds ≠ [] → (∀ d ∈ ds, IsDigit d) → IsExp (c :: (sg ++ ds)) (numeral ds)
  | minus (c : Char) (ds : Str) : c = 'e' ∨ c = 'E' → ds ≠ [] → (∀ d ∈ ds, IsDigit d) → IsExp (c :: '-' :: ds) (-(numeral ds : Int))

/-- The text of a number in decimal notation, its sign and its absolute value: digits `a`, then nothing or a point and digits `b`, then an exponent. -/
inductive Denotes : Str → Bool → ℚ → Prop
  | mk (neg : Bool) (a f b x : Str) (e : Int) : a ≠ [] → (∀ c ∈ a, IsDigit c) → (∀ c ∈ b, IsDigit c) → (f = [] ∧ b = []) ∨ (f = '.' :: b ∧ b ≠ []) → IsExp x e →
    Denotes ((if neg then ['-'] else []) ++ (a ++ (f ++ x))) neg ((numeral (a ++ b) : ℚ) * 10 ^ (e - b.length))

/-- What is assumed of `grisu2` and `strtod`; see DESIGN.md.  `digits` and `exponent` are post-conditions stated in json.h
(:10553, :10586).  `read` is the round-trip guarantee claimed there: `strtod` is correct for every way of writing the decimal number that `grisu2`
computes.  `small` says that `strtod` does not overflow on numbers below `10^300`. -/
structure TextLaws (O : FloatOps F) (T : TextOps F) : Prop where
  digits : ∀ x, O.isFinite x = true → T.isZero x = false → (T.grisu x).1 ≠ [] ∧ (T.grisu x).1.head? ≠ some '0' ∧
    ∀ c ∈ (T.grisu x).1, 48 ≤ c.toNat ∧ c.toNat ≤ 57
  exponent : ∀ x, O.isFinite x = true → T.isZero x = false →
    -1000 < ((T.grisu x).1.length : Int) + (T.grisu x).2 - 1 ∧ ((T.grisu x).1.length : Int) + (T.grisu x).2 - 1 < 1000
  read : ∀ x, O.isFinite x = true → T.isZero x = false → ∀ s, Denotes s (T.signbit x) ((numeral (T.grisu x).1 : ℚ) * 10 ^ (T.grisu x).2) → T.strtod s = x
  zero : ∀ x, O.isFinite x = true → T.isZero x = true → ∀ s, Denotes s (T.signbit x) 0 → T.strtod s = x
  small : ∀ s neg v, Denotes s neg v → v < 10 ^ 300 → O.isFinite (T.strtod s) = true

/-- A tree that can be an `nlohmann::json` value read from a file: the keys of every object are strictly increasing, the integers fit into 64 bits, the doubles
are finite. -/
inductive Tidy (O : FloatOps F) : Json F → Prop
  | null : Tidy O .null
  | bool (b : Bool) : Tidy O (.bool b)
  | int (i : Int) : -(2 ^ 63) ≤ i ∧ i < 2 ^ 64 → Tidy O (.int i)
  | num (x : F) : O.isFinite x = true → Tidy O (.num x)
  | str (s : Str) : Tidy O (.str s)
  | arr (l : List (Json F)) : (∀ j ∈ l, Tidy O j) → Tidy O (.arr l)
  | obj (l : List (Str × Json F)) : (∀ e ∈ l, Tidy O e.2) → l.Pairwise (fun a b => Parse.keyLt a.1 b.1 = true) → Tidy O (.obj l)

/-- Arrays and objects. -/
def IsContainer : Json F → Prop
  | .arr _ => True
  | .obj _ => True
  | _ => False

/-- `Sub x j`: the value `x` occurs in `j`. -/
inductive Sub : Json F → Json F → Prop
  | refl (j : Json F) : Sub j j
  | arr {x y : Json F} {l : List (Json F)} : y ∈ l → Sub x y → Sub x (.arr l)
  | obj {x : Json F} {e : Str × Json F} {l : List (Str × Json F)} : e ∈ l → Sub x e.2 → Sub x (.obj l)

/-- The integers of a tree are C++ integers of at most 64 bits. -/
def Ints64 (j : Json F) : Prop := ∀ i, Sub (.int i) j → -(2 ^ 63) ≤ i ∧ i < 2 ^ 64

/-- The UTF-8 encoding of a Unicode character, as numbers. -/
def utf8 (c : Char) : List Nat :=
  let n := c.toNat
  if n < 0x80 then [n]
  else if n < 0x800 then [0xC0 + n / 64, 0x80 + n % 64]
  else if n < 0x10000 then [0xE0 + n / 4096, 0x80 + n / 64 % 64, 0x80 + n % 64]
  else [0xF0 + n / 262144, 0x80 + n / 4096 % 64, 0x80 + n / 64 % 64, 0x80 + n % 64]

/-- A byte string that is the UTF-8 encoding of a text. -/
def Utf8 (s : Str) : Prop := ∃ t : List Char, s.map Char.toNat = t.flatMap utf8

end VGram.Spec
