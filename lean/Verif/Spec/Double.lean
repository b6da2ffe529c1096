import Mathlib.Algebra.Order.Field.Rat
import Mathlib.Algebra.Order.Group.Unbundled.Abs
import Verif.Model.Double
import Verif.Spec.Text

/-!
# The numbers that doubles stand for
-/

namespace VGram.Spec

/-- The number with the binary64 encoding `b`, for a clear sign bit and `b < 2047 * 2^52`: exponent field `b / 2^52`, fraction field `b % 2^52`.  The encoding
`2047 * 2^52` of infinity is given the value `2^1024`, which the double after the greatest one would have. -/
def value (b : Nat) : ℚ :=
  if b / 2 ^ 52 = 0 then (b % 2 ^ 52 : ℕ) * 2 ^ (-1074 : ℤ) else (2 ^ 52 + (b % 2 ^ 52 : ℕ)) * 2 ^ (((b / 2 ^ 52 : ℕ) : ℤ) - 1075)

/-- The number with the given decimal digits. -/
def decimal (ds : List Nat) : Nat := ds.foldl (fun n d => 10 * n + d) 0

/-- What the C standard (Annex F) requires of `strtod`: the sign is that of the text, and the result is one of the doubles nearest to the number, as long as the
number does not round to infinity. -/
structure CorrectlyRounded (strtod : Str → Double) : Prop where
  sign : ∀ s neg v, Denotes s neg v → (strtod s).neg = neg
  nearest : ∀ s neg v, Denotes s neg v → v < (2 ^ 54 - 1) * 2 ^ 970 →
    (strtod s).mag.val < 2047 * 2 ^ 52 ∧ ∀ c, c < 2047 * 2 ^ 52 → |v - value (strtod s).mag.val| ≤ |v - value c|

/-- The sign, integral and fractional digits and the exponent of a decimal number. -/
def decimalParts (s : Str) : Bool × Str × Str × Str :=
  let neg := decide (s.head? = some '-')
  let t := if neg then s.tail else s
  let m := t.takeWhile fun c => c ≠ 'e' ∧ c ≠ 'E'
  (neg, m.takeWhile (· ≠ '.'), (m.dropWhile (· ≠ '.')).tail, t.dropWhile fun c => c ≠ 'e' ∧ c ≠ 'E')

/-- The number that an exponent stands for. -/
def expOf : Str → Int
  | _ :: '-' :: ds => -(numeral ds : Int)
  | _ :: '+' :: ds => numeral ds
  | _ :: ds => numeral ds
  | [] => 0

/-- The absolute value of a decimal number. -/
def decimalValue (s : Str) : ℚ :=
  let p := decimalParts s
  (numeral (p.2.1 ++ p.2.2.1) : ℚ) * 10 ^ (expOf p.2.2.2 - p.2.2.1.length)

/-- The greatest `m < n + 2^k` with `value m ≤ v`, if `value n ≤ v`. -/
def floorBits (v : ℚ) : Nat → Nat → Nat
  | 0, n => n
  | k + 1, n => if value (n + 2 ^ k) ≤ v then floorBits v k (n + 2 ^ k) else floorBits v k n

/-- Rounding to the nearest double, ties to even, too large numbers to infinity. -/
def nearestBits (v : ℚ) : Nat :=
  let m := floorBits v 63 0
  if 2047 * 2 ^ 52 ≤ m then 2047 * 2 ^ 52
  else if 2 * v < value m + value (m + 1) ∨ 2 * v = value m + value (m + 1) ∧ m % 2 = 0 then m else m + 1

/-- A `strtod` that satisfies the standard. -/
def strtodEven (s : Str) : Double := ⟨(decimalParts s).1, Fin.ofNat _ (nearestBits (decimalValue s))⟩

end VGram.Spec
