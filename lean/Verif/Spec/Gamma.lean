import Verif.Model.Gamma
import Verif.Spec.Ieee

/-!
# The random variates of libstdc++ in doubles
-/

namespace VGram.Spec

/-- `==` of doubles: zeros of both signs are equal, NaN is not equal to anything. -/
def Double.eq (a b : Double) : Bool :=
  match Double.val a, Double.val b with
  | .nan, _ => false
  | x, y => decide (x = y)

/-- The mathematical functions of the C library are parameters. -/
def Double.math (log sqrt : Double → Double) (pow : Double → Double → Double) : MathOps Double where
  ops := Double.ops log
  sqrt := sqrt
  pow := pow
  le a b := Ext.lt (Double.val a) (Double.val b) || Double.eq a b
  eq := Double.eq

/-- What is asked of `std::log` here: besides its size, that it is between `2 (1 - 1/x)` and 0 for numbers below 1.  (The logarithm itself is between
`1 - 1/x` and `x - 1`.) -/
structure LogLaws (log : Double → Double) : Prop where
  size : LogLaw log
  unit : ∀ (d : Double) (x : ℚ), Double.val d = .fin x → 0 < x → x < 1 → ∃ l : ℚ, Double.val (log d) = .fin l ∧ 2 * (1 - 1 / x) ≤ l ∧ l ≤ 0

/-- What is asked of `std::sqrt`: the square of the result is not off by more than half of the argument.  (IEEE 754 asks for the nearest double.) -/
def SqrtLaw (sqrt : Double → Double) : Prop :=
  ∀ (d : Double) (x : ℚ), Double.val d = .fin x → 0 ≤ x → ∃ s : ℚ, Double.val (sqrt d) = .fin s ∧ 0 ≤ s ∧ |s ^ 2 - x| ≤ x / 2

/-- The gamma variate that Marsaglia and Tsang make of a normal variate `n`: `(p - 1/3) (1 + n / sqrt (9 (p - 1/3)))^3`, every operation rounded. -/
def Double.shape (sqrt : Double → Double) (p n : Double) : Double :=
  let int := fun k : Int => Double.rounded false k
  let a := Double.add p (Double.opposite (Double.div (int 1) (int 3)))
  let v := Double.add (int 1) (Double.mul (Double.div (int 1) (sqrt (Double.mul (int 9) a))) n)
  Double.mul (Double.mul a (Double.mul (Double.mul v v) v)) (int 1)

/-- The normal variate that the polar method makes of a point of the disc with ordinate `y` and distance `r` (squared) from its centre: `y sqrt (-2 log r / r)`, every
operation rounded. -/
def Double.bell (log sqrt : Double → Double) (y r : Double) : Double :=
  let int := fun k : Int => Double.rounded false k
  Double.add (Double.mul (Double.mul y (sqrt (Double.div (Double.mul (int (-2)) (log r)) r))) (int 1)) (int 0)

/-- Ordinates and squared distances of four points of the disc, bit by bit: about (-0.0827, 0.550), (0.869, 0.884), (0.0594, 0.870) and (0.374, 0.890). -/
def drawnPoint : Fin 4 → Double × Double
  | 0 => (⟨true, 0x3fb52bcf554ef1d0⟩, ⟨false, 0x3fe198c14965b287⟩)
  | 1 => (⟨false, 0x3febd20227463b3a⟩, ⟨false, 0x3fec481b23c0d41a⟩)
  | 2 => (⟨false, 0x3fae69ba38e72440⟩, ⟨false, 0x3febd7360b3be934⟩)
  | 3 => (⟨false, 0x3fd7e82b11ca8108⟩, ⟨false, 0x3fec7b32985b3d02⟩)

/-- A square root for running the model: the root of the greatest square of a multiple of `2^-k` below `x`, where `k` is large enough for the argument. -/
def plainSqrt (d : Double) : Double :=
  match Double.val d with
  | .fin x => if x < 0 then Double.nan else
      let k := Nat.log 2 x.den + 60
      Double.rounded false ((Nat.sqrt (⌊x * 4 ^ k⌋.toNat) : ℚ) / 2 ^ k)
  | .top => d
  | _ => Double.nan

end VGram.Spec
