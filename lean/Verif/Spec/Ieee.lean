import Verif.Spec.Double
import Verif.Spec.Finite

/-!
# The arithmetic of IEEE doubles

Binary64 arithmetic with 64 bits for every number, as IEEE 754 prescribes it: the exact result of an operation is rounded to the nearest double, ties to even; a
result that is too large is infinite; small results lose bits gradually; zeros, infinities and NaN follow the tables of the standard.
-/

namespace VGram.Spec

/-- The number that a double stands for: `top` and `bot` are the infinities. -/
def Double.val (d : Double) : Ext ℚ :=
  if d.mag.val < 2047 * 2 ^ 52 then .fin (if d.neg then -value d.mag.val else value d.mag.val)
  else if d.mag.val = 2047 * 2 ^ 52 then (if d.neg then .bot else .top) else .nan

/-- The double nearest to `x`, ties to even, too large numbers to infinity.  An exact zero gets the sign `neg`. -/
def Double.rounded (neg : Bool) (x : ℚ) : Double := ⟨if x = 0 then neg else decide (x < 0), Fin.ofNat _ (nearestBits |x|)⟩

def Double.inf (neg : Bool) : Double := ⟨neg, 2047 * 2 ^ 52⟩

def Double.nan : Double := ⟨false, 2047 * 2 ^ 52 + 2 ^ 51⟩

/-- A sum that is exactly zero is negative only if both terms are negative zeros. -/
def Double.add (a b : Double) : Double :=
  match Double.val a, Double.val b with
  | .fin x, .fin y => Double.rounded (a.neg && b.neg) (x + y)
  | .nan, _ => Double.nan
  | _, .nan => Double.nan
  | .fin _, _ => b
  | _, .fin _ => a
  | _, _ => if a.neg = b.neg then a else Double.nan

def Double.opposite (a : Double) : Double := ⟨!a.neg, a.mag⟩

def Double.mul (a b : Double) : Double :=
  match Double.val a, Double.val b with
  | .fin x, .fin y => Double.rounded (a.neg ^^ b.neg) (x * y)
  | .nan, _ => Double.nan
  | _, .nan => Double.nan
  | .fin x, _ => if x = 0 then Double.nan else Double.inf (a.neg ^^ b.neg)
  | _, .fin y => if y = 0 then Double.nan else Double.inf (a.neg ^^ b.neg)
  | _, _ => Double.inf (a.neg ^^ b.neg)

def Double.div (a b : Double) : Double :=
  match Double.val a, Double.val b with
  | .fin x, .fin y =>
    if y = 0 then (if x = 0 then Double.nan else Double.inf (a.neg ^^ b.neg)) else Double.rounded (a.neg ^^ b.neg) (x / y)
  | .nan, _ => Double.nan
  | _, .nan => Double.nan
  | .fin _, _ => ⟨a.neg ^^ b.neg, 0⟩
  | _, .fin _ => Double.inf (a.neg ^^ b.neg)
  | _, _ => Double.nan

/-- An integer of the program, which has at most 64 bits. -/
def clamp (n : Int) : Int := max (-2 ^ 64) (min (2 ^ 64) n)

/-- The operations on doubles.  `std::log` is a parameter, because the C library does not have to round it correctly.  `trunc` is meaningful for numbers in the range of
`int` (otherwise the conversion is undefined). -/
def Double.ops (log : Double → Double) : FloatOps Double where
  ofInt n := Double.rounded false (clamp n)
  lit m e := Double.rounded false (clamp m / 10 ^ e)
  add := Double.add
  sub a b := Double.add a (Double.opposite b)
  mul := Double.mul
  div := Double.div
  neg := Double.opposite
  log := log
  lt a b := Ext.lt (Double.val a) (Double.val b)
  lowest := ⟨true, 2047 * 2 ^ 52 - 1⟩
  maxVal := ⟨false, 2047 * 2 ^ 52 - 1⟩
  trunc x := match Double.val x with
    | .fin x => if 0 ≤ x then ⌊x⌋ else ⌈x⌉
    | _ => 0
  isFinite x := x.isFinite

/-- `d` is a number of absolute value at most `2^k`. -/
def Double.Mag (k : Nat) (d : Double) : Prop := ∃ x : ℚ, Double.val d = .fin x ∧ |x| ≤ 2 ^ k

/-- `d` is a number from `2^-k` to `2^k`. -/
def Double.Pos (k : Nat) (d : Double) : Prop := ∃ x : ℚ, Double.val d = .fin x ∧ 1 / 2 ^ k ≤ x ∧ x ≤ 2 ^ k

/-- All that is asked of `std::log`: for positive numbers it is a number, at most 1024 in absolute value (the greatest logarithm of a double is 709.8, the
least one is -744.5). -/
def LogLaw (log : Double → Double) : Prop := ∀ (d : Double) (x : ℚ), Double.val d = .fin x → 0 < x → Double.Mag 10 (log d)

/-- Doubles with any `std::sort`, iteration order of the hash table and gamma variates. -/
def Double.env (log : Double → Double) (srt : List (StatItem Double) → List (StatItem Double)) (ord : PairMap → PairMap) (gam : List Double → Nat → Double) : Env Double :=
  ⟨Double.ops log, srt, ord, gam⟩

/-- What is asked of the libraries: `std::log` as above, `std::sort` sorts items whose scores are numbers, every entry of the hash table is visited once, four gamma variates
with parameters of at least 1 are not extremely large or small. -/
structure LibraryLaws (log : Double → Double) (srt : List (StatItem Double) → List (StatItem Double)) (ord : PairMap → PairMap)
    (gam : List Double → Nat → Double) : Prop where
  log : LogLaw log
  sort : ∀ l : List (StatItem Double), (∀ a ∈ l, a.score.isFinite = true) → (srt l).Perm l ∧
    (srt l).Pairwise fun a b => Ext.lt (Double.val (Double.opposite b.score)) (Double.val (Double.opposite a.score)) = false
  order : ∀ p, (ord p).Perm p
  gamma : ∀ params, params.length = 4 → (∀ p ∈ params, ∃ x : ℚ, Double.val p = .fin x ∧ 1 ≤ x ∧ x ≤ 2 ^ 64) → ∀ i < 4, Double.Pos 160 (gam params i)

/-- A cheap function in place of `std::log` for running the model. -/
def roughLog (d : Double) : Double :=
  match Double.val d with
  | .fin x => if 0 < x then Double.rounded false ((x - 1) / (100 * (x + 1))) else if x = 0 then Double.inf true else Double.nan
  | .top => d
  | _ => Double.nan

/-- Variates for running the model: the parameters themselves. -/
def plainGamma (params : List Double) (i : Nat) : Double := params.getD i ⟨false, 1023 * 2 ^ 52⟩

/-- Libraries for running the model. -/
def sampleEnv : Env Double := Double.env roughLog (insSort (Double.ops roughLog)) (fun p => p) plainGamma

end VGram.Spec
