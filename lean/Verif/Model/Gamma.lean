import Verif.Model.StatDict

/-!
# Model of the random numbers behind `next_dirichlet`

core/src/main/cpp/algorithm/fast_random.cc:10-17 calls `std::gamma_distribution<double>(params[i], 1)(generator)` with a
`std::default_random_engine` that it constructs anew.  Their text is not in the repository: this is the one of GNU libstdc++ 13
(`bits/random.h`, `bits/random.tcc`), the library of GCC and of Clang on Linux.  Other standard libraries have other samplers; the theorems that do not
mention this file hold for all of them.

The loops that reject samples are given a bound `fuel` for the number of their rounds, `none` is a loop that did not end within it.
-/

namespace VGram

/-- What the sampler needs besides `FloatOps`: `std::sqrt`, `std::pow`, `<=` and `==`. -/
structure MathOps (F : Type) where
  ops : FloatOps F
  sqrt : F → F
  pow : F → F → F
  le : F → F → Bool
  eq : F → F → Bool

namespace Gamma

variable {F : Type}

/-- `default_random_engine` is `minstd_rand0` (bits/random.h:1592-1593, 1641), a `linear_congruential_engine` with multiplier 16807, increment 0 and modulus 2^31 - 1;
the state after one step is the number it yields (bits/random.h:367-372). -/
def next (s : Nat) : Nat := 16807 * s % 2147483647

/-- The state of a default-constructed engine: `default_seed` (bits/random.h:286-293). -/
def seed : Nat := 1

/-- `generate_canonical<double, 53>` (bits/random.tcc:3349-3381).  The engine yields numbers from 1 to 2^31 - 2, so `__r` is 2147483646, `__log2r` is 30 and
`__m` is 2: two rounds.  (`__tmp *= __r` is done in `long double` and rounded to `double`, which holds the exact product of the second round.) -/
def canonical (G : MathOps F) (s : Nat) : F × Nat :=
  let O := G.ops
  let s1 := next s
  let s2 := next s1
  let r := O.ofInt 2147483646
  let sum1 := O.add (O.ofInt 0) (O.mul (O.ofInt ((s1 : Int) - 1)) (O.ofInt 1))
  let tmp1 := O.mul (O.ofInt 1) r
  let sum2 := O.add sum1 (O.mul (O.ofInt ((s2 : Int) - 1)) tmp1)
  let tmp2 := O.mul tmp1 r
  let ret := O.div sum2 tmp2
  (if G.le (O.ofInt 1) ret then O.div (O.ofInt (2 ^ 53 - 1)) (O.ofInt (2 ^ 53)) else ret, s2)

/-- One point of the square, bits/random.tcc:1831-1833: `x`, `y`, `r2`. -/
def point (G : MathOps F) (s : Nat) : (F × F × F) × Nat :=
  let O := G.ops
  let (u, s1) := canonical G s
  let x := O.sub (O.mul (O.ofInt 2) u) (O.ofInt 1)
  let (w, s2) := canonical G s1
  let y := O.sub (O.mul (O.ofInt 2) w) (O.ofInt 1)
  ((x, y, O.add (O.mul x x) (O.mul y y)), s2)

/-- The loop bits/random.tcc:1829-1834: points of the square until one is in the disc. -/
def polar (G : MathOps F) : Nat → Nat → Option ((F × F × F) × Nat)
  | 0, _ => none
  | fuel + 1, s =>
    let (p, s') := point G s
    if G.ops.lt (G.ops.ofInt 1) p.2.2 || G.eq p.2.2 (G.ops.ofInt 0) then polar G fuel s' else some (p, s')

/-- `normal_distribution<double>::operator()` with mean 0 and deviation 1, bits/random.tcc:1813-1844.  `saved` is `_M_saved` if it is available. -/
def normal (G : MathOps F) (fuel : Nat) (saved : Option F) (s : Nat) : Option (F × Option F × Nat) :=
  let O := G.ops
  let shift := fun ret => O.add (O.mul ret (O.ofInt 1)) (O.ofInt 0)
  match saved with
  | some x => some (shift x, none, s)
  | none =>
    match polar G fuel s with
    | none => none
    | some ((x, y, r2), s') =>
      let mult := G.sqrt (O.div (O.mul (O.ofInt (-2)) (O.log r2)) r2)
      some (shift (O.mul y mult), some (O.mul x mult), s')

/-- The inner loop bits/random.tcc:2368-2373: `n` and `1 + a2 * n`. -/
def positive (G : MathOps F) (a2 : F) : Nat → Option F → Nat → Option (F × F × Option F × Nat)
  | 0, _, _ => none
  | fuel + 1, saved, s =>
    match normal G (fuel + 1) saved s with
    | none => none
    | some (n, saved', s') =>
      let v := G.ops.add (G.ops.ofInt 1) (G.ops.mul a2 n)
      if G.le v (G.ops.ofInt 0) then positive G a2 fuel saved' s' else some (n, v, saved', s')

/-- The condition of the outer loop, bits/random.tcc:2378-2380. -/
def rejected (G : MathOps F) (a1 n v u : F) : Bool :=
  let O := G.ops
  let n4 := O.mul (O.mul (O.mul (O.mul (O.lit 331 4) n) n) n) n
  O.lt (O.sub (O.ofInt 1) n4) u &&
    O.lt (O.add (O.mul (O.mul (O.lit 5 1) n) n) (O.mul a1 (O.add (O.sub (O.ofInt 1) v) (O.log v)))) (O.log u)

/-- The outer loop bits/random.tcc:2366-2380: the cube `v`. -/
def cube (G : MathOps F) (a1 a2 : F) : Nat → Option F → Nat → Option (F × Nat)
  | 0, _, _ => none
  | fuel + 1, saved, s =>
    match positive G a2 (fuel + 1) saved s with
    | none => none
    | some (n, v, saved', s') =>
      let v3 := G.ops.mul (G.ops.mul v v) v
      let (u, s'') := canonical G s'
      if rejected G a1 n v3 u then cube G a1 a2 fuel saved' s'' else some (v3, s'')

/-- The loop bits/random.tcc:2386-2388: a positive number below 1. -/
def nonzero (G : MathOps F) : Nat → Nat → Option (F × Nat)
  | 0, _ => none
  | fuel + 1, s =>
    let (u, s') := canonical G s
    if G.eq u (G.ops.ofInt 0) then nonzero G fuel s' else some (u, s')

/-- `gamma_distribution<double>(alpha, 1)(urng)`: the constructor (bits/random.tcc:2339-2345) and `operator()` (:2356-2393).  The `normal_distribution` is a member of the
temporary distribution, so it has saved nothing yet. -/
def variate (G : MathOps F) (fuel : Nat) (alpha : F) (s : Nat) : Option (F × Nat) :=
  let O := G.ops
  let malpha := if O.lt alpha (O.ofInt 1) then O.add alpha (O.ofInt 1) else alpha
  let a1 := O.sub malpha (O.div (O.ofInt 1) (O.ofInt 3))
  let a2 := O.div (O.ofInt 1) (G.sqrt (O.mul (O.ofInt 9) a1))
  match cube G a1 a2 fuel none s with
  | none => none
  | some (v, s') =>
    if G.eq alpha malpha then some (O.mul (O.mul a1 v) (O.ofInt 1), s')
    else match nonzero G fuel s' with
      | none => none
      | some (u, s'') => some (O.mul (O.mul (O.mul (G.pow u (O.div (O.ofInt 1) alpha)) a1) v) (O.ofInt 1), s'')

/-- The loop of `next_dirichlet` that draws, fast_random.cc:14-18: one variate for every parameter, all from one engine. -/
def variates (G : MathOps F) (fuel : Nat) : List F → Nat → Option (List F)
  | [], _ => some []
  | p :: ps, s =>
    match variate G fuel p s with
    | none => none
    | some (g, s') =>
      match variates G fuel ps s' with
      | none => none
      | some gs => some (g :: gs)

/-- The variates of a call of `next_dirichlet` (`Env.gammas`): the engine is default-constructed, fast_random.cc:13. -/
def gammas (G : MathOps F) (fuel : Nat) (params : List F) (i : Nat) : F :=
  ((variates G fuel params seed).getD []).getD i (G.ops.ofInt 0)

end Gamma

end VGram
