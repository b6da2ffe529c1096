import Mathlib.Analysis.SpecialFunctions.Log.Basic
import Mathlib.Algebra.BigOperators.Intervals

/-!
# The code length of a text, and the effect of dropping a word

Nothing here refers to the functions of the model: a text is only the numbers of occurrences of the ids below `size`.
-/

namespace VGram.Spec

/-- `x log x`, with value 0 at 0. -/
noncomputable def xlog (x : ℝ) : ℝ := x * Real.log x

/-- The number of emitted ids. -/
def tokens (size : Nat) (f : Nat → Int) : Int := (Finset.range size).sum f

/-- Length in nats of the ideal code for a text in which id `i` occurs `f i` times. -/
noncomputable def codeLen (size : Nat) (f : Nat → Int) : ℝ :=
  xlog (tokens size f) - (Finset.range size).sum fun i => xlog (f i)

/-- The counts after every occurrence of `n` has been replaced by the ids `alt`. -/
def replaced (f : Nat → Int) (n : Nat) (alt : List Int) : Nat → Int := fun i =>
  if i = n then 0 else f i + f n * alt.count (i : Int)

/-- How much longer the text becomes when `n` is replaced by `alt`. -/
noncomputable def gain (size : Nat) (f : Nat → Int) (n : Nat) (alt : List Int) : ℝ :=
  codeLen size (replaced f n alt) - codeLen size f

end VGram.Spec
