import Verif.Model.Basic

/-!
# Laws of floating-point scores, and the score of a parse

The theorems about the frequency-weighted parse hold for every arithmetic satisfying these laws.
`Verif/Proofs/Ieee.lean` proves them for IEEE doubles, `Verif/Spec/Instances.lean` for the real numbers
with a bottom element.
-/

namespace VGram.Spec

variable {F : Type}

/-- `lp` is the log-probability of a word with frequency `f ≥ 0` (or outside the frequency
vector) among `t ≥ 1` (`total + size`). -/
def IsLp (O : FloatOps F) (lp : F) : Prop :=
  ∃ t : Int, 1 ≤ t ∧ (lp = O.sub (O.ofInt 0) (O.log (O.ofInt t)) ∨
    ∃ f : Int, 0 ≤ f ∧ lp = O.sub (O.log (O.ofInt (f + 1))) (O.log (O.ofInt t)))

/-- Laws needed for losslessness.  For doubles take a bound like `Good x := |x| ≤ 2^100`: log-probabilities
are much smaller, sums stay below the bound by rounding, and `lowest + lp = lowest` by absorption. -/
structure ScoreLaws (O : FloatOps F) where
  Good : F → Prop
  zero : Good (O.ofInt 0)
  step : ∀ x lp, Good x → IsLp O lp → Good (O.add x lp)
  above : ∀ x, Good x → O.lt O.lowest x = true
  notGood : ¬ Good O.lowest
  dead : ∀ x lp, x = O.lowest ∨ Good x → IsLp O lp → O.lt x (O.add O.lowest lp) = false

/-- Laws needed for optimality: on the values that occur (`Ok`; for doubles: not NaN) `<` is a
strict weak order and adding a log-probability is monotone (true for rounded addition). -/
structure OrderLaws (O : FloatOps F) where
  Ok : F → Prop
  lowest : Ok O.lowest
  zero : Ok (O.ofInt 0)
  step : ∀ x lp, Ok x → IsLp O lp → Ok (O.add x lp)
  asymm : ∀ x y, Ok x → Ok y → O.lt x y = true → O.lt y x = false
  leTrans : ∀ x y z, Ok x → Ok y → Ok z → O.lt y x = false → O.lt z y = false → O.lt z x = false
  mono : ∀ x y lp, Ok x → Ok y → IsLp O lp → O.lt y x = false → O.lt (O.add y lp) (O.add x lp) = false

/-- Log-probability of id `i` given frequencies, their total and the dictionary size. -/
def wordScore (O : FloatOps F) (freqs : List Int) (total : Int) (size : Nat) (i : Int) : F :=
  O.sub (match freqs[i.toNat]? with | some f => O.log (O.ofInt (f + 1)) | none => O.ofInt 0)
    (O.log (O.ofInt (total + (size : Int))))

/-- Score of a parse: the left-to-right sum of the log-probabilities of its ids. -/
def parseScore (O : FloatOps F) (freqs : List Int) (total : Int) (size : Nat) (ids : List Int) : F :=
  ids.foldl (fun s i => O.add s (wordScore O freqs total size i)) (O.ofInt 0)

end VGram.Spec
