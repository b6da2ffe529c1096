import Verif.Spec.Ieee

/-!
# The sign of a logarithm, and contingency tables far from chance
-/

namespace VGram.Spec

/-- What is asked of `std::log` for the sign of a score: it is not negative for numbers from 1 on, and below 1 it is negative, by at least a 1024th of the distance to 1.
(The logarithm itself is at most `x - 1`.) -/
def LogSign (log : Double → Double) : Prop :=
  ∀ (d : Double) (x : ℚ), Double.val d = .fin x → 0 < x → ∃ l : ℚ, Double.val (log d) = .fin l ∧ (x < 1 → l ≤ -((1 - x) / 2 ^ 10)) ∧ (1 ≤ x → 0 ≤ l)

/-- A table (both, only the first, only the second, neither) in which the pair is at least about six times rarer than the rest of the table lets expect. -/
def Rare : List Int → Prop
  | [ab, ay, xb, xy] => 24 * ((ab + 1) * (xy + 1)) ≤ (2 * ay + 1) * (2 * xb + 1)
  | _ => False

/-- A table in which the pair is at least about 900 times more frequent than the rest of the table lets expect. -/
def Frequent : List Int → Prop
  | [ab, ay, xb, xy] => 3600 * ((ay + 1) * (xb + 1)) ≤ (2 * ab + 1) * (2 * xy + 1)
  | _ => False

end VGram.Spec
