import Verif.Model.Basic

/-!
# Codes in order of first occurrence
-/

namespace VGram.Spec

variable {α : Type} [DecidableEq α]

/-- The distinct elements of a list in order of their first occurrence. -/
def seen : List α → List α
  | [] => []
  | x :: xs => x :: (seen xs).filter (fun y => y ≠ x)

end VGram.Spec
