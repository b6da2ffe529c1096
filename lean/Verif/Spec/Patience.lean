import Verif.Spec.Gain
import Verif.Model.Basic

/-!
# The rates noted at the rebuilds of a run, and how often the run got stuck

Nothing here refers to the functions of the model.
-/

namespace VGram.Spec

/-- Ideal code length of the emitted ids in bytes per symbol of the text; no number for an empty text. -/
noncomputable def byteRate (size : Nat) (ids : List Int) (text : IntSeq) : Option ℝ :=
  if text = [] then none else some (codeLen size (fun i => (ids.count (i : Int) : Int)) / Real.log 2 / 8 / text.length)

/-- The rate at rebuild `i` is below 1 and below all rates before it. -/
def Record (rates : List (Option ℝ)) (i : Nat) : Prop :=
  ∃ r, rates[i]? = some (some r) ∧ r < 1 ∧ ∀ j < i, ∀ q, rates[j]? = some (some q) → r < q

/-- Rebuild `i` and the three before it set no record. -/
def Stalled (rates : List (Option ℝ)) (i : Nat) : Prop := 3 ≤ i ∧ ∀ j ≤ i, i ≤ j + 3 → ¬ Record rates j

open Classical in
/-- How many rebuilds were stalled. -/
noncomputable def stalls (rates : List (Option ℝ)) : Nat := ((Finset.range rates.length).filter (Stalled rates)).card

/-- What can be written down about a run: the rates at the rebuilds so far, the ids emitted and the symbols read since. -/
structure Log where
  rates : List (Option ℝ)
  ids : List Int
  text : IntSeq

/-- An accepted sequence and the ids emitted for it. -/
def Log.read (l : Log) (seq : IntSeq) (ids : List Int) : Log := ⟨l.rates, l.ids ++ ids, l.text ++ seq⟩

/-- A rebuild of a dictionary of `size` words. -/
noncomputable def Log.rebuilt (l : Log) (size : Nat) : Log := ⟨l.rates ++ [byteRate size l.ids l.text], [], []⟩

/-- How many words an expansion of a dictionary of `words` words may add: a third more than it has, counting on top of the
words themselves, but for a tiny dictionary all that the final size leaves room for. -/
def places (size : Int) (symbols words : Nat) : Int := if 13 * words < 100 then size - symbols else (13 * words / 10 : Nat)

end VGram.Spec
