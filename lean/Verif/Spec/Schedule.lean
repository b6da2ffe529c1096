import Verif.Model.Basic
import Mathlib.Logic.Function.Iterate

/-!
# The rates noted at the rebuilds of a run in any arithmetic

The counterpart of `Verif.Spec.Patience`, whose numbers are real, for numbers that are rounded or missing.  Only the signature
`FloatOps` of the model is used.
-/

namespace VGram.Spec

variable {F : Type}

/-- `n * log2 n` as it is computed. -/
def bitsOf (O : FloatOps F) (n : Nat) : F := O.div (O.mul (O.ofInt n) (O.log (O.ofInt n))) (O.log (O.ofInt 2))

/-- Code length of the emitted ids in bytes per symbol of the text, computed from the counts of the words that were used. -/
def rateIn (O : FloatOps F) (size : Nat) (ids : List Int) (text : IntSeq) : F :=
  let used := ((List.range size).map fun (i : Nat) => ids.count (i : Int)).filter fun n => decide (0 < n)
  O.div (O.div (O.add (used.foldl (fun sum n => O.sub sum (bitsOf O n)) (O.ofInt 0)) (bitsOf O ids.length)) (O.ofInt 8)) (O.ofInt text.length)

/-- `n * log n` as it is computed. -/
def natsOf (O : FloatOps F) (n : Nat) : F := O.mul (O.ofInt n) (O.log (O.ofInt n))

/-- Code length of the emitted ids in nats per symbol of the text, computed from the counts of the words that were used. -/
def lengthIn (O : FloatOps F) (size : Nat) (ids : List Int) (text : IntSeq) : F :=
  let used := ((List.range size).map fun (i : Nat) => ids.count (i : Int)).filter fun n => decide (0 < n)
  O.div (O.add (used.foldl (fun sum n => O.sub sum (natsOf O n)) (O.ofInt 0)) (natsOf O ids.length)) (O.ofInt text.length)

/-- The last rate that was less than the ones before it, or 1. -/
def bestIn (O : FloatOps F) (rates : List F) : F := rates.foldl (fun best r => if O.lt r best then r else best) (O.ofInt 1)

/-- The rate at rebuild `i` is less than the best one before. -/
def recordAt (O : FloatOps F) (rates : List F) (i : Nat) : Bool :=
  match rates[i]? with
  | some r => O.lt r (bestIn O (rates.take i))
  | none => false

/-- Rebuild `i` and the three before it set no record. -/
def stalledAt (O : FloatOps F) (rates : List F) (i : Nat) : Bool := decide (3 ≤ i) && (List.range 4).all fun d => !recordAt O rates (i - d)

/-- How many rebuilds were stalled. -/
def stallsIn (O : FloatOps F) (rates : List F) : Nat := (List.range rates.length).countP (stalledAt O rates)

/-- One tenth, multiplied `k` times by 0.8. -/
def foundIn (O : FloatOps F) (k : Nat) : F := (fun p => O.mul p (O.lit 8 1))^[k] (O.lit 1 1)

/-- With `k` stalled rebuilds so far and a dictionary of minimal probability `mp`, `n` ids are enough for the next rebuild. -/
def dueIn (O : FloatOps F) (k : Nat) (mp : F) (n : Nat) : Bool :=
  O.lt (O.div (O.neg (O.log (foundIn O k))) mp) (O.ofInt n) || decide (20000000 < n)

/-- What can be written down about a run: the rates at the rebuilds so far, the ids emitted and the symbols read since. -/
structure Journal (F : Type) where
  rates : List F
  ids : List Int
  text : IntSeq

/-- An accepted sequence and the ids emitted for it. -/
def Journal.read (l : Journal F) (seq : IntSeq) (ids : List Int) : Journal F := ⟨l.rates, l.ids ++ ids, l.text ++ seq⟩

/-- A rebuild of a dictionary of `size` words. -/
def Journal.rebuilt (O : FloatOps F) (l : Journal F) (size : Nat) : Journal F := ⟨l.rates ++ [rateIn O size l.ids l.text], [], []⟩

end VGram.Spec
