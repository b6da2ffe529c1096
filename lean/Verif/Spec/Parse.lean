import Mathlib.Data.List.Forall2
import Verif.Model.Basic

/-!
# Specification vocabulary for dictionaries and parses

Nothing here refers to the functions of the model; a dictionary is only its list of words.
-/

namespace VGram.Spec

/-- Id `i` names word `w` in the word list `words`. -/
def IsWord (words : List IntSeq) (i : Int) (w : IntSeq) : Prop := 0 ≤ i ∧ words[i.toNat]? = some w

/-- The words named by `ids` spell exactly `seq`. -/
def Spells (words : List IntSeq) (ids : List Int) (seq : IntSeq) : Prop :=
  ∃ ws : List IntSeq, List.Forall₂ (IsWord words) ids ws ∧ ws.flatten = seq

/-- `i` names the longest word of `words` among those with `ok` that is a prefix of `seq`. -/
def IsLongestPrefix (words : List IntSeq) (ok : Int → Prop) (seq : IntSeq) (i : Int) : Prop :=
  ∃ w, IsWord words i w ∧ w <+: seq ∧ ok i ∧
    ∀ j v, IsWord words j v → v <+: seq → ok j → v.length ≤ w.length

/-- No word with `ok` is a prefix of `seq`. -/
def NoPrefix (words : List IntSeq) (ok : Int → Prop) (seq : IntSeq) : Prop :=
  ∀ j v, IsWord words j v → v <+: seq → ¬ ok j

/-- `ids` is the greedy left-to-right cover of `seq`: at each place the longest allowed word is
taken, and a symbol is skipped only where no allowed word matches. -/
inductive GreedyCover (words : List IntSeq) (ok : Int → Prop) : IntSeq → List Int → Prop
  | nil : GreedyCover words ok [] []
  | word {w rest : IntSeq} {i : Int} {ids : List Int} (h1 : IsWord words i w)
      (h2 : IsLongestPrefix words ok (w ++ rest) i) (h3 : GreedyCover words ok rest ids) :
      GreedyCover words ok (w ++ rest) (i :: ids)
  | skip {x : Int} {rest : IntSeq} {ids : List Int} (h1 : NoPrefix words ok (x :: rest))
      (h2 : GreedyCover words ok rest ids) : GreedyCover words ok (x :: rest) ids

/-- `ids` covers `seq` except for skipped symbols, using only allowed ids. -/
inductive SparseCover (words : List IntSeq) (ok : Int → Prop) : IntSeq → List Int → Prop
  | nil : SparseCover words ok [] []
  | word {w rest : IntSeq} {i : Int} {ids : List Int} (h1 : IsWord words i w) (h2 : ok i)
      (h3 : SparseCover words ok rest ids) : SparseCover words ok (w ++ rest) (i :: ids)
  | skip {x : Int} {rest : IntSeq} {ids : List Int} (h2 : SparseCover words ok rest ids) :
      SparseCover words ok (x :: rest) ids

/-- The dictionary grew from `words` to `words'` only by one-symbol words whose symbols occur in `seq`. -/
def GrowsBy (words words' : List IntSeq) (seq : IntSeq) : Prop :=
  ∃ syms : List Int, words' = words ++ syms.map (fun x => [x]) ∧ ∀ x ∈ syms, x ∈ seq

/-- Every symbol of `seq` is present as a one-symbol word. -/
def Knows (words : List IntSeq) (seq : IntSeq) : Prop := ∀ x ∈ seq, [x] ∈ words

/-- The symbols of `seq` not yet known arrive above all leading symbols of the dictionary; `out` is
the word list after adding them in that order. -/
inductive Fits : List IntSeq → IntSeq → List IntSeq → Prop
  | nil {words : List IntSeq} : Fits words [] words
  | known {words out : List IntSeq} {x : Int} {xs : IntSeq} (h1 : [x] ∈ words) (h2 : Fits words xs out) :
      Fits words (x :: xs) out
  | fresh {words out : List IntSeq} {x : Int} {xs : IntSeq} (h1 : ∀ w ∈ words, ∀ y ∈ w.head?, y < x)
      (h2 : Fits (words ++ [[x]]) xs out) : Fits words (x :: xs) out

/-- `Fits` for a list of sequences, one after the other. -/
inductive FitsAll : List IntSeq → List IntSeq → List IntSeq → Prop
  | nil {words : List IntSeq} : FitsAll words [] words
  | cons {words mid out : List IntSeq} {seq : IntSeq} {seqs : List IntSeq} (h1 : Fits words seq mid) (h2 : FitsAll mid seqs out) :
      FitsAll words (seq :: seqs) out

/-- Every symbol occurring in a word is itself a word. -/
def Closed (words : List IntSeq) : Prop := ∀ w ∈ words, Knows words w

/-- Symbols numbered in order of first occurrence: with `n` symbols known before, `seq` only uses
known numbers or the next free one; `m` symbols are known afterwards. -/
inductive Arrive : Nat → IntSeq → Nat → Prop
  | nil {n : Nat} : Arrive n [] n
  | known {n m : Nat} {x : Int} {xs : IntSeq} (h0 : 0 ≤ x) (h1 : x < (n : Int)) (h2 : Arrive n xs m) :
      Arrive n (x :: xs) m
  | fresh {n m : Nat} {xs : IntSeq} (h2 : Arrive (n + 1) xs m) : Arrive n ((n : Int) :: xs) m

end VGram.Spec
