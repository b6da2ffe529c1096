import Mathlib.Data.List.Basic
import Verif.Model.Basic

/-! # Counting words -/

namespace VGram.Spec

/-- Number of one-symbol words. -/
def singles (words : List IntSeq) : Nat := (words.filter fun w => w.length == 1).length

/-- Number of words that have no shorter prefix among the words. -/
def prefixFree (words : List IntSeq) : Nat := (words.filter fun w => words.all fun v => !(v.isPrefixOf w) || v == w).length

end VGram.Spec
