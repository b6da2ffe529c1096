import Verif.Model.Basic

/-! # Python's `str.split()` on ASCII text -/

namespace VGram.Spec

/-- The ASCII characters `str.split()` takes for white space. -/
def isPySpace (c : Char) : Bool := c.toNat == 32 || (9 ≤ c.toNat && c.toNat ≤ 13) || (28 ≤ c.toNat && c.toNat ≤ 31)

/-- The pieces of `cur ++ s`, where `cur` has no white space. -/
def pySplitFrom : Str → Str → List Str
  | cur, [] => if cur = [] then [] else [cur]
  | cur, c :: s =>
    if isPySpace c then (if cur = [] then pySplitFrom [] s else cur :: pySplitFrom [] s)
    else pySplitFrom (cur ++ [c]) s

/-- `s.split()`: the maximal runs of characters that are not white space. -/
def pySplit (s : Str) : List Str := pySplitFrom [] s

example : pySplit " 0 12  7\n".toList = ["0".toList, "12".toList, "7".toList] := by decide +kernel
example : pySplit "-1".toList = ["-1".toList] ∧ pySplit " ".toList = [] := by decide +kernel

end VGram.Spec
