import Verif.Model.Basic

/-! # Decimal numerals -/

namespace VGram.Spec

/-- A decimal digit. -/
def IsDigit (c : Char) : Prop := 48 ≤ c.toNat ∧ c.toNat ≤ 57

/-- The number written by a list of digits. -/
def numeral (s : Str) : Nat := s.foldl (fun a c => 10 * a + (c.toNat - 48)) 0

/-- `s` is the decimal numeral of `n`: digits only, no superfluous leading zero. -/
structure IsNumeral (s : Str) (n : Nat) : Prop where
  nonempty : s ≠ []
  digits : ∀ c ∈ s, IsDigit c
  lead : s.head? = some '0' → s = ['0']
  value : numeral s = n

/-- `s` is the decimal form of the integer `i`. -/
def IsDecimal (s : Str) (i : Int) : Prop := ∃ t n, IsNumeral t n ∧ ((s = t ∧ i = n) ∨ (s = '-' :: t ∧ i = -(n : Int) ∧ 0 < n))

end VGram.Spec
