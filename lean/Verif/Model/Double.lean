import Verif.Model.Grisu
import Verif.Model.JsonText

/-!
# Doubles as bits, and what json.h does with them

json.h:10726-10769 (`to_chars`) uses `std::signbit`, the comparison with 0 and `grisu2`; these are given here for IEEE binary64.  `strtod` of the C library remains a
parameter.
-/

namespace VGram

/-- An IEEE binary64 number: sign bit, and exponent and fraction fields as one number of 63 bits. -/
structure Double where
  neg : Bool
  mag : Fin (2 ^ 63)
  deriving DecidableEq, Repr

namespace Double

/-- `std::isfinite`: the exponent field is not 2047. -/
def isFinite (x : Double) : Bool := decide (x.mag.val < 2047 * 2 ^ 52)

/-- The conversions of json.h for doubles: `std::signbit` :10732, `value == 0` :10738, `grisu2` :10756 applied to the absolute value; the characters of the digits
are written by `static_cast<char>('0' + d)` :10345, :10438. -/
def text (strtod : Str → Double) : TextOps Double where
  signbit x := x.neg
  isZero x := decide (x.mag.val = 0)
  grisu x :=
    match Grisu.grisu2 x.mag.val with
    | .ok (ds, e) => (ds.map Dump.digit, e)
    | .error _ => ([], 0)
  strtod := strtod

end Double

end VGram
