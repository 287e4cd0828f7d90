import Mathlib.Data.Rat.Defs
import Mathlib.Algebra.Order.Field.Basic
import Mathlib.Data.Rat.Cast.Order

/-!
# Specification of `double`
-/

namespace Vecmem.Double

/-- The value is one of a `double` (of any exponent): 53 binary digits, and a power of two. -/
def IsDouble (x : ℚ) : Prop := ∃ (m : Int) (e : Int), |m| < 2 ^ 53 ∧ x = m * 2 ^ e

/-- `r` is a `double`, and no other `double` is closer to `x`. -/
def IsNearest (x r : ℚ) : Prop := IsDouble r ∧ ∀ y, IsDouble y → |r - x| ≤ |y - x|

end Vecmem.Double
