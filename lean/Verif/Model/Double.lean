import Mathlib.Data.Int.Log
import Mathlib.Data.Rat.Floor

/-!
# Model of the arithmetic of `double`

The type `double` of the platforms of the library: IEEE 754 binary64, with 53 bits of precision, and results rounded to the nearest
number, or to the one with an even last digit if there are two.  A number is modelled by its value.  Simplification: exponents are not
bounded; the only user is `memory_monitor::average_allocation` (core/src/utils/memory_monitor.cpp:41-45), with values that are zero or
between 2^-64 and 2^64, so that there is neither overflow nor underflow.
-/

namespace Vecmem.Double

/-- The nearest integer, the even one if there are two.  IEEE 754, "roundTiesToEven".
No counterpart in /repo: the arithmetic of the processor. -/
def halfEven (y : ℚ) : Int :=
  if y - ⌊y⌋ < 1 / 2 then ⌊y⌋
  else if 1 / 2 < y - ⌊y⌋ then ⌊y⌋ + 1
  else if ⌊y⌋ % 2 = 0 then ⌊y⌋ else ⌊y⌋ + 1

/-- The distance of two numbers with 53 binary digits at the positive `x`.
No counterpart in /repo: the arithmetic of the processor. -/
def ulp (x : ℚ) : ℚ := 2 ^ (Int.log 2 x - 52)

/-- The `double` that a number that is not negative is rounded to: a multiple of the distance.
No counterpart in /repo: the arithmetic of the processor. -/
def round53 (x : ℚ) : ℚ := halfEven (x / ulp x) * ulp x

/-- `static_cast<double>(n)` for a `std::size_t`, used in core/src/utils/memory_monitor.cpp:44. -/
def ofSize (n : Nat) : ℚ := round53 n

/-- The division of two values of type `double`, used in core/src/utils/memory_monitor.cpp:44. -/
def div (x y : ℚ) : ℚ := round53 (x / y)

/-- `std::round` for a number that is not negative: the nearest integer, the larger one if there are two.  Used in
core/src/utils/memory_monitor.cpp:43. -/
def stdRound (x : ℚ) : Int := ⌊x + 1 / 2⌋

end Vecmem.Double
