/-!
# Model of `core/src/utils/integer_math.hpp`

`std::size_t` values are `Nat`s below `2^64`; unsigned arithmetic is wrapped explicitly.
-/

namespace Vecmem.IntMath

/-- `std::size_t` arithmetic is modulo `2^64`.
No counterpart in /repo: C++ arithmetic. -/
def wrap64 (x : Nat) : Nat := x % 2 ^ 64

/-- `is_power_of_2`, integer_math.hpp:26-29: `(x & (x - 1)) == 0` (with `x - 1` wrapping at 0). -/
def isPowerOf2 (x : Nat) : Bool := (x &&& wrap64 (x + 2 ^ 64 - 1)) == 0

/-- The loop of `clzl`, integer_math.hpp:43-49, starting at `b`, for at most `fuel` iterations.
`none`: no bit found within the width of the type (the loop would go on with shift counts that are
not allowed). -/
def clzlLoop (i : Nat) : Nat → Nat → Option Nat
  | 0, _ => none
  | fuel + 1, b =>
    if (wrap64 (i <<< b) &&& (1 <<< 63)) ≠ 0 then some b else clzlLoop i fuel (b + 1)

/-- `clzl`, integer_math.hpp:36-51.  The portable branch (lines 43-49); the two intrinsic branches
(lines 38-41) compute the same for non-zero arguments and are left out.  `none` for `i = 0`
(`__builtin_clzl(0)` is undefined, the portable loop does not stop). -/
def clzl (i : Nat) : Option Nat := clzlLoop i 64 0

/-- `log2`, integer_math.hpp:58-63: `63 - clzl(x)`. -/
def log2 (x : Nat) : Option Nat := (clzl x).map (63 - ·)

/-- `log2_ri`, integer_math.hpp:70-82. -/
def log2Ri (x : Nat) : Option Nat :=
  (log2 x).map fun r => if !isPowerOf2 x then r + 1 else r

/-- The loop of `round_up`, integer_math.hpp:91-95, starting at `i`, with `fuel` iterations left;
falls through to `return 0` (line 97). -/
def roundUpLoop (size : Nat) : Nat → Nat → Nat
  | 0, _ => 0
  | fuel + 1, i => if (1 <<< i) ≥ size then i else roundUpLoop size fuel (i + 1)

/-- `round_up`, integer_math.hpp:88-98, as compiled without assertions. -/
def roundUpRelease (size : Nat) : Nat := roundUpLoop size 64 0

/-- `round_up`, integer_math.hpp:88-98; `none` if the assertion of line 90 fails. -/
def roundUp (size : Nat) : Option Nat :=
  if (1 <<< 63) ≥ size then some (roundUpRelease size) else none

end Vecmem.IntMath
