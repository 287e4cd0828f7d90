import Verif.Lemmas.IntMath

/-!
# C23 — the integer helpers are exact
-/

namespace Vecmem.Props

open Vecmem.IntMath

/-- `is_power_of_2` accepts exactly the powers of two — and zero. -/
theorem c23_is_power_of_2 (x : Nat) (hx : x < 2 ^ 64) :
    isPowerOf2 x = true ↔ x = 0 ∨ ∃ k, x = 2 ^ k := isPowerOf2_iff hx

/-- `log2` is the floor of the base-2 logarithm, for every non-zero 64-bit argument. -/
theorem c23_log2 (x : Nat) (h0 : 0 < x) (hx : x < 2 ^ 64) :
    ∃ r, log2 x = some r ∧ 2 ^ r ≤ x ∧ x < 2 ^ (r + 1) :=
  ⟨_, log2_eq (by omega) hx, Nat.log2_self_le (by omega), Nat.lt_log2_self⟩

/-- `log2_ri` is the ceiling of the base-2 logarithm: the least `r` with `x ≤ 2^r`. -/
theorem c23_log2_ri (x : Nat) (h0 : 0 < x) (hx : x < 2 ^ 64) :
    ∃ r, log2Ri x = some r ∧ x ≤ 2 ^ r ∧ ∀ k, x ≤ 2 ^ k → r ≤ k :=
  ⟨_, log2Ri_eq (by omega) hx, le_two_pow_clog2 x, fun _ h => clog2_le (by omega) h⟩

/-- `clzl`, and with it `log2` and `log2_ri`, is undefined at zero. -/
theorem c23_log2_zero_undefined : log2 0 = none ∧ log2Ri 0 = none := by
  simp [log2, log2Ri, clzl, clzlLoop_zero]

/-- `round_up` is the least exponent whose power is large enough, for every size up to `2^63`, and
the assertion fails exactly for larger sizes. -/
theorem c23_round_up (size : Nat) :
    (size ≤ 2 ^ 63 → ∃ r, roundUp size = some r ∧ size ≤ 2 ^ r ∧ r < 64 ∧ ∀ j < r, 2 ^ j < size) ∧
    (2 ^ 63 < size → roundUp size = none) := by
  constructor
  · intro h
    refine ⟨roundUpRelease size, ?_, roundUpRelease_spec h⟩
    simp [roundUp, Nat.one_shiftLeft]; omega
  · intro h; simp [roundUp, Nat.one_shiftLeft]; omega

/-- Without assertions, a size above `2^63` silently rounds "up" to exponent 0, that is, one byte. -/
theorem c23_round_up_release_overflow (size : Nat) (h : 2 ^ 63 < size) : roundUpRelease size = 0 :=
  roundUpLoop_big h 64 0 rfl

example : log2 1000 = some 9 ∧ log2Ri 1000 = some 10 ∧ log2Ri 1024 = some 10 ∧
    roundUp 1025 = some 11 ∧ isPowerOf2 48 = false := by decide +kernel

end Vecmem.Props
