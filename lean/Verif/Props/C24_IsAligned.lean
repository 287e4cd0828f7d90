import Verif.Lemmas.Align

/-!
# C24 — `is_aligned` decides alignment
-/

namespace Vecmem.Props

/-- The full claim: for every address and every power-of-two alignment representable in 64 bits. -/
def C24_claim : Prop :=
  ∀ p k, p < 2 ^ 64 → k < 64 → (isAligned p (2 ^ k) = true ↔ 2 ^ k ∣ p)

/-- `is_aligned` is exact for every address and every alignment up to `2^61`.  Missing: `2^62`
(see `c24_is_aligned_fails`) and `2^63`. -/
theorem c24_is_aligned_partial (p k : Nat) (hk : k ≤ 61) :
    isAligned p (2 ^ k) = true ↔ 2 ^ k ∣ p := isAligned_iff ⟨k, hk, rfl⟩

/-- The full claim is false: the dummy `space` argument overflows for the alignment `2^62`. -/
theorem c24_is_aligned_fails : ¬ C24_claim := by
  intro h
  have := (h (2 ^ 62) 62 (by decide) (by decide)).2 (Nat.dvd_refl _)
  revert this; decide +kernel

example : isAligned 4096 64 = true ∧ isAligned 4104 64 = false := by decide +kernel

end Vecmem.Props
