import Verif.Model.Align
import Verif.Lemmas.IntMath

namespace Vecmem

open IntMath

/-- The least multiple of `a` that is at least `p`. -/
def alignUp (a p : Nat) : Nat := p + (a - p % a) % a

theorem alignUp_ge (a p : Nat) : p ≤ alignUp a p := Nat.le_add_right _ _

theorem alignUp_dvd {a : Nat} (ha : 0 < a) (p : Nat) : a ∣ alignUp a p := by
  unfold alignUp
  have h1 := Nat.mod_lt p ha
  have h2 := Nat.div_add_mod p a
  by_cases h : p % a = 0
  · rw [h, Nat.sub_zero, Nat.mod_self, Nat.add_zero]; exact Nat.dvd_of_mod_eq_zero h
  · rw [Nat.mod_eq_of_lt (by omega)]
    have : p + (a - p % a) = a * (p / a + 1) := by rw [Nat.mul_add]; omega
    rw [this]; exact Nat.dvd_mul_right _ _

theorem alignUp_lt {a : Nat} (ha : 0 < a) (p : Nat) : alignUp a p < p + a := by
  unfold alignUp
  have := Nat.mod_lt (a - p % a) ha
  omega

theorem alignUp_le {a p q : Nat} (ha : 0 < a) (hd : a ∣ q) (h : p ≤ q) : alignUp a p ≤ q := by
  obtain ⟨c, rfl⟩ := hd
  obtain ⟨d, hd⟩ := alignUp_dvd ha p
  have hlt := alignUp_lt ha p
  rw [hd] at hlt ⊢
  apply Nat.mul_le_mul_left
  apply Nat.le_of_not_lt
  intro hc
  have : a * (c + 1) ≤ a * d := Nat.mul_le_mul_left _ hc
  rw [Nat.mul_add] at this
  omega

theorem alignUp_of_dvd {a p : Nat} (ha : 0 < a) (hd : a ∣ p) : alignUp a p = p :=
  Nat.le_antisymm (alignUp_le ha hd (Nat.le_refl _)) (alignUp_ge a p)

theorem stdAlign_eq (a size p space : Nat) :
    stdAlign a size p space =
      if size + (alignUp a p - p) ≤ space then some (alignUp a p, space - (alignUp a p - p))
      else none := by
  unfold stdAlign alignUp
  simp only [Nat.add_sub_cancel_left]

theorem isAligned_iff {p a : Nat} (hk : ∃ k, k ≤ 61 ∧ a = 2 ^ k) :
    isAligned p a = true ↔ a ∣ p := by
  obtain ⟨k, hk, rfl⟩ := hk
  have hp : 0 < 2 ^ k := Nat.two_pow_pos k
  have hle : 2 ^ k ≤ 2 ^ 61 := Nat.pow_le_pow_right (by omega) hk
  have hw1 : wrap64 (2 * 2 ^ k) = 2 * 2 ^ k := by unfold wrap64; omega
  by_cases h61 : k = 62
  · omega
  · have hspace : 2 * 2 ^ k + (alignUp (2 ^ k) p - p) ≤ wrap64 (4 * 2 ^ k) := by
      have := alignUp_lt hp p
      have := alignUp_ge (2 ^ k) p
      have : wrap64 (4 * 2 ^ k) = 4 * 2 ^ k := by unfold wrap64; omega
      omega
    simp only [isAligned, hw1, stdAlign_eq, if_pos hspace, beq_iff_eq]
    constructor
    · intro h; rw [← h]; exact alignUp_dvd hp p
    · intro h; exact alignUp_of_dvd hp h

end Vecmem
