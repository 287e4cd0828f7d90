import Verif.Model.IntMath

namespace Vecmem.IntMath

theorem isPowerOf2_iff {x : Nat} (hx : x < 2 ^ 64) :
    isPowerOf2 x = true ↔ x = 0 ∨ ∃ k, x = 2 ^ k := by
  by_cases h0 : x = 0
  · subst h0; simp [isPowerOf2]
  · have hw : wrap64 (x + 2 ^ 64 - 1) = x - 1 := by unfold wrap64; omega
    have := Nat.and_sub_one_eq_zero_iff_isPowerOfTwo h0
    simp only [isPowerOf2, hw, beq_iff_eq, h0, false_or]
    exact this

theorem log2_lt_64 {x : Nat} (h0 : x ≠ 0) (hx : x < 2 ^ 64) : Nat.log2 x < 64 :=
  (Nat.log2_lt h0).2 hx

theorem and_two_pow_63 (y : Nat) : (y &&& (1 <<< 63)) ≠ 0 ↔ y.testBit 63 = true := by
  rw [Nat.one_shiftLeft]
  constructor
  · intro h
    cases hb : y.testBit 63 with
    | true => rfl
    | false =>
      exfalso; apply h
      apply Nat.eq_of_testBit_eq
      intro j
      rw [Nat.testBit_and, Nat.testBit_two_pow, Nat.zero_testBit]
      by_cases hj : 63 = j
      · subst hj; simp [hb]
      · simp [hj]
  · intro hb h
    have : (y &&& 2 ^ 63).testBit 63 = true := by
      rw [Nat.testBit_and, Nat.testBit_two_pow]; simp [hb]
    rw [h] at this; simp at this

theorem testBit_shift (i b : Nat) (hb : b ≤ 63) :
    (wrap64 (i <<< b)).testBit 63 = i.testBit (63 - b) := by
  unfold wrap64
  rw [Nat.testBit_mod_two_pow, Nat.testBit_shiftLeft]
  simp [hb]

theorem clzlLoop_eq {i : Nat} (h0 : i ≠ 0) (hi : i < 2 ^ 64) :
    ∀ fuel b, b + fuel = 64 → b ≤ 63 - Nat.log2 i →
      clzlLoop i fuel b = some (63 - Nat.log2 i) := by
  intro fuel
  have hl := log2_lt_64 h0 hi
  induction fuel with
  | zero => intro b hb hle; omega
  | succ f ih =>
    intro b hb hle
    unfold clzlLoop
    have ht := and_two_pow_63 (wrap64 (i <<< b))
    rw [testBit_shift i b (by omega)] at ht
    by_cases hc : b = 63 - Nat.log2 i
    · have : i.testBit (63 - b) = true := by
        have : 63 - b = Nat.log2 i := by omega
        rw [this]; exact Nat.testBit_log2 h0
      rw [if_pos (ht.2 this), hc]
    · have : i.testBit (63 - b) = false := by
        apply Nat.testBit_lt_two_pow
        exact (Nat.log2_lt h0).1 (by omega)
      rw [if_neg (by rw [ht, this]; simp)]
      exact ih (b + 1) (by omega) (by omega)

theorem clzlLoop_zero : ∀ fuel b, clzlLoop 0 fuel b = none := by
  intro fuel
  induction fuel with
  | zero => intro b; rfl
  | succ f ih => intro b; unfold clzlLoop; simp [wrap64, ih]

theorem log2_eq {x : Nat} (h0 : x ≠ 0) (hx : x < 2 ^ 64) : log2 x = some (Nat.log2 x) := by
  have hl := log2_lt_64 h0 hx
  simp only [log2, clzl, clzlLoop_eq h0 hx 64 0 rfl (by omega), Option.map_some]
  congr 1; omega

/-- Ceiling of the base-2 logarithm. -/
def clog2 (x : Nat) : Nat := if x = 2 ^ Nat.log2 x then Nat.log2 x else Nat.log2 x + 1

theorem log2Ri_eq {x : Nat} (h0 : x ≠ 0) (hx : x < 2 ^ 64) : log2Ri x = some (clog2 x) := by
  simp only [log2Ri, log2_eq h0 hx, Option.map_some, clog2]
  congr 1
  have hp := isPowerOf2_iff hx
  by_cases h : x = 2 ^ Nat.log2 x
  · rw [if_pos h, (hp.2 (Or.inr ⟨_, h⟩))]; simp
  · have : isPowerOf2 x = false := by
      cases hc : isPowerOf2 x with
      | false => rfl
      | true =>
        rcases hp.1 hc with h1 | ⟨k, hk⟩
        · exact absurd h1 h0
        · exact absurd (by rw [hk, Nat.log2_two_pow]) h
    rw [if_neg h, this]; simp

theorem le_two_pow_clog2 (x : Nat) : x ≤ 2 ^ clog2 x := by
  unfold clog2
  split
  · rename_i h; omega
  · exact Nat.le_of_lt Nat.lt_log2_self

theorem clog2_le {x k : Nat} (h0 : x ≠ 0) (h : x ≤ 2 ^ k) : clog2 x ≤ k := by
  unfold clog2
  have hs := Nat.log2_self_le h0
  split
  · rename_i h1
    rw [h1] at h
    exact (Nat.pow_le_pow_iff_right (by omega)).1 h
  · rename_i h1
    have h2 : 2 ^ Nat.log2 x < x := by omega
    exact (Nat.pow_lt_pow_iff_right (by omega)).1 (Nat.lt_of_lt_of_le h2 h)

theorem clog2_mono {x y : Nat} (h0 : x ≠ 0) (h : x ≤ y) : clog2 x ≤ clog2 y :=
  clog2_le h0 (Nat.le_trans h (le_two_pow_clog2 y))

theorem clog2_two_pow (k : Nat) : clog2 (2 ^ k) = k := by
  simp [clog2, Nat.log2_two_pow]

theorem two_pow_clog2_of_pow2 {x : Nat} (h : ∃ k, x = 2 ^ k) : 2 ^ clog2 x = x := by
  obtain ⟨k, rfl⟩ := h; rw [clog2_two_pow]

theorem roundUpLoop_spec (size : Nat) : ∀ fuel i, i + fuel = 64 → size ≤ 2 ^ 63 → 0 < fuel →
    (∀ j < i, 2 ^ j < size) →
    size ≤ 2 ^ roundUpLoop size fuel i ∧ roundUpLoop size fuel i < 64 ∧
      ∀ j < roundUpLoop size fuel i, 2 ^ j < size := by
  intro fuel
  induction fuel with
  | zero => intro i _ _ h; omega
  | succ f ih =>
    intro i hi hs _ hlt
    unfold roundUpLoop
    rw [Nat.one_shiftLeft]
    split
    · rename_i h; exact ⟨h, by omega, hlt⟩
    · rename_i h
      by_cases hf : f = 0
      · subst hf
        have : i = 63 := by omega
        subst this; omega
      · apply ih (i + 1) (by omega) hs (by omega)
        intro j hj
        rcases Nat.lt_succ_iff_lt_or_eq.1 hj with h' | h'
        · exact hlt j h'
        · subst h'; omega

theorem roundUpRelease_spec {size : Nat} (h : size ≤ 2 ^ 63) :
    size ≤ 2 ^ roundUpRelease size ∧ roundUpRelease size < 64 ∧
      ∀ j < roundUpRelease size, 2 ^ j < size :=
  roundUpLoop_spec size 64 0 rfl h (by omega) (by intro j hj; omega)

theorem roundUpLoop_big {size : Nat} (h : 2 ^ 63 < size) :
    ∀ fuel i, i + fuel = 64 → roundUpLoop size fuel i = 0 := by
  intro fuel
  induction fuel with
  | zero => intro i _; rfl
  | succ f ih =>
    intro i hi
    unfold roundUpLoop
    rw [Nat.one_shiftLeft]
    have : 2 ^ i ≤ 2 ^ 63 := Nat.pow_le_pow_right (by omega) (by omega)
    rw [if_neg (by omega)]
    exact ih (i + 1) (by omega)

theorem roundUpRelease_eq_clog2 {size : Nat} (h0 : size ≠ 0) (h : size ≤ 2 ^ 63) :
    roundUpRelease size = clog2 size := by
  have hs := roundUpRelease_spec h
  apply Nat.le_antisymm
  · apply Nat.le_of_not_lt
    intro hlt
    have := hs.2.2 _ hlt
    have := le_two_pow_clog2 size
    omega
  · exact clog2_le h0 hs.1

end Vecmem.IntMath
