import Verif.Model.Bytes

namespace Vecmem

theorem readLE_congr {m m' : Mem} {a k : Nat} (h : ∀ x, a ≤ x → x < a + k → m x = m' x) :
    readLE m a k = readLE m' a k := by
  induction k generalizing a with
  | zero => rfl
  | succ k ih =>
    simp only [readLE]
    rw [h a (by omega) (by omega), ih (fun x h1 h2 => h x (by omega) (by omega))]

theorem writeLE_other {m : Mem} {a k v x : Nat} (h : x < a ∨ a + k ≤ x) : writeLE m a k v x = m x := by
  unfold writeLE; rw [if_neg (by omega)]

/-- What is read is determined by the bytes; here those of the number `v`. -/
theorem readLE_of_bytes {m : Mem} {a k v : Nat}
    (h : ∀ i, i < k → m (a + i) = UInt8.ofNat (v / 256 ^ i)) : readLE m a k = v % 256 ^ k := by
  induction k generalizing a v with
  | zero => simp [readLE, Nat.mod_one]
  | succ k ih =>
    simp only [readLE]
    have h0 := h 0 (by omega)
    rw [Nat.add_zero, Nat.pow_zero, Nat.div_one] at h0
    rw [h0, ih (v := v / 256)]
    · rw [Nat.pow_succ, Nat.mul_comm (256 ^ k) 256, Nat.mod_mul]
      simp [UInt8.toNat_ofNat']
    · intro i hi
      have := h (i + 1) (by omega)
      rw [show a + 1 + i = a + (i + 1) by omega, this, Nat.div_div_eq_div_mul, Nat.pow_succ,
        Nat.mul_comm]

theorem readLE_writeLE {m : Mem} {a k v : Nat} (hv : v < 256 ^ k) : readLE (writeLE m a k v) a k = v := by
  rw [readLE_of_bytes (v := v), Nat.mod_eq_of_lt hv]
  intro i hi
  unfold writeLE
  rw [if_pos (by omega), Nat.add_sub_cancel_left]

theorem readLE_writeLE_other {m : Mem} {a k v b l : Nat} (h : b + l ≤ a ∨ a + k ≤ b) :
    readLE (writeLE m a k v) b l = readLE m b l :=
  readLE_congr fun x h1 h2 => writeLE_other (by omega)

theorem readLE_lt (m : Mem) (a k : Nat) : readLE m a k < 256 ^ k := by
  induction k generalizing a with
  | zero => simp [readLE]
  | succ k ih =>
    have h1 := ih (a + 1)
    have h2 := (m a).toNat_lt
    simp only [readLE, Nat.pow_succ]
    omega

end Vecmem
