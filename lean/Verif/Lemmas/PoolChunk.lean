import Verif.Lemmas.Pool
import Verif.Spec.PoolOptions

namespace Vecmem

open IntMath

/-- What the constructor's check guarantees. -/
structure PoolOpts.Facts (o : PoolOpts) (k0 k1 : Nat) : Prop where
  smallest : o.smallest = 2 ^ k0
  largest : o.largest = 2 ^ k1
  le : k0 ≤ k1
  lt : k1 < 64
  align : o.alignment ≠ 0 → ∃ j, o.alignment = 2 ^ j ∧ j ≤ k0
  alignLe : o.alignment ≤ o.smallest
  minmaxBlocks : o.minBlocks ≤ o.maxBlocks
  minmaxBytes : o.minBytes ≤ o.maxBytes
  largeFits : wrap64 (o.minBlocks * o.largest) ≤ o.maxBytes
  smallFits : o.minBytes ≤ wrap64 (o.maxBlocks * o.smallest)

namespace Pool

theorem create_spec {o : PoolOpts} {st : Pool} (hr : o.InRange) (h : create o = .ok st) :
    ∃ k0 k1, o.Facts k0 k1 ∧ st = ⟨k0, List.replicate (k1 - k0 + 1) {}, [], [], []⟩ := by
  obtain ⟨r1, r2, r3, r4, r5, r6, r7⟩ := hr
  unfold create at h
  cases hl : log2Ri o.smallest with
  | none => rw [hl] at h; simp at h
  | some k =>
    simp only [hl] at h
    by_cases hv : o.checkValid = true
    · rw [hv] at h
      simp only [Bool.not_true, Bool.false_eq_true, if_false] at h
      simp only [PoolOpts.checkValid, Bool.and_eq_true, Bool.not_eq_true', Bool.or_eq_false_iff,
        decide_eq_false_iff_not, beq_eq_false_iff_ne, isPowerOf2_iff r5, isPowerOf2_iff r6,
        isPowerOf2_iff r7] at hv
      obtain ⟨⟨⟨⟨⟨⟨⟨⟨⟨⟨⟨⟨v1, v2⟩, v3⟩, v4⟩, v5⟩, v6⟩, v7⟩, v8⟩, v9⟩, v10⟩, v11⟩, v12⟩, v13⟩ := hv
      obtain ⟨k0, hk0⟩ := v1.resolve_left v5.1
      obtain ⟨k1, hk1⟩ := v2.resolve_left v5.2
      have e0 : k = k0 := by
        rw [log2Ri_eq v5.1 r5, hk0, clog2_two_pow] at hl; simpa using hl.symm
      have e1 : log2Ri o.largest = some k1 := by
        rw [log2Ri_eq v5.2 r6, hk1, clog2_two_pow]
      rw [e1] at h
      simp only [Res.ok.injEq] at h
      refine ⟨k0, k1, ⟨hk0, hk1, ?_, ?_, ?_, by omega, by omega, by omega, by omega, by omega⟩, ?_⟩
      · rw [hk0, hk1] at v8
        exact (Nat.pow_le_pow_iff_right (a := 2) (by decide)).1 (by omega)
      · rw [hk1] at r6
        exact (Nat.pow_lt_pow_iff_right (a := 2) (by decide)).1 r6
      · intro h0
        obtain ⟨j, hj⟩ := v3.resolve_left h0
        refine ⟨j, hj, ?_⟩
        rw [hk0, hj] at v13
        exact (Nat.pow_le_pow_iff_right (a := 2) (by decide)).1 (by omega)
      · rw [← h, e0]
    · simp only [Bool.not_eq_true] at hv
      rw [hv] at h
      simp at h

/-- A chunk of `n` blocks of `2^k` bytes respects the limits. -/
structure GoodCount (o : PoolOpts) (k n : Nat) : Prop where
  pos : 0 < n
  minBlocks : o.minBlocks ≤ n
  maxBlocks : n ≤ o.maxBlocks
  maxBytes : n * 2 ^ k ≤ o.maxBytes
  minBytes : o.MinFits → o.minBytes ≤ n * 2 ^ k

theorem chunkBlocks_spec {o : PoolOpts} {k0 k1 : Nat} (hr : o.InRange) (hf : o.Facts k0 k1)
    (hno : o.NoOverflow) (hne : o.NonEmpty) {k prev : Nat} (hk0 : k0 ≤ k) (hk1 : k ≤ k1)
    (hp : prev = 0 ∨ GoodCount o k prev) : GoodCount o k (chunkBlocks o k prev) := by
  have hB0 : 2 ^ k0 ≤ 2 ^ k := Nat.pow_le_pow_right (by omega) hk0
  have hB1 : 2 ^ k ≤ 2 ^ k1 := Nat.pow_le_pow_right (by omega) hk1
  have hB : 0 < 2 ^ k := Nat.two_pow_pos k
  have hlf := hf.largeFits
  have hsf := hf.smallFits
  obtain ⟨n1, n2⟩ := hno
  obtain ⟨e1, e2⟩ := hne
  obtain ⟨r1, r2, r3, r4, r5, r6, r7⟩ := hr
  have hlf' : o.minBlocks * 2 ^ k ≤ o.maxBytes := by
    have : o.minBlocks * 2 ^ k ≤ o.minBlocks * o.largest := by
      rw [hf.largest]; exact Nat.mul_le_mul_left _ hB1
    have hw : wrap64 (o.minBlocks * o.largest) = o.minBlocks * o.largest := Nat.mod_eq_of_lt n1
    omega
  have hsf' : o.minBytes / 2 ^ k ≤ o.maxBlocks := by
    have h1 : o.minBytes ≤ o.maxBlocks * o.smallest :=
      Nat.le_trans hsf (Nat.mod_le _ _)
    have h2 : o.maxBlocks * o.smallest ≤ o.maxBlocks * 2 ^ k := by
      rw [hf.smallest]; exact Nat.mul_le_mul_left _ hB0
    apply Nat.le_of_lt_succ
    apply (Nat.div_lt_iff_lt_mul hB).2
    rw [Nat.succ_mul]; omega
  unfold chunkBlocks
  simp only [Nat.shiftRight_eq_div_pow]
  have hdm := Nat.div_mul_le_self o.minBytes (2 ^ k)
  split
  · rename_i h0
    split
    · rename_i hlt
      refine ⟨by omega, by omega, hsf', by have := hf.minmaxBytes; omega, ?_⟩
      intro hm
      rcases hm k (by rw [hf.smallest]; exact hB0) (by rw [hf.largest]; exact hB1) with h | h
      · have : o.minBlocks * 2 ^ k ≤ o.minBytes / 2 ^ k * 2 ^ k := Nat.mul_le_mul_right _ (by omega)
        omega
      · rw [Nat.div_mul_cancel h]
    · rename_i hge
      refine ⟨?_, Nat.le_refl _, hf.minmaxBlocks, hlf', ?_⟩
      · rcases e2 with h | h
        · exact h
        · have : 0 < o.minBytes / 2 ^ k := by
            apply Nat.div_pos _ hB
            rw [hf.largest] at h; omega
          omega
      · intro hm
        rcases hm k (by rw [hf.smallest]; exact hB0) (by rw [hf.largest]; exact hB1) with h | h
        · exact h
        · have := Nat.div_mul_cancel h
          have : o.minBytes / 2 ^ k * 2 ^ k ≤ o.minBlocks * 2 ^ k := Nat.mul_le_mul_right _ (by omega)
          omega
  · rename_i h0
    have g := hp.resolve_left h0
    have hple : prev ≤ o.maxBytes / 2 ^ k := (Nat.le_div_iff_mul_le hB).2 g.maxBytes
    have hw : wrap64 (prev * 3) = prev * 3 := by
      apply Nat.mod_eq_of_lt
      have g3 := g.maxBlocks
      have g4 := g.maxBytes
      rcases n2 with h | h | h
      · omega
      · have : prev * 1 ≤ prev * 2 ^ k := Nat.mul_le_mul_left _ hB
        omega
      · rw [hf.smallest] at h
        have : prev * 4 ≤ prev * 2 ^ k := Nat.mul_le_mul_left _ (by omega)
        omega
    rw [hw]
    have hge : prev ≤ prev * 3 / 2 := by omega
    have g3 := g.maxBlocks
    have gp := g.pos
    have gm := g.minBlocks
    have fin : ∀ m, prev ≤ m → m ≤ o.maxBlocks → m ≤ o.maxBytes / 2 ^ k → GoodCount o k m := by
      intro m h1 h2 h3
      refine ⟨by omega, by omega, h2, ?_, ?_⟩
      · exact (Nat.le_div_iff_mul_le hB).1 h3
      · intro hm
        exact Nat.le_trans (g.minBytes hm) (Nat.mul_le_mul_right _ h1)
    apply fin
    · split <;> split <;> omega
    · split <;> split <;> omega
    · split <;> split <;> omega

end Pool

end Vecmem
