import Verif.Lemmas.EdmFast
import Verif.Lemmas.EdmBlocks

/-! # Buffers of the same capacities are laid out in the same way, if they take as many bytes -/

namespace Vecmem

open IntMath

/-! ## placement from two addresses -/

theorem alignUp_shift {a : Nat} (ha : 0 < a) {p q : Nat} (h : (a : Int) ∣ (p : Int) - q) :
    (alignUp a p : Int) - alignUp a q = (p : Int) - q := by
  have hm : p % a = q % a := by
    have := Int.emod_emod_of_dvd
    have h2 : (p : Int) % a = (q : Int) % a := Int.emod_eq_emod_iff_emod_sub_eq_zero.2 (Int.emod_eq_zero_of_dvd h)
    exact_mod_cast h2
  unfold alignUp
  rw [hm]
  omega

theorem pow_dvd_or {j k : Nat} : (2 ^ j : Nat) ∣ 2 ^ k ∨ (2 ^ k : Nat) ∣ 2 ^ j := by
  rcases Nat.le_total j k with h | h
  · exact .inl (Nat.pow_dvd_pow 2 h)
  · exact .inr (Nat.pow_dvd_pow 2 h)

/-- The regions after two addresses whose distance is not `D` modulo some alignment do not end at a distance of `D`. -/
theorem place_bad (D : Int) : ∀ (ts : List (CType × Nat)) (p q j : Nat), (∀ e ∈ ts, e.1.Wf) →
    ((2 ^ j : Nat) : Int) ∣ (p : Int) - q → ¬ ((2 ^ j : Nat) : Int) ∣ D → (placeEnd p ts : Int) - placeEnd q ts ≠ D := by
  intro ts
  induction ts with
  | nil => intro p q j _ h1 h2 h; simp only [placeEnd] at h; rw [h] at h1; exact h2 h1
  | cons e ts ih =>
    obtain ⟨t, n⟩ := e
    intro p q j hw h1 h2
    have hw' := fun e he => hw e (List.mem_cons_of_mem _ he)
    simp only [placeEnd]
    by_cases hn : n = 0
    · rw [if_pos hn, if_pos hn]; exact ih p q j hw' h1 h2
    · rw [if_neg hn, if_neg hn]
      obtain ⟨_, ⟨k, hk⟩, _⟩ := hw (t, n) List.mem_cons_self
      simp only at hk
      have ha : 0 < t.align := by rw [hk]; exact Nat.two_pow_pos k
      rcases pow_dvd_or (j := j) (k := k) with hd | hd
      · refine ih _ _ k hw' ?_ ?_
        · have a1 : (t.align : Int) ∣ alignUp t.align p := by exact_mod_cast alignUp_dvd ha p
          have a2 : (t.align : Int) ∣ alignUp t.align q := by exact_mod_cast alignUp_dvd ha q
          rw [← hk]
          have := Int.dvd_sub a1 a2
          push_cast
          rwa [show ((alignUp t.align p : Int) + n * t.size) - (alignUp t.align q + n * t.size) =
            (alignUp t.align p : Int) - alignUp t.align q by omega]
        · intro hc
          exact h2 (Int.dvd_trans (by exact_mod_cast hd) hc)
      · refine ih _ _ j hw' ?_ h2
        have := alignUp_shift ha (p := p) (q := q) (by rw [hk]; exact Int.dvd_trans (by exact_mod_cast hd) h1)
        push_cast
        rwa [show ((alignUp t.align p : Int) + n * t.size) - (alignUp t.align q + n * t.size) = (p : Int) - q by omega]

theorem place_same (D : Int) : ∀ (ts : List (CType × Nat)) (p q : Nat), (∀ e ∈ ts, e.1.Wf) → (p : Int) - q = D →
    (placeEnd p ts : Int) - placeEnd q ts = D → ∀ (k : Nat) (e : CType × Nat), ts[k]? = some e → e.2 ≠ 0 →
      ((placeAt p ts).getD k 0 : Int) - (placeAt q ts).getD k 0 = D := by
  intro ts
  induction ts with
  | nil => intro p q _ _ _ k e he; simp at he
  | cons x ts ih =>
    obtain ⟨t, n⟩ := x
    intro p q hw hD hend k e he h0
    have hw' := fun e he => hw e (List.mem_cons_of_mem _ he)
    simp only [placeEnd] at hend
    by_cases hn : n = 0
    · rw [if_pos hn, if_pos hn] at hend
      simp only [placeAt, if_pos hn]
      cases k with
      | zero => simp at he; subst he; exact absurd hn h0
      | succ k => simpa using ih p q hw' hD hend k e (by simpa using he) h0
    · rw [if_neg hn, if_neg hn] at hend
      simp only [placeAt, if_neg hn]
      obtain ⟨_, ⟨j, hk⟩, _⟩ := hw (t, n) List.mem_cons_self
      simp only at hk
      have ha : 0 < t.align := by rw [hk]; exact Nat.two_pow_pos j
      by_cases hd : (t.align : Int) ∣ D
      · have hs := alignUp_shift ha (p := p) (q := q) (by rw [hD]; exact hd)
        cases k with
        | zero => simp only [List.getD_cons_zero]; omega
        | succ k =>
          simp only [List.getD_cons_succ]
          exact ih _ _ hw' (by omega) hend k e (by simpa using he) h0
      · exfalso
        refine place_bad D ts _ _ j hw' ?_ (by rw [← hk]; exact hd) hend
        have a1 : (t.align : Int) ∣ alignUp t.align p := by exact_mod_cast alignUp_dvd ha p
        have a2 : (t.align : Int) ∣ alignUp t.align q := by exact_mod_cast alignUp_dvd ha q
        rw [← hk]
        have := Int.dvd_sub a1 a2
        push_cast
        rwa [show ((alignUp t.align p : Int) + n * t.size) - (alignUp t.align q + n * t.size) =
          (alignUp t.align p : Int) - alignUp t.align q by omega]

/-- If the regions span as many bytes, then they have the same distances from the first one. -/
theorem place_alike : ∀ (ts : List (CType × Nat)) (p q : Nat), (∀ e ∈ ts, e.1.Wf) → p ≠ 0 → q ≠ 0 →
    placeEnd p ts - findFirst (placeAt p ts) = placeEnd q ts - findFirst (placeAt q ts) →
    ∀ (k : Nat) (e : CType × Nat), ts[k]? = some e → e.2 ≠ 0 → ∃ o,
      (placeAt p ts).getD k 0 = findFirst (placeAt p ts) + o ∧ (placeAt q ts).getD k 0 = findFirst (placeAt q ts) + o := by
  intro ts
  induction ts with
  | nil => intro p q _ _ _ _ k e he; simp at he
  | cons x ts ih =>
    obtain ⟨t, n⟩ := x
    intro p q hw hp hq hend k e he h0
    have hw' := fun e he => hw e (List.mem_cons_of_mem _ he)
    by_cases hn : n = 0
    · have hf : ∀ l, findFirst (0 :: l) = findFirst l := fun l => by simp [findFirst]
      simp only [placeAt, placeEnd, if_pos hn, hf] at hend ⊢
      cases k with
      | zero => simp at he; subst he; exact absurd hn h0
      | succ k =>
        simp only [List.getD_cons_succ]
        exact ih p q hw' hp hq hend k e (by simpa using he) h0
    · have gp := alignUp_ge t.align p
      have gq := alignUp_ge t.align q
      have hf : ∀ (a : Nat) (l : List Nat), a ≠ 0 → findFirst (a :: l) = a := fun a l h => by simp [findFirst, h]
      simp only [placeAt, placeEnd, if_neg hn, hf _ _ (show alignUp t.align p ≠ 0 by omega),
        hf _ _ (show alignUp t.align q ≠ 0 by omega)] at hend ⊢
      cases k with
      | zero => exact ⟨0, by simp, by simp⟩
      | succ k =>
        simp only [List.getD_cons_succ]
        have g1 := placeEnd_ge ts (alignUp t.align p + n * t.size)
        have g2 := placeEnd_ge ts (alignUp t.align q + n * t.size)
        have := place_same ((alignUp t.align p : Int) - alignUp t.align q) ts (alignUp t.align p + n * t.size)
          (alignUp t.align q + n * t.size) hw' (by omega) (by omega) k e (by simpa using he) h0
        have b1 := (placeAt_bounds ts (alignUp t.align p + n * t.size) k e (by simpa using he) h0).1
        have b2 := (placeAt_bounds ts (alignUp t.align q + n * t.size) k e (by simpa using he) h0).1
        refine ⟨(placeAt (alignUp t.align p + n * t.size) ts).getD k 0 - alignUp t.align p, by omega, by omega⟩

/-- From two addresses whose distance is a multiple of all alignments, the regions span as many bytes. -/
theorem place_congr (D : Int) : ∀ (ts : List (CType × Nat)) (p q : Nat), (∀ e ∈ ts, 0 < e.1.align ∧ (e.1.align : Int) ∣ D) →
    (p : Int) - q = D → (placeEnd p ts : Int) - placeEnd q ts = D ∧
      ((∃ e ∈ ts, e.2 ≠ 0) → p ≠ 0 → q ≠ 0 → (findFirst (placeAt p ts) : Int) - findFirst (placeAt q ts) = D) := by
  intro ts
  induction ts with
  | nil => intro p q _ h; exact ⟨h, by rintro ⟨e, he, _⟩; simp at he⟩
  | cons x ts ih =>
    obtain ⟨t, n⟩ := x
    intro p q hw hD
    have hw' := fun e he => hw e (List.mem_cons_of_mem _ he)
    by_cases hn : n = 0
    · have hf : ∀ l, findFirst (0 :: l) = findFirst l := fun l => by simp [findFirst]
      obtain ⟨i1, i2⟩ := ih p q hw' hD
      simp only [placeAt, placeEnd, if_pos hn, hf]
      refine ⟨i1, ?_⟩
      rintro ⟨e, he, h0⟩
      rcases List.mem_cons.1 he with rfl | he
      · exact absurd hn h0
      · exact i2 ⟨e, he, h0⟩
    · obtain ⟨h1, h2⟩ := hw (t, n) List.mem_cons_self
      have hs := alignUp_shift h1 (p := p) (q := q) (by rw [hD]; exact h2)
      simp only at hs
      have gp := alignUp_ge t.align p
      have gq := alignUp_ge t.align q
      simp only [placeAt, placeEnd, if_neg hn]
      refine ⟨(ih _ _ hw' (by omega)).1, ?_⟩
      intro _ hp hq
      have hf : ∀ (a : Nat) (l : List Nat), a ≠ 0 → findFirst (a :: l) = a := fun a l h => by simp [findFirst, h]
      rw [hf _ _ (by omega), hf _ _ (by omega)]
      omega

end Vecmem
