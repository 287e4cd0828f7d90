import Verif.Model.Double
import Verif.Spec.Double
import Verif.Lemmas.Tactics
import Mathlib.Tactic.Linarith
import Mathlib.Tactic.Positivity
import Mathlib.Tactic.FieldSimp
import Mathlib.Tactic.Ring
import Mathlib.Tactic.NormNum

/-!
# Rounding to `double`
-/

namespace Vecmem.Double

theorem halfEven_cases (y : ℚ) : (halfEven y = ⌊y⌋ ∧ y - ⌊y⌋ ≤ 1 / 2) ∨ (halfEven y = ⌊y⌋ + 1 ∧ 1 / 2 ≤ y - ⌊y⌋) := by
  unfold halfEven
  split
  · exact .inl ⟨rfl, by linarith⟩
  · split
    · exact .inr ⟨rfl, by linarith⟩
    · split
      · exact .inl ⟨rfl, by linarith⟩
      · exact .inr ⟨rfl, by linarith⟩

theorem halfEven_err (y : ℚ) : |(halfEven y : ℚ) - y| ≤ 1 / 2 := by
  have h1 := Int.floor_le y
  have h2 := Int.lt_floor_add_one y
  rcases halfEven_cases y with ⟨h, h'⟩ | ⟨h, h'⟩
  · rw [h, abs_le]; constructor <;> linarith
  · rw [h, abs_le]; push_cast; constructor <;> linarith

theorem halfEven_nearest (y : ℚ) (i : Int) : |(halfEven y : ℚ) - y| ≤ |(i : ℚ) - y| := by
  have h1 := Int.floor_le y
  have h2 := Int.lt_floor_add_one y
  have hi : i ≤ ⌊y⌋ ∨ ⌊y⌋ + 1 ≤ i := by omega
  rcases hi with hi | hi
  · have hi' : (i : ℚ) ≤ ⌊y⌋ := by exact_mod_cast hi
    rw [abs_of_nonpos (show (i : ℚ) - y ≤ 0 by linarith)]
    rcases halfEven_cases y with ⟨h, h'⟩ | ⟨h, h'⟩
    · rw [h, abs_of_nonpos (by linarith)]; linarith
    · rw [h, abs_le]; push_cast; constructor <;> linarith
  · have hi' : (⌊y⌋ : ℚ) + 1 ≤ i := by exact_mod_cast hi
    rw [abs_of_nonneg (show (0 : ℚ) ≤ i - y by linarith)]
    rcases halfEven_cases y with ⟨h, h'⟩ | ⟨h, h'⟩
    · rw [h, abs_le]; constructor <;> linarith
    · rw [h, abs_of_nonneg (by push_cast; linarith)]; push_cast; linarith

theorem ulp_pos (x : ℚ) : 0 < ulp x := by exact zpow_pos (by norm_num) _

theorem round53_zero : round53 0 = 0 := by simp [round53, halfEven]

/-- The exponent of a positive number. -/
theorem ulp_bounds {x : ℚ} (hx : 0 < x) : 2 ^ (52 : ℕ) * ulp x ≤ x ∧ x < 2 ^ (53 : ℕ) * ulp x := by
  have e1 := Int.zpow_log_le_self (b := 2) (r := x) (by norm_num) hx
  have e2 := Int.lt_zpow_succ_log_self (b := 2) (by norm_num) x
  push_cast at e1 e2
  unfold ulp
  constructor
  · rw [← zpow_natCast, ← zpow_add₀ (by norm_num)]
    refine le_trans (le_of_eq ?_) e1
    congr 1; push_cast; ring
  · rw [← zpow_natCast, ← zpow_add₀ (by norm_num)]
    refine lt_of_lt_of_le e2 (le_of_eq ?_)
    congr 1; push_cast; ring

/-- The relative error of a rounding. -/
theorem round53_err {x : ℚ} (hx : 0 < x) : |round53 x - x| ≤ x / 2 ^ 53 := by
  have hu := ulp_pos x
  have e : round53 x - x = ((halfEven (x / ulp x) : ℚ) - x / ulp x) * ulp x := by
    unfold round53; field_simp
  rw [e, abs_mul, abs_of_pos hu]
  have h1 := halfEven_err (x / ulp x)
  have h2 := (ulp_bounds hx).1
  calc _ ≤ 1 / 2 * ulp x := by nlinarith
    _ ≤ _ := by rw [le_div_iff₀ (by positivity)]; nlinarith

theorem round53_isDouble {x : ℚ} (hx : 0 ≤ x) : IsDouble (round53 x) := by
  rcases hx.eq_or_lt with rfl | hx
  · rw [round53_zero]; exact ⟨0, 0, by norm_num, by simp⟩
  have hu := ulp_pos x
  obtain ⟨b1, b2⟩ := ulp_bounds hx
  have h1 : (2 : ℚ) ^ 52 ≤ x / ulp x := by rw [le_div_iff₀ hu]; exact b1
  have h2 : x / ulp x < (2 : ℚ) ^ 53 := by rw [div_lt_iff₀ hu]; exact b2
  have f1 : (2 : Int) ^ 52 ≤ ⌊x / ulp x⌋ := by rw [Int.le_floor]; exact_mod_cast h1
  have f2 : ⌊x / ulp x⌋ < (2 : Int) ^ 53 := by rw [Int.floor_lt]; exact_mod_cast h2
  have f3 : (2 : Int) ^ 52 ≤ halfEven (x / ulp x) ∧ halfEven (x / ulp x) ≤ 2 ^ 53 := by
    rcases halfEven_cases (x / ulp x) with ⟨h, -⟩ | ⟨h, -⟩ <;> rw [h] <;> constructor <;> omega
  rcases f3.2.lt_or_eq with h | h
  · refine ⟨halfEven (x / ulp x), Int.log 2 x - 52, ?_, rfl⟩
    rw [abs_of_nonneg (by omega)]; exact h
  · refine ⟨2 ^ 52, Int.log 2 x - 51, by norm_num, ?_⟩
    unfold round53
    rw [h]
    unfold ulp
    push_cast
    rw [show Int.log 2 x - 51 = (Int.log 2 x - 52) + 1 by ring, zpow_add₀ (by norm_num)]
    ring

/-- **The model of rounding gives the nearest `double`.** -/
theorem round53_nearest {x : ℚ} (hx : 0 ≤ x) : IsNearest x (round53 x) := by
  refine ⟨round53_isDouble hx, ?_⟩
  rcases hx.eq_or_lt with rfl | hx
  · intro y _; rw [round53_zero]; simp
  rintro y ⟨m, e, hm, rfl⟩
  have hu := ulp_pos x
  obtain ⟨b1, b2⟩ := ulp_bounds hx
  -- a multiple of the distance
  have grid : ∀ i : Int, |round53 x - x| ≤ |(i : ℚ) * ulp x - x| := by
    intro i
    have e1 : round53 x - x = ((halfEven (x / ulp x) : ℚ) - x / ulp x) * ulp x := by
      unfold round53; field_simp
    have e2 : (i : ℚ) * ulp x - x = ((i : ℚ) - x / ulp x) * ulp x := by field_simp
    rw [e1, e2, abs_mul, abs_mul]
    exact mul_le_mul_of_nonneg_right (halfEven_nearest _ i) (abs_nonneg _)
  rcases lt_or_ge ((m : ℚ) * 2 ^ e) (2 ^ 52 * ulp x) with hlt | hge
  · refine le_trans (grid (2 ^ 52)) ?_
    push_cast
    rw [abs_of_nonpos (by linarith), abs_of_nonpos (by linarith)]
    linarith
  · -- the exponent is large enough
    have hm' : (m : ℚ) < 2 ^ 53 := by
      have : m < 2 ^ 53 := lt_of_le_of_lt (le_abs_self m) hm
      exact_mod_cast this
    have he : Int.log 2 x - 52 ≤ e := by
      by_contra hcon
      have hle : e + 1 ≤ Int.log 2 x - 52 := by omega
      have : (2 : ℚ) ^ (e + 1) ≤ ulp x := zpow_le_zpow_right₀ (by norm_num) hle
      rw [zpow_add₀ (by norm_num)] at this
      have hp : (0 : ℚ) < 2 ^ e := zpow_pos (by norm_num) _
      have : (m : ℚ) * 2 ^ e < 2 ^ 53 * 2 ^ e := by nlinarith
      norm_num at *
      linarith
    obtain ⟨k, hk⟩ := Int.eq_ofNat_of_zero_le (show 0 ≤ e - (Int.log 2 x - 52) by omega)
    have := grid (m * 2 ^ k)
    refine le_trans this (le_of_eq ?_)
    congr 2
    push_cast
    unfold ulp
    rw [show e = (k : Int) + (Int.log 2 x - 52) by omega, zpow_add₀ (by norm_num), zpow_natCast]
    ring

theorem round53_of_double {x : ℚ} (hx : 0 ≤ x) (h : IsDouble x) : round53 x = x := by
  have := (round53_nearest hx).2 x h
  rw [sub_self, abs_zero] at this
  have := abs_eq_zero.1 (le_antisymm this (abs_nonneg _))
  linarith

theorem double_le_round53 {x y : ℚ} (hx : 0 ≤ x) (hy : IsDouble y) (h : y ≤ x) : y ≤ round53 x := by
  have := (round53_nearest hx).2 y hy
  rw [abs_of_nonpos (show y - x ≤ 0 by linarith)] at this
  have := (abs_le.1 this).1
  linarith

theorem round53_le_double {x y : ℚ} (hx : 0 ≤ x) (hy : IsDouble y) (h : x ≤ y) : round53 x ≤ y := by
  have := (round53_nearest hx).2 y hy
  rw [abs_of_nonneg (show 0 ≤ y - x by linarith)] at this
  have := (abs_le.1 this).2
  linarith

theorem isDouble_nat {n : Nat} (h : n < 2 ^ 53) : IsDouble n :=
  ⟨n, 0, by rw [abs_of_nonneg (by omega)]; exact_mod_cast h, by simp⟩

theorem ofSize_eq {n : Nat} (h : n < 2 ^ 53) : ofSize n = n :=
  round53_of_double (by positivity) (isDouble_nat h)

/-- Below 2^52 the rounding of a quotient of integers does not reach the middle between two integers. -/
theorem stdRound_div {t n : Nat} (ht : t < 2 ^ 52) (hn : 0 < n) :
    stdRound (round53 ((t : ℚ) / n)) = ((2 * t + n) / (2 * n) : Nat) := by
  have hn' : (0 : ℚ) < n := by exact_mod_cast hn
  have hx : (0 : ℚ) ≤ (t : ℚ) / n := by positivity
  generalize hk : (2 * t + n) / (2 * n) = k
  have k1 : k * (2 * n) ≤ 2 * t + n := by rw [← hk]; exact Nat.div_mul_le_self _ _
  have k2 : 2 * t + n + 1 ≤ (k + 1) * (2 * n) := by
    have := Nat.lt_div_mul_add (a := 2 * t + n) (b := 2 * n) (by omega)
    rw [hk] at this
    rw [Nat.add_mul]; omega
  have q1 : (k : ℚ) * (2 * n) ≤ 2 * t + n := by exact_mod_cast k1
  have q2 : (2 * t + n + 1 : ℚ) ≤ (k + 1) * (2 * n) := by exact_mod_cast k2
  unfold stdRound
  rw [Int.floor_eq_iff]
  constructor
  · -- from below
    rcases Nat.eq_zero_or_pos k with rfl | hk0
    · have := double_le_round53 hx (⟨0, 0, by norm_num, by simp⟩ : IsDouble 0) hx
      push_cast; linarith
    · have hkb : k ≤ 2 ^ 52 := by
        have h1 : k * (2 * n) ≤ 2 * t + n := k1
        by_contra hcon
        have h2 : 2 ^ 52 + 1 ≤ k := by omega
        have h3 : (2 ^ 52 + 1) * (2 * n) ≤ k * (2 * n) := Nat.mul_le_mul_right _ h2
        have : 2 * t < 2 ^ 53 := by omega
        nlinarith
      have hd : IsDouble ((k : ℚ) - 1 / 2) := by
        refine ⟨2 * k - 1, -1, ?_, ?_⟩
        · rw [abs_of_nonneg (by omega)]; omega
        · push_cast; rw [zpow_neg, zpow_one]; ring
      have := double_le_round53 hx hd (by rw [le_div_iff₀ hn']; linarith)
      push_cast; linarith
  · rcases Nat.eq_zero_or_pos t with rfl | ht0
    · rw [show ((0 : Nat) : ℚ) / n = 0 by simp, round53_zero]
      have : (0 : ℚ) ≤ k := by positivity
      push_cast; linarith
    · have htq : (0 : ℚ) < t := by exact_mod_cast ht0
      have hx0 : (0 : ℚ) < (t : ℚ) / n := by positivity
      have he := (abs_le.1 (round53_err hx0)).2
      have ht' : (t : ℚ) < 2 ^ 52 := by exact_mod_cast ht
      have g : (t : ℚ) / n / 2 ^ 53 < 1 / (2 * n) := by
        rw [div_div, div_lt_div_iff₀ (by positivity) (by positivity)]
        nlinarith
      have g2 : (t : ℚ) / n + 1 / (2 * n) ≤ k + 1 / 2 := by
        rw [div_add_div _ _ (by positivity) (by positivity), div_le_iff₀ (by positivity)]
        nlinarith
      push_cast; linarith

/-- The value of `average_allocation`: always defined below the largest `double` that is a `std::size_t`, and within the rounding errors
of three operations. -/
theorem stdRound_quotient {t n : Nat} (ht : t ≤ 2 ^ 64 - 2 ^ 11) (hn : 0 < n) (hnt : n ≤ t) :
    ∃ a : Nat, stdRound (div (ofSize t) (ofSize n)) = a ∧ a < 2 ^ 64 ∧ |(a : ℚ) - t / n| ≤ 1 / 2 + t / n / 2 ^ 51 := by
  have ht0 : 0 < t := by omega
  have hn' : (0 : ℚ) < n := by exact_mod_cast hn
  have ht' : (0 : ℚ) < t := by exact_mod_cast ht0
  have et := abs_le.1 (round53_err ht')
  have en := abs_le.1 (round53_err hn')
  have n1 : (1 : ℚ) ≤ ofSize n := double_le_round53 hn'.le (by exact_mod_cast isDouble_nat (n := 1) (by norm_num)) (by exact_mod_cast hn)
  have t1 : ofSize t ≤ 2 ^ 64 - 2 ^ 11 := by
    refine round53_le_double ht'.le ⟨2 ^ 53 - 1, 11, by norm_num, by norm_num⟩ ?_
    have : ((t : Nat) : ℚ) ≤ ((2 ^ 64 - 2 ^ 11 : Nat) : ℚ) := by exact_mod_cast ht
    refine le_trans this (le_of_eq ?_); norm_num
  have t0 : (0 : ℚ) < ofSize t := by unfold ofSize; linarith
  have q0 : 0 < ofSize t / ofSize n := by positivity
  have eq := abs_le.1 (round53_err q0)
  have q1 : round53 (ofSize t / ofSize n) ≤ 2 ^ 64 - 2 ^ 11 := by
    refine round53_le_double q0.le ⟨2 ^ 53 - 1, 11, by norm_num, by norm_num⟩ ?_
    rw [div_le_iff₀ (by linarith)]
    norm_num at t1 ⊢
    nlinarith
  have r0 : 0 < round53 (ofSize t / ofSize n) := by linarith
  have f1 := Int.floor_le (round53 (ofSize t / ofSize n) + 1 / 2)
  have f2 := Int.lt_floor_add_one (round53 (ofSize t / ofSize n) + 1 / 2)
  have f0 : 0 ≤ stdRound (div (ofSize t) (ofSize n)) := by
    unfold stdRound div; rw [Int.floor_nonneg]; linarith
  obtain ⟨a, ha⟩ := Int.eq_ofNat_of_zero_le f0
  refine ⟨a, ha, ?_, ?_⟩
  all_goals
    have ha' : (⌊round53 (ofSize t / ofSize n) + 1 / 2⌋ : ℚ) = a := by
      have : stdRound (div (ofSize t) (ofSize n)) = ((a : Nat) : Int) := ha
      unfold stdRound div at this
      rw [this]; norm_cast
    rw [ha'] at f1 f2
  · have h2 : (2 : ℚ) ^ 64 - 2 ^ 11 + 1 / 2 < 2 ^ 64 := by norm_num
    have : (a : ℚ) < 2 ^ 64 := by linarith
    exact_mod_cast this
  · -- the errors
    have hmain : |round53 (ofSize t / ofSize n) - t / n| ≤ t / n / 2 ^ 51 := by
      have hT : ofSize t = round53 t := rfl
      have hN : ofSize n = round53 n := rfl
      rw [← hT] at et
      rw [← hN] at en
      generalize ofSize t = T at *
      generalize ofSize n = N at *
      have hN0 : 0 < N := by linarith
      have u1 : T / N ≤ (t / n) * ((2 ^ 53 + 1) / (2 ^ 53 - 1)) := by
        rw [div_le_iff₀ hN0]
        have : (n : ℚ) * (2 ^ 53 - 1) ≤ N * 2 ^ 53 := by nlinarith [en.1]
        have h2 : T * 2 ^ 53 ≤ t * (2 ^ 53 + 1) := by nlinarith [et.2]
        have h3 : (t : ℚ) / n * ((2 ^ 53 + 1) / (2 ^ 53 - 1)) * N = (t * (2 ^ 53 + 1)) * N / (n * (2 ^ 53 - 1)) := by
          field_simp
        rw [h3, le_div_iff₀ (by positivity)]
        calc T * (n * (2 ^ 53 - 1)) ≤ T * (N * 2 ^ 53) := by nlinarith
          _ = T * 2 ^ 53 * N := by ring
          _ ≤ _ := by nlinarith
      have u2 : (t / n) * ((2 ^ 53 - 1) / (2 ^ 53 + 1)) ≤ T / N := by
        rw [le_div_iff₀ hN0]
        have : N * 2 ^ 53 ≤ (n : ℚ) * (2 ^ 53 + 1) := by nlinarith [en.2]
        have h2 : t * (2 ^ 53 - 1) ≤ T * 2 ^ 53 := by nlinarith [et.1]
        have h3 : (t : ℚ) / n * ((2 ^ 53 - 1) / (2 ^ 53 + 1)) * N = (t * (2 ^ 53 - 1)) * N / (n * (2 ^ 53 + 1)) := by
          field_simp
        rw [h3, div_le_iff₀ (by positivity)]
        calc (t : ℚ) * (2 ^ 53 - 1) * N ≤ T * 2 ^ 53 * N := by nlinarith
          _ = T * (N * 2 ^ 53) := by ring
          _ ≤ _ := by nlinarith
      have hx : (0 : ℚ) < t / n := by positivity
      generalize (t : ℚ) / n = x at *
      generalize T / N = q at *
      generalize round53 q = r at *
      have v1 : r ≤ q * (1 + 1 / 2 ^ 53) := by have := eq.2; linarith
      have v2 : q * (1 - 1 / 2 ^ 53) ≤ r := by have := eq.1; linarith
      rw [abs_le]
      norm_num at *
      constructor <;> nlinarith
    have := abs_le.1 hmain
    rw [abs_le]
    constructor <;> linarith

end Vecmem.Double
