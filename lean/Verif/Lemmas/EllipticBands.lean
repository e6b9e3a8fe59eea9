import Verif.Lemmas.EllipticExact

set_option linter.unusedSimpArgs false
set_option linter.unusedSectionVars false

/-! # The ripples of the exact elliptic filter -/

namespace Verif
open Polynomial Finset Complex

/-- the square of the gain of the exact filter at the square `x` of the frequency; `y` is the reciprocal of the squared ripple factor -/
noncomputable def exactGain (k : ℝ) (n : ℕ) (y x : ℝ) : ℝ :=
  y * (gridA k n * (rD k n).eval x) / ((rN k n).eval x + y * (gridA k n * (rD k n).eval x))

section
variable {k : ℝ} (hk0 : 0 < k) (hk : k ^ 2 < 1) {n : ℕ} (hn : 1 ≤ n)
include hk0 hk hn

theorem rD_nonneg (x : ℝ) : 0 ≤ (rD k n).eval x := by
  rw [rD_eval hk0 hk hn]
  exact prod_nonneg fun j _ => sq_nonneg _

theorem rD_pos {x : ℝ} (hx0 : 0 ≤ x) (hx : k ^ 2 * x ≤ 1) : 0 < (rD k n).eval x := by
  rw [rD_eval hk0 hk hn]
  refine prod_pos fun j hj => ?_
  obtain ⟨h0, h1⟩ := poleAngle_mem hk0 hk hn (mem_range.mp hj)
  have hc := Real.cos_pos_of_mem_Ioo (x := poleAngle k n j) ⟨by linarith [Real.pi_pos], h1⟩
  have hs := Real.sin_sq_add_cos_sq (poleAngle k n j)
  have hs1 : Real.sin (poleAngle k n j) ^ 2 < 1 := by nlinarith
  have : (k * Real.sin (poleAngle k n j)) ^ 2 * x < 1 := by
    rw [mul_pow, mul_assoc, mul_comm (Real.sin _ ^ 2), ← mul_assoc]
    rcases hx0.eq_or_lt with rfl | hx0
    · simp
    · have : 0 < k ^ 2 * x := by positivity
      nlinarith
  have : 0 < 1 - (k * Real.sin (poleAngle k n j)) ^ 2 * x := by linarith
  positivity

theorem rN_nonneg {x : ℝ} (hx0 : 0 ≤ x) : 0 ≤ (rN k n).eval x := by
  rcases Nat.mod_two_eq_zero_or_one n with h | h
  · rw [(rN_even h).1, nO_split hk hn, h, pow_zero, mul_one, eval_pow]
    exact sq_nonneg _
  · rw [(rN_odd h).1, nE_split hk hn, show (n - 1) % 2 = 0 by omega, pow_zero, mul_one, eval_mul, eval_pow, eval_X]
    exact mul_nonneg hx0 (sq_nonneg _)

/-- the sign of the distance to the edge of the pass band -/
theorem pass_sign {x : ℝ} (hx0 : 0 ≤ x) : ∃ q : ℝ, 0 ≤ q ∧ gridA k n * (rD k n).eval x - (rN k n).eval x = (1 - x) * q := by
  have hA := gridA_pos hk hn
  rcases Nat.mod_two_eq_zero_or_one n with h | h
  · have hO := congrArg (Polynomial.eval x) (nO_eq hk hn)
    have hD := congrArg (Polynomial.eval x) (dO_eq hk hn hk0.ne')
    rw [Even.neg_one_pow (by rw [Nat.even_iff]; omega), one_mul] at hO hD
    rw [eval_add, eval_mul, eval_C] at hO hD
    have hs := congrArg (Polynomial.eval x) (nE_split hk hn)
    rw [show (n - 1) % 2 = 1 by omega, pow_one, eval_mul, eval_mul, eval_pow, eval_X, eval_sub, eval_X, eval_C] at hs
    rw [(rN_even h).1, (rN_even h).2]
    refine ⟨(1 - jmodulus k n ^ 2) * (x * (eval x (∏ j ∈ range ((n - 1) / 2), (X - C (grid k n (2 * j + 2))))) ^ 2), ?_, ?_⟩
    · have := jmodulus_sq_lt hk0 hk hn
      exact mul_nonneg (by linarith) (mul_nonneg hx0 (sq_nonneg _))
    · rw [hO, hD, hs, jmodulus]
      ring
  · have hO := congrArg (Polynomial.eval x) (nO_eq hk hn)
    rw [Odd.neg_one_pow (by rw [Nat.odd_iff]; omega), eval_add, eval_mul, eval_C] at hO
    have hs := congrArg (Polynomial.eval x) (nO_split hk hn)
    rw [h, pow_one, eval_mul, eval_pow, eval_sub, eval_X, eval_C] at hs
    rw [(rN_odd h).1, (rN_odd h).2]
    refine ⟨(eval x (∏ j ∈ range (n / 2), (X - C (grid k n (2 * j + 1))))) ^ 2, sq_nonneg _, ?_⟩
    linear_combination hO - hs

/-- the sign of the distance to the edge of the stop band -/
theorem stop_sign (x : ℝ) : ∃ q : ℝ, 0 ≤ q ∧ gridA k n * (rD k n).eval x - jmodulus k n ^ 2 * (rN k n).eval x = (1 - k ^ 2 * x) * q := by
  have hA := gridA_pos hk hn
  rcases Nat.mod_two_eq_zero_or_one n with h | h
  · have hO := congrArg (Polynomial.eval x) (nO_eq hk hn)
    have hD := congrArg (Polynomial.eval x) (dO_eq hk hn hk0.ne')
    rw [Even.neg_one_pow (by rw [Nat.even_iff]; omega), one_mul] at hO hD
    rw [eval_add, eval_mul, eval_C] at hO hD
    have hs := congrArg (Polynomial.eval x) (dE_split hk hn)
    rw [show (n - 1) % 2 = 1 by omega, pow_one, eval_mul, eval_pow, eval_sub, eval_mul, eval_X, eval_C, eval_one] at hs
    rw [(rN_even h).1, (rN_even h).2]
    refine ⟨gridA k n * ((1 - jmodulus k n ^ 2) * (eval x (∏ j ∈ range ((n - 1) / 2), (1 - C (k ^ 2 * grid k n (2 * j + 2)) * X))) ^ 2), ?_, ?_⟩
    · have := jmodulus_sq_lt hk0 hk hn
      exact mul_nonneg hA.le (mul_nonneg (by linarith) (sq_nonneg _))
    · rw [hO, hD, hs, jmodulus]
      ring
  · have hD := congrArg (Polynomial.eval x) (dO_eq hk hn hk0.ne')
    rw [Odd.neg_one_pow (by rw [Nat.odd_iff]; omega), eval_add, eval_mul, eval_C] at hD
    have hs := congrArg (Polynomial.eval x) (dO_split hk hn)
    rw [h, pow_one, eval_mul, eval_pow, eval_sub, eval_mul, eval_X, eval_C, eval_one] at hs
    rw [(rN_odd h).1, (rN_odd h).2, jmodulus]
    refine ⟨gridA k n * (eval x (∏ j ∈ range (n / 2), (1 - C (k ^ 2 * grid k n (2 * j + 1)) * X))) ^ 2, mul_nonneg hA.le (sq_nonneg _), ?_⟩
    linear_combination -gridA k n * hD + gridA k n * hs

theorem gain_pass {y x : ℝ} (hy : 0 < y) (hx0 : 0 ≤ x) (hx1 : x ≤ 1) : y / (1 + y) ≤ exactGain k n y x ∧ exactGain k n y x ≤ 1 := by
  obtain ⟨q, hq, h⟩ := pass_sign hk0 hk hn hx0
  have hA := gridA_pos hk hn
  have hN := rN_nonneg hk0 hk hn hx0
  have hD : 0 < gridA k n * (rD k n).eval x := mul_pos hA (rD_pos hk0 hk hn hx0 (small_of_lt_one hk0 hk hn hx1).le)
  have hq' : 0 ≤ (1 - x) * q := mul_nonneg (by linarith) hq
  rw [← h] at hq'
  rw [exactGain]
  generalize gridA k n * (rD k n).eval x = d at *
  generalize (rN k n).eval x = N at *
  have hyd : 0 < y * d := by positivity
  constructor
  · rw [div_le_div_iff₀ (by linarith) (by linarith)]
    have : y * N ≤ y * d := by gcongr; linarith
    linarith
  · rw [div_le_one (by linarith)]
    linarith

theorem gain_stop {y x : ℝ} (hy : 0 < y) (hx : 1 ≤ k ^ 2 * x) :
    0 ≤ exactGain k n y x ∧ exactGain k n y x ≤ y * jmodulus k n ^ 2 / (1 + y * jmodulus k n ^ 2) := by
  obtain ⟨q, hq, h⟩ := stop_sign hk0 hk hn x
  have hA := gridA_pos hk hn
  have hx0 : 0 ≤ x := by
    by_contra hc
    push Not at hc
    nlinarith [sq_nonneg k]
  have hN := rN_nonneg hk0 hk hn hx0
  have hD : 0 ≤ gridA k n * (rD k n).eval x := mul_nonneg hA.le (rD_nonneg hk0 hk hn x)
  have hq' : (1 - k ^ 2 * x) * q ≤ 0 := mul_nonpos_of_nonpos_of_nonneg (by linarith) hq
  rw [← h] at hq'
  rw [exactGain]
  generalize gridA k n * (rD k n).eval x = d at *
  generalize (rN k n).eval x = N at *
  obtain ⟨m, hm⟩ : ∃ m, m = jmodulus k n ^ 2 := ⟨_, rfl⟩
  have hm0 : 0 ≤ m := by rw [hm]; positivity
  rw [← hm] at hq' ⊢
  have hyd : 0 ≤ y * d := by positivity
  refine ⟨div_nonneg hyd (by linarith), ?_⟩
  refine div_le_of_le_mul₀ (by linarith) (div_nonneg (by positivity) (by positivity)) ?_
  rw [div_mul_eq_mul_div, le_div_iff₀ (by positivity)]
  have : y * d ≤ y * (m * N) := by gcongr; linarith
  nlinarith

theorem gain_transition {y x : ℝ} (hy : 0 < y) (hx0 : 1 ≤ x) (hx1 : k ^ 2 * x ≤ 1) :
    y * jmodulus k n ^ 2 / (1 + y * jmodulus k n ^ 2) ≤ exactGain k n y x ∧ exactGain k n y x ≤ y / (1 + y) := by
  obtain ⟨q, hq, h⟩ := stop_sign hk0 hk hn x
  obtain ⟨q', hq', h'⟩ := pass_sign hk0 hk hn (x := x) (by linarith)
  have hA := gridA_pos hk hn
  have hN := rN_nonneg hk0 hk hn (x := x) (by linarith)
  have hD : 0 < gridA k n * (rD k n).eval x := mul_pos hA (rD_pos hk0 hk hn (by linarith) hx1)
  have h1 : 0 ≤ (1 - k ^ 2 * x) * q := mul_nonneg (by linarith) hq
  have h2 : (1 - x) * q' ≤ 0 := mul_nonpos_of_nonpos_of_nonneg (by linarith) hq'
  rw [← h] at h1
  rw [← h'] at h2
  rw [exactGain]
  generalize gridA k n * (rD k n).eval x = d at *
  generalize (rN k n).eval x = N at *
  obtain ⟨m, hm⟩ : ∃ m, m = jmodulus k n ^ 2 := ⟨_, rfl⟩
  have hm0 : 0 ≤ m := by rw [hm]; positivity
  rw [← hm] at h1 ⊢
  have hyd : 0 < y * d := by positivity
  have hym : 0 ≤ y * m := by positivity
  constructor
  · rw [div_le_div_iff₀ (by linarith) (by linarith)]
    have : y * (m * N) ≤ y * d := by gcongr; linarith
    nlinarith
  · rw [div_le_div_iff₀ (by linarith) (by linarith)]
    have : y * d ≤ y * N := by gcongr; linarith
    nlinarith

/-- where the gain is one -/
theorem gain_top {y : ℝ} (hy : 0 < y) {i : ℕ} (hi : i ≤ n) (h : i % 2 = (n + 1) % 2) : exactGain k n y (grid k n i) = 1 := by
  have hA := gridA_pos hk hn
  have hD := rD_pos hk0 hk hn (grid_nonneg hk hn i) (small_of_lt_one hk0 hk hn (grid_le_one hk hn i)).le
  have hi' : i < n := by
    rcases hi.eq_or_lt with rfl | h'
    · omega
    · exact h'
  have hN : (rN k n).eval (grid k n i) = 0 := by
    rw [numP_eval]
    refine prod_eq_zero (i := i / 2) (mem_range.mpr (by omega)) ?_
    rw [show 2 * (i / 2) + (n + 1) % 2 = i by omega, sub_self]
  rw [exactGain, hN, zero_add, div_self (by positivity)]

/-- where the gain touches the lower edge of the pass band -/
theorem gain_bottom {y : ℝ} (hy : 0 < y) {i : ℕ} (hi : i ≤ n) (h : i % 2 = n % 2) : exactGain k n y (grid k n i) = y / (1 + y) := by
  have hA := gridA_pos hk hn
  have hD := rD_pos hk0 hk hn (grid_nonneg hk hn i) (small_of_lt_one hk0 hk hn (grid_le_one hk hn i)).le
  obtain ⟨q, hq, hs⟩ := pass_sign hk0 hk hn (grid_nonneg hk hn i)
  have hN : (rN k n).eval (grid k n i) = gridA k n * (rD k n).eval (grid k n i) := by
    rcases Nat.mod_two_eq_zero_or_one n with hp | hp
    · have hO := congrArg (Polynomial.eval (grid k n i)) (nO_eq hk hn)
      have hD := congrArg (Polynomial.eval (grid k n i)) (dO_eq hk hn hk0.ne')
      rw [eval_add, eval_mul, eval_C] at hO hD
      rw [Even.neg_one_pow (by rw [Nat.even_iff]; omega), one_mul] at hO hD
      have h0 : (nE k n).eval (grid k n i) = 0 := by
        rcases hi.eq_or_lt with rfl | h'
        · rw [nE_split hk hn, show (i - 1) % 2 = 1 by omega, grid_n hk hn]
          simp
        · rw [numP_eval]
          refine prod_eq_zero (i := i / 2) (mem_range.mpr (by omega)) ?_
          rw [show 2 * (i / 2) = i by omega, sub_self]
      rw [(rN_even hp).1, (rN_even hp).2, hO, hD, h0]
      ring
    · have hO := congrArg (Polynomial.eval (grid k n i)) (nO_eq hk hn)
      rw [eval_add, eval_mul, eval_C, Odd.neg_one_pow (by rw [Nat.odd_iff]; omega)] at hO
      have h0 : (nO k n).eval (grid k n i) = 0 := by
        rw [numP_eval]
        refine prod_eq_zero (i := i / 2) (mem_range.mpr (by omega)) ?_
        rw [show 2 * (i / 2) + 1 = i by omega, sub_self]
      rw [(rN_odd hp).1, (rN_odd hp).2]
      linear_combination -hO + h0
  rw [exactGain, hN]
  have : 0 < gridA k n * (rD k n).eval (grid k n i) := by positivity
  field_simp

/-- where the gain touches the upper edge of the stop band -/
theorem gain_stop_top {y : ℝ} (hy : 0 < y) {i : ℕ} (hi0 : 0 < i) (hi : i ≤ n) (h : i % 2 = n % 2) :
    exactGain k n y (1 / (k ^ 2 * grid k n i)) = y * jmodulus k n ^ 2 / (1 + y * jmodulus k n ^ 2) := by
  have hA := gridA_pos hk hn
  have hg := grid_pos hk hn hi0 (by omega)
  have hx : k ^ 2 * grid k n i * (1 / (k ^ 2 * grid k n i)) = 1 := by field_simp
  obtain ⟨x, hxe⟩ : ∃ x, x = 1 / (k ^ 2 * grid k n i) := ⟨_, rfl⟩
  have hxp : 0 < x := by rw [hxe]; positivity
  rw [← hxe] at hx ⊢
  have key : gridA k n * (rD k n).eval x = jmodulus k n ^ 2 * (rN k n).eval x := by
    rcases Nat.mod_two_eq_zero_or_one n with hp | hp
    · have hO := congrArg (Polynomial.eval x) (nO_eq hk hn)
      have hD := congrArg (Polynomial.eval x) (dO_eq hk hn hk0.ne')
      rw [eval_add, eval_mul, eval_C] at hO hD
      rw [Even.neg_one_pow (by rw [Nat.even_iff]; omega), one_mul] at hO hD
      have h0 : (dE k n).eval x = 0 := by
        rcases hi.eq_or_lt with rfl | h'
        · rw [grid_n hk hn, mul_one] at hx
          rw [dE_split hk hn, show (i - 1) % 2 = 1 by omega]
          simp [hx]
        · rw [denP_eval]
          refine prod_eq_zero (i := i / 2) (mem_range.mpr (by omega)) ?_
          rw [show 2 * (i / 2) = i by omega, hx, sub_self]
      rw [(rN_even hp).1, (rN_even hp).2, hO, hD, h0, jmodulus]
      ring
    · have hD := congrArg (Polynomial.eval x) (dO_eq hk hn hk0.ne')
      rw [eval_add, eval_mul, eval_C, Odd.neg_one_pow (by rw [Nat.odd_iff]; omega)] at hD
      have h0 : (dO k n).eval x = 0 := by
        rw [denP_eval]
        refine prod_eq_zero (i := i / 2) (mem_range.mpr (by omega)) ?_
        rw [show 2 * (i / 2) + 1 = i by omega, hx, sub_self]
      rw [(rN_odd hp).1, (rN_odd hp).2, jmodulus]
      linear_combination -gridA k n * hD + gridA k n * h0
  have hN : 0 < (rN k n).eval x := by
    refine lt_of_le_of_ne (rN_nonneg hk0 hk hn hxp.le) (Ne.symm ?_)
    rw [numP_eval]
    refine prod_ne_zero_iff.mpr fun j _ => ?_
    have hx1 : 1 < x := by
      rw [hxe, lt_div_iff₀ (by positivity)]
      have := grid_le_one hk hn i
      nlinarith
    have := grid_le_one hk hn (2 * j + (n + 1) % 2)
    exact (by linarith : 0 < x - grid k n (2 * j + (n + 1) % 2)).ne'
  rw [exactGain, key]
  have := jmodulus_pos hk0 hk hn
  have h1 : 0 < 1 + y * jmodulus k n ^ 2 := by positivity
  field_simp

/-- where the gain vanishes -/
theorem gain_zero {y : ℝ} {i : ℕ} (hi0 : 0 < i) (hi : i ≤ n) (h : i % 2 = (n + 1) % 2) :
    exactGain k n y (1 / (k ^ 2 * grid k n i)) = 0 := by
  have hg := grid_pos hk hn hi0 (by omega)
  have hx : k ^ 2 * grid k n i * (1 / (k ^ 2 * grid k n i)) = 1 := by field_simp
  have hi' : i < n := by
    rcases hi.eq_or_lt with rfl | h'
    · omega
    · exact h'
  have hD : (rD k n).eval (1 / (k ^ 2 * grid k n i)) = 0 := by
    rw [denP_eval]
    refine prod_eq_zero (i := i / 2) (mem_range.mpr (by omega)) ?_
    rw [show 2 * (i / 2) + (n + 1) % 2 = i by omega, hx, sub_self]
  rw [exactGain, hD]
  simp

/-- the gain is the square of the response -/
theorem gain_shape {ψ : ℝ} (hψ0 : 0 < ψ) (hψ1 : ψ < Real.pi / 2) (x : ℝ) :
    (if n % 2 = 1 then 1 else poleLevel k n ψ / (1 + poleLevel k n ψ)) * ellipticShape k n (poleAngle k n) ψ x =
      exactGain k n (poleLevel k n ψ) x := by
  have hA := gridA_pos hk hn
  have hy := poleLevel_pos hk0 hk hn hψ0 hψ1
  rw [shape_exact hk0 hk hn hψ0 hψ1, exactGain, polePoly_zero hk0 hk hn, polePoly, eval_add, eval_mul, eval_C]
  generalize poleLevel k n ψ = y at *
  have h1 : 1 + y ≠ 0 := by linarith
  rw [mul_assoc]
  generalize (rN k n).eval x + y * (gridA k n * eval x (rD k n)) = q
  split_ifs with h
  · ring
  · rw [mul_div_assoc']
    congr 1
    field_simp

end
end Verif
