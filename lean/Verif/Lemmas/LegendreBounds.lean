import Verif.Props.EllipticComplex

set_option linter.unusedSimpArgs false

/-! # Comparisons between complete elliptic integrals of different moduli -/

namespace Verif
open MeasureTheory

theorem delta_continuous {k : ℝ} (hk : k ^ 2 < 1) : Continuous fun θ : ℝ => 1 / Real.sqrt (1 - k ^ 2 * Real.sin θ ^ 2) := by
  apply Continuous.div continuous_const (by fun_prop)
  intro θ
  have := delta_pos hk θ
  rw [jacobiDelta] at this
  exact this.ne'

theorem inside_pos {k : ℝ} (hk : k ^ 2 < 1) (θ : ℝ) : 0 < 1 - k ^ 2 * Real.sin θ ^ 2 := Real.sqrt_pos.mp (delta_pos hk θ)

/-- the complete integral grows with the modulus -/
theorem legendreK_mono {a b : ℝ} (h : a ^ 2 ≤ b ^ 2) (hb : b ^ 2 < 1) : legendreK a ≤ legendreK b := by
  rw [legendreK, legendreK, legendreF, legendreF]
  apply intervalIntegral.integral_mono_on (by positivity) ((delta_continuous (by linarith)).intervalIntegrable _ _)
    ((delta_continuous hb).intervalIntegrable _ _)
  intro θ _
  apply one_div_le_one_div_of_le (Real.sqrt_pos.mpr (inside_pos hb θ))
  apply Real.sqrt_le_sqrt
  have := mul_le_mul_of_nonneg_right h (sq_nonneg (Real.sin θ))
  linarith

/-- but not faster than the inverse of the complementary modulus -/
theorem legendreK_growth {a b : ℝ} (h : a ^ 2 ≤ b ^ 2) (hb : b ^ 2 < 1) :
    Real.sqrt (1 - b ^ 2) * legendreK b ≤ Real.sqrt (1 - a ^ 2) * legendreK a := by
  have ha : a ^ 2 < 1 := by linarith
  rw [legendreK, legendreK, legendreF, legendreF, ← intervalIntegral.integral_const_mul, ← intervalIntegral.integral_const_mul]
  apply intervalIntegral.integral_mono_on (by positivity) (((delta_continuous hb).const_mul _).intervalIntegrable _ _)
    (((delta_continuous ha).const_mul _).intervalIntegrable _ _)
  intro θ _
  have h1 := inside_pos hb θ
  have h2 := inside_pos ha θ
  rw [mul_one_div, mul_one_div, div_le_div_iff₀ (Real.sqrt_pos.mpr h1) (Real.sqrt_pos.mpr h2), ← Real.sqrt_mul (by linarith),
    ← Real.sqrt_mul (by linarith)]
  apply Real.sqrt_le_sqrt
  have := Real.sin_sq_le_one θ
  nlinarith

/-- it is at least logarithmic in the complementary modulus -/
theorem legendreK_log {k : ℝ} (hk : k ^ 2 < 1) : Real.exp (-legendreK k) ≤ Real.sqrt (1 - k ^ 2) := by
  obtain ⟨c, hc⟩ : ∃ c, c = Real.sqrt (1 - k ^ 2) := ⟨_, rfl⟩
  have hc0 : 0 < c := by rw [hc]; exact Real.sqrt_pos.mpr (by linarith)
  have hc2 : c ^ 2 = 1 - k ^ 2 := by rw [hc, Real.sq_sqrt (by linarith)]
  have hpi := Real.pi_pos
  rw [← hc]
  have hne : ∀ θ ∈ Set.uIcc (0 : ℝ) (Real.pi / 2), c + Real.pi / 2 - θ ≠ 0 := by
    intro θ hθ
    rw [Set.uIcc_of_le (by positivity)] at hθ
    have := hθ.2
    have : 0 < c + Real.pi / 2 - θ := by linarith
    exact this.ne'
  have hint : ∫ θ in (0 : ℝ)..(Real.pi / 2), 1 / (c + Real.pi / 2 - θ) = Real.log ((c + Real.pi / 2) / c) := by
    have hd : ∀ θ ∈ Set.uIcc (0 : ℝ) (Real.pi / 2), HasDerivAt (fun θ => -Real.log (c + Real.pi / 2 - θ)) (1 / (c + Real.pi / 2 - θ)) θ := by
      intro θ hθ
      have h1 : HasDerivAt (fun θ : ℝ => c + Real.pi / 2 - θ) (-1) θ := by simpa using (hasDerivAt_id θ).const_sub (c + Real.pi / 2)
      refine ((h1.log (hne θ hθ)).neg).congr_deriv ?_
      rw [neg_div, neg_neg]
    rw [intervalIntegral.integral_eq_sub_of_hasDerivAt hd]
    · rw [sub_zero, add_sub_cancel_right, Real.log_div (by positivity) hc0.ne']
      ring
    · apply ContinuousOn.intervalIntegrable
      exact ContinuousOn.div continuousOn_const (by fun_prop) hne
  have hle : Real.log ((c + Real.pi / 2) / c) ≤ legendreK k := by
    rw [← hint, legendreK, legendreF]
    apply intervalIntegral.integral_mono_on (by positivity)
    · apply ContinuousOn.intervalIntegrable
      exact ContinuousOn.div continuousOn_const (by fun_prop) hne
    · exact (delta_continuous hk).intervalIntegrable _ _
    · intro θ hθ
      apply one_div_le_one_div_of_le (Real.sqrt_pos.mpr (inside_pos hk θ))
      have hcos : Real.cos θ ≤ Real.pi / 2 - θ := by
        rw [← Real.sin_pi_div_two_sub]
        exact Real.sin_le (by linarith [hθ.2])
      have hcos0 : 0 ≤ Real.cos θ := Real.cos_nonneg_of_mem_Icc ⟨by linarith [hθ.1], hθ.2⟩
      apply Real.sqrt_le_iff.mpr ⟨by linarith, ?_⟩
      have e : 1 - k ^ 2 * Real.sin θ ^ 2 = Real.cos θ ^ 2 + c ^ 2 * Real.sin θ ^ 2 := by
        rw [hc2]; nlinarith [Real.sin_sq_add_cos_sq θ]
      have hs := Real.sin_sq_le_one θ
      have h1 : Real.cos θ ^ 2 + c ^ 2 * Real.sin θ ^ 2 ≤ (c + Real.cos θ) ^ 2 := by
        have : c ^ 2 * Real.sin θ ^ 2 ≤ c ^ 2 * 1 := by gcongr
        nlinarith [mul_nonneg hc0.le hcos0]
      rw [e]
      refine h1.trans ?_
      have : c + Real.cos θ ≤ c + Real.pi / 2 - θ := by linarith
      exact pow_le_pow_left₀ (by positivity) this 2
  have h2 : Real.exp (-legendreK k) ≤ c / (c + Real.pi / 2) := by
    rw [show c / (c + Real.pi / 2) = ((c + Real.pi / 2) / c)⁻¹ by rw [inv_div], ← Real.exp_log (by positivity : 0 < ((c + Real.pi / 2) / c)⁻¹),
      Real.log_inv]
    exact Real.exp_le_exp.mpr (by linarith)
  refine h2.trans ?_
  rw [div_le_iff₀ (by positivity)]
  have := Real.pi_gt_three
  nlinarith

end Verif
