import Verif.Lemmas.Carlson
import Mathlib.Analysis.SpecialFunctions.Trigonometric.Inverse
import Mathlib.Analysis.SpecialFunctions.Trigonometric.InverseDeriv

/-! # Legendre's integrals in Carlson's form -/

set_option linter.unusedSimpArgs false

namespace Verif
open MeasureTheory Set

theorem sin_ratio_image (φ : ℝ) (h0 : 0 < φ) (h1 : φ ≤ Real.pi / 2) :
    (fun θ : ℝ => Real.sin φ ^ 2 / Real.sin θ ^ 2 - 1) '' Ioo 0 φ = Ioi 0 := by
  have hs : 0 < Real.sin φ := Real.sin_pos_of_pos_of_lt_pi h0 (by linarith [Real.pi_pos])
  ext u
  simp only [mem_image, mem_Ioo, mem_Ioi]
  constructor
  · rintro ⟨θ, ⟨t0, t1⟩, rfl⟩
    have hst : 0 < Real.sin θ := Real.sin_pos_of_pos_of_lt_pi t0 (by linarith [Real.pi_pos])
    have hlt : Real.sin θ < Real.sin φ := Real.sin_lt_sin_of_lt_of_le_pi_div_two (by linarith) h1 t1
    have : 1 < Real.sin φ ^ 2 / Real.sin θ ^ 2 := by
      rw [lt_div_iff₀ (by positivity)]
      nlinarith
    linarith
  · intro hu
    have hr : 1 < Real.sqrt (1 + u) := Real.lt_sqrt_of_sq_lt (by linarith)
    have hq0 : 0 < Real.sin φ / Real.sqrt (1 + u) := by positivity
    have hq1 : Real.sin φ / Real.sqrt (1 + u) < Real.sin φ := div_lt_self hs hr
    have hq2 : Real.sin φ / Real.sqrt (1 + u) ≤ 1 := by linarith [Real.sin_le_one φ]
    have hsa : Real.sin (Real.arcsin (Real.sin φ / Real.sqrt (1 + u))) = Real.sin φ / Real.sqrt (1 + u) :=
      Real.sin_arcsin (by linarith) hq2
    refine ⟨Real.arcsin (Real.sin φ / Real.sqrt (1 + u)), ⟨Real.arcsin_pos.2 hq0, ?_⟩, ?_⟩
    · rw [Real.arcsin_lt_iff_lt_sin' ⟨by linarith, h1⟩]
      exact hq1
    · rw [hsa, div_pow, Real.sq_sqrt (by linarith)]
      field_simp
      ring

/-- `sin φ · R_F(cos² φ, 1 - k² sin² φ, 1) = F(φ, k)` (DLMF 19.25.5) -/
theorem legendreF_eq (φ k : ℝ) (h0 : 0 < φ) (h1 : φ ≤ Real.pi / 2) (hk : k ^ 2 * Real.sin φ ^ 2 ≤ 1) :
    Real.sin φ * symmetricRF (Real.cos φ ^ 2) (1 - k ^ 2 * Real.sin φ ^ 2) 1 = legendreF φ k := by
  have hs : 0 < Real.sin φ := Real.sin_pos_of_pos_of_lt_pi h0 (by linarith [Real.pi_pos])
  unfold symmetricRF legendreF
  rw [integral_substitution (fun θ : ℝ => Real.sin φ ^ 2 / Real.sin θ ^ 2 - 1)
    (fun θ => -(2 * Real.sin φ ^ 2 * Real.cos θ / Real.sin θ ^ 3)) _ (Ioo 0 φ) measurableSet_Ioo ?_ ?_ (sin_ratio_image φ h0 h1)]
  · rw [intervalIntegral.integral_of_le h0.le, integral_Ioc_eq_integral_Ioo, ← integral_const_mul, ← integral_const_mul]
    apply setIntegral_congr_fun measurableSet_Ioo
    rintro θ ⟨t0, t1⟩
    simp only []
    have hst : 0 < Real.sin θ := Real.sin_pos_of_pos_of_lt_pi t0 (by linarith [Real.pi_pos])
    have hct : 0 < Real.cos θ := Real.cos_pos_of_mem_Ioo ⟨by linarith, by linarith⟩
    have hlt : Real.sin θ < Real.sin φ := Real.sin_lt_sin_of_lt_of_le_pi_div_two (by linarith) h1 t1
    have hkp : 0 < 1 - k ^ 2 * Real.sin θ ^ 2 := by
      by_cases hk0 : k = 0
      · subst hk0; norm_num
      · have : 0 < k ^ 2 := by positivity
        have : k ^ 2 * Real.sin θ ^ 2 < k ^ 2 * Real.sin φ ^ 2 := by gcongr
        linarith
    have hc2 : Real.cos φ ^ 2 = 1 - Real.sin φ ^ 2 := by linarith [Real.sin_sq_add_cos_sq φ]
    have hct2 : Real.cos θ ^ 2 = 1 - Real.sin θ ^ 2 := by linarith [Real.sin_sq_add_cos_sq θ]
    have e : (Real.sin φ ^ 2 / Real.sin θ ^ 2 - 1 + Real.cos φ ^ 2) * (Real.sin φ ^ 2 / Real.sin θ ^ 2 - 1 + (1 - k ^ 2 * Real.sin φ ^ 2)) *
        (Real.sin φ ^ 2 / Real.sin θ ^ 2 - 1 + 1) =
        (Real.sin φ ^ 3 * Real.cos θ / Real.sin θ ^ 3) * (Real.sin φ ^ 3 * Real.cos θ / Real.sin θ ^ 3) * (1 - k ^ 2 * Real.sin θ ^ 2) := by
      rw [hc2]
      have e1 : (Real.sin φ ^ 3 * Real.cos θ / Real.sin θ ^ 3) * (Real.sin φ ^ 3 * Real.cos θ / Real.sin θ ^ 3) =
          Real.sin φ ^ 6 * Real.cos θ ^ 2 / Real.sin θ ^ 6 := by
        field_simp
      rw [e1, hct2]
      field_simp
      ring
    rw [e, Real.sqrt_mul (by positivity), Real.sqrt_mul_self (by positivity), abs_neg, abs_of_pos (by positivity)]
    have := Real.sqrt_pos.2 hkp
    field_simp
  · rintro θ ⟨t0, t1⟩
    have hst : 0 < Real.sin θ := Real.sin_pos_of_pos_of_lt_pi t0 (by linarith [Real.pi_pos])
    have h := ((((Real.hasDerivAt_sin θ).pow 2).inv (pow_pos hst 2).ne').const_mul (Real.sin φ ^ 2)).sub_const 1
    have hf : (fun θ : ℝ => Real.sin φ ^ 2 / Real.sin θ ^ 2 - 1) = fun θ => Real.sin φ ^ 2 * (Real.sin θ ^ 2)⁻¹ - 1 := by
      ext θ
      rw [div_eq_mul_inv]
    rw [hf]
    refine h.congr_deriv ?_
    simp
    field_simp
  · rintro a ⟨ha, ha'⟩ b ⟨hb, hb'⟩ hab
    have hsa : 0 < Real.sin a := Real.sin_pos_of_pos_of_lt_pi ha (by linarith [Real.pi_pos])
    have hsb : 0 < Real.sin b := Real.sin_pos_of_pos_of_lt_pi hb (by linarith [Real.pi_pos])
    simp only [sub_left_inj] at hab
    have h2 : Real.sin a ^ 2 = Real.sin b ^ 2 := by
      field_simp at hab
      exact hab.symm
    have h3 : Real.sin a = Real.sin b := (pow_left_inj₀ hsa.le hsb.le (by norm_num)).1 h2
    exact Real.injOn_sin ⟨by linarith, by linarith⟩ ⟨by linarith, by linarith⟩ h3

end Verif
