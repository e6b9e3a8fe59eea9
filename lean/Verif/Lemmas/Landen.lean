import Verif.Spec.Elliptic
import Mathlib.Analysis.SpecialFunctions.Trigonometric.InverseDeriv
import Mathlib.Analysis.SpecialFunctions.Sqrt
import Mathlib.MeasureTheory.Integral.IntervalIntegral.FundThmCalculus
import Mathlib.Analysis.Calculus.MeanValue
import Mathlib.Analysis.Calculus.Deriv.Inv

set_option linter.unusedSimpArgs false

/-! # The descending Landen transformation -/

namespace Verif
open MeasureTheory Set

/-- the integral of the arithmetic-geometric mean -/
noncomputable def agmI (a b φ : ℝ) : ℝ := ∫ θ in (0 : ℝ)..φ, 1 / Real.sqrt (a ^ 2 * Real.cos θ ^ 2 + b ^ 2 * Real.sin θ ^ 2)

theorem agm_pos {a b : ℝ} (ha : 0 < a) (hb : 0 < b) (θ : ℝ) : 0 < a ^ 2 * Real.cos θ ^ 2 + b ^ 2 * Real.sin θ ^ 2 := by
  have h := Real.sin_sq_add_cos_sq θ
  have hm : 0 < min (a ^ 2) (b ^ 2) := lt_min (by positivity) (by positivity)
  have h1 := min_le_left (a ^ 2) (b ^ 2)
  have h2 := min_le_right (a ^ 2) (b ^ 2)
  nlinarith [sq_nonneg (Real.sin θ), sq_nonneg (Real.cos θ)]

theorem agm_continuous {a b : ℝ} (ha : 0 < a) (hb : 0 < b) :
    Continuous fun θ : ℝ => 1 / Real.sqrt (a ^ 2 * Real.cos θ ^ 2 + b ^ 2 * Real.sin θ ^ 2) := by
  apply Continuous.div continuous_const (by fun_prop)
  intro θ
  exact (Real.sqrt_pos.mpr (agm_pos ha hb θ)).ne'

theorem agmI_deriv {a b : ℝ} (ha : 0 < a) (hb : 0 < b) (φ : ℝ) :
    HasDerivAt (agmI a b) (1 / Real.sqrt (a ^ 2 * Real.cos φ ^ 2 + b ^ 2 * Real.sin φ ^ 2)) φ :=
  (agm_continuous ha hb).integral_hasStrictDerivAt 0 φ |>.hasDerivAt

/-- the map of the backward iteration -/
noncomputable def landen (f φ : ℝ) : ℝ := 1 / 2 * (φ + Real.arcsin (f * Real.sin φ))

theorem landen_abs {f : ℝ} (h0 : 0 ≤ f) (h1 : f < 1) (φ : ℝ) : |f * Real.sin φ| < 1 := by
  rw [abs_mul, abs_of_nonneg h0]
  have := Real.abs_sin_le_one φ
  nlinarith [abs_nonneg (Real.sin φ)]

theorem landen_deriv {f : ℝ} (h0 : 0 ≤ f) (h1 : f < 1) (φ : ℝ) :
    HasDerivAt (landen f) (1 / 2 * (1 + f * Real.cos φ / Real.sqrt (1 - (f * Real.sin φ) ^ 2))) φ := by
  have habs := abs_lt.mp (landen_abs h0 h1 φ)
  have hs : HasDerivAt (fun φ => f * Real.sin φ) (f * Real.cos φ) φ := (Real.hasDerivAt_sin φ).const_mul f
  have ha := (Real.hasDerivAt_arcsin (x := f * Real.sin φ) (by linarith [habs.1]) (by linarith [habs.2])).comp φ hs
  have := ((hasDerivAt_id φ).add ha).const_mul (1 / 2 : ℝ)
  refine this.congr_deriv ?_
  ring

theorem landen_key {a b : ℝ} (hb : 0 < b) (hab : b ≤ a) (φ : ℝ) :
    let f := (a - b) / (a + b)
    Real.sqrt (a ^ 2 * Real.cos (landen f φ) ^ 2 + b ^ 2 * Real.sin (landen f φ) ^ 2) =
      (a + b) / 2 * (Real.sqrt (1 - (f * Real.sin φ) ^ 2) + f * Real.cos φ) ∧
    Real.sqrt (((a + b) / 2) ^ 2 * Real.cos φ ^ 2 + (Real.sqrt (a * b)) ^ 2 * Real.sin φ ^ 2) =
      (a + b) / 2 * Real.sqrt (1 - (f * Real.sin φ) ^ 2) ∧
    0 < Real.sqrt (1 - (f * Real.sin φ) ^ 2) ∧ 0 < Real.sqrt (1 - (f * Real.sin φ) ^ 2) + f * Real.cos φ := by
  intro f
  have hsum : 0 < a + b := by linarith
  have h0 : 0 ≤ f := div_nonneg (by linarith) hsum.le
  have h1 : f < 1 := by rw [div_lt_one hsum]; linarith
  have hfab : f * (a + b) = a - b := div_mul_cancel₀ _ hsum.ne'
  have habs := landen_abs h0 h1 φ
  have hlt : (f * Real.sin φ) ^ 2 < 1 := by rw [sq_lt_one_iff_abs_lt_one]; exact habs
  have hS0 : 0 < Real.sqrt (1 - (f * Real.sin φ) ^ 2) := Real.sqrt_pos.mpr (by linarith)
  have hS2 : Real.sqrt (1 - (f * Real.sin φ) ^ 2) ^ 2 = 1 - (f * Real.sin φ) ^ 2 := Real.sq_sqrt (by linarith)
  have htrig := Real.sin_sq_add_cos_sq φ
  have hpos : 0 < Real.sqrt (1 - (f * Real.sin φ) ^ 2) + f * Real.cos φ := by
    have : (f * Real.cos φ) ^ 2 < Real.sqrt (1 - (f * Real.sin φ) ^ 2) ^ 2 := by
      rw [hS2]
      have : f ^ 2 < 1 := by nlinarith
      nlinarith
    have := abs_lt_of_sq_lt_sq this hS0.le
    linarith [(abs_lt.mp this).1]
  refine ⟨?_, ?_, hS0, hpos⟩
  · rw [Real.sqrt_eq_iff_mul_self_eq_of_pos (by positivity)]
    have hcos2 : Real.cos (2 * landen f φ) = Real.cos φ * Real.sqrt (1 - (f * Real.sin φ) ^ 2) - Real.sin φ * (f * Real.sin φ) := by
      have : 2 * landen f φ = φ + Real.arcsin (f * Real.sin φ) := by rw [landen]; ring
      rw [this, Real.cos_add, Real.cos_arcsin, Real.sin_arcsin (abs_lt.mp habs).1.le (abs_lt.mp habs).2.le]
    have hc := Real.cos_sq (landen f φ)
    have hs : Real.sin (landen f φ) ^ 2 = 1 - Real.cos (landen f φ) ^ 2 := by linarith [Real.sin_sq_add_cos_sq (landen f φ)]
    rw [hs, hc, hcos2]
    generalize Real.sqrt (1 - (f * Real.sin φ) ^ 2) = S at *
    generalize Real.sin φ = s at *
    generalize Real.cos φ = c at *
    have ea : a = (a + b) / 2 * (1 + f) := by linarith
    have eb : b = (a + b) / 2 * (1 - f) := by linarith
    generalize (a + b) / 2 = A at *
    rw [ea, eb]
    linear_combination A ^ 2 * hS2 + A ^ 2 * f ^ 2 * htrig
  · rw [Real.sqrt_eq_iff_mul_self_eq_of_pos (by positivity), Real.sq_sqrt (by nlinarith)]
    generalize Real.sqrt (1 - (f * Real.sin φ) ^ 2) = S at *
    generalize Real.sin φ = s at *
    generalize Real.cos φ = c at *
    have ea : a = (a + b) / 2 * (1 + f) := by linarith
    have eb : b = (a + b) / 2 * (1 - f) := by linarith
    have eab : a * b = ((a + b) / 2) ^ 2 * (1 - f ^ 2) := by
      have : a * b = ((a + b) / 2 * (1 + f)) * ((a + b) / 2 * (1 - f)) := by rw [← ea, ← eb]
      linarith [this]
    rw [eab]
    generalize (a + b) / 2 = A at *
    linear_combination A ^ 2 * hS2 - A ^ 2 * htrig

/-- **Landen**: one step of the backward iteration doubles the integral of the mean -/
theorem landen_integral {a b : ℝ} (hb : 0 < b) (hab : b ≤ a) (φ : ℝ) :
    agmI a b (landen ((a - b) / (a + b)) φ) = 1 / 2 * agmI ((a + b) / 2) (Real.sqrt (a * b)) φ := by
  have ha : 0 < a := by linarith
  have hsum : 0 < a + b := by linarith
  have h0 : 0 ≤ (a - b) / (a + b) := div_nonneg (by linarith) hsum.le
  have h1 : (a - b) / (a + b) < 1 := by rw [div_lt_one hsum]; linarith
  have hsq : 0 < Real.sqrt (a * b) := Real.sqrt_pos.mpr (by positivity)
  have hd : ∀ φ, HasDerivAt (fun φ => agmI a b (landen ((a - b) / (a + b)) φ) - 1 / 2 * agmI ((a + b) / 2) (Real.sqrt (a * b)) φ) 0 φ := by
    intro φ
    have hD := ((agmI_deriv ha hb (landen ((a - b) / (a + b)) φ)).comp φ (landen_deriv h0 h1 φ)).sub
      ((agmI_deriv (half_pos hsum) hsq φ).const_mul (1 / 2))
    refine hD.congr_deriv ?_
    obtain ⟨e1, e2, p1, p2⟩ := landen_key hb hab φ
    rw [e1, e2]
    have hA : 0 < (a + b) / 2 := by linarith
    generalize (a + b) / 2 = A at *
    generalize Real.sqrt (1 - ((a - b) / (a + b) * Real.sin φ) ^ 2) = S at *
    generalize (a - b) / (a + b) * Real.cos φ = C at *
    field_simp
    ring
  have hconst := is_const_of_deriv_eq_zero (fun φ => (hd φ).differentiableAt) (fun φ => (hd φ).deriv) φ 0
  have hz : landen ((a - b) / (a + b)) 0 = 0 := by simp [landen]
  simp only [hz, agmI, intervalIntegral.integral_same] at hconst
  simp only [agmI]
  linarith

theorem agmI_zero (a b : ℝ) : agmI a b 0 = 0 := by simp [agmI]

theorem agmI_neg (a b φ : ℝ) : agmI a b (-φ) = -agmI a b φ := by
  have := intervalIntegral.integral_comp_neg (a := 0) (b := φ) (fun θ : ℝ => 1 / Real.sqrt (a ^ 2 * Real.cos θ ^ 2 + b ^ 2 * Real.sin θ ^ 2))
  simp only [Real.cos_neg, Real.sin_neg, neg_sq, neg_zero] at this
  rw [agmI, agmI, this, intervalIntegral.integral_symm]

/-- the mean of the two axes bounds the integral -/
theorem agmI_bounds {a b : ℝ} (hb : 0 < b) (hab : b ≤ a) {φ : ℝ} (hφ : 0 ≤ φ) : φ / a ≤ agmI a b φ ∧ agmI a b φ ≤ φ / b := by
  have ha : 0 < a := by linarith
  have hc := (agm_continuous ha hb).intervalIntegrable (μ := volume) 0 φ
  have hbd : ∀ θ, b ≤ Real.sqrt (a ^ 2 * Real.cos θ ^ 2 + b ^ 2 * Real.sin θ ^ 2) ∧
      Real.sqrt (a ^ 2 * Real.cos θ ^ 2 + b ^ 2 * Real.sin θ ^ 2) ≤ a := by
    intro θ
    have h := Real.sin_sq_add_cos_sq θ
    have hle : b ^ 2 ≤ a ^ 2 := by nlinarith
    constructor
    · apply Real.le_sqrt_of_sq_le
      nlinarith [sq_nonneg (Real.cos θ)]
    · apply Real.sqrt_le_iff.mpr ⟨ha.le, ?_⟩
      nlinarith [sq_nonneg (Real.sin θ)]
  constructor
  · have := intervalIntegral.integral_mono_on (μ := volume) hφ (by simp : IntervalIntegrable (fun _ => 1 / a) volume 0 φ) hc
      (fun θ _ => one_div_le_one_div_of_le (by linarith [(hbd θ).1]) (hbd θ).2)
    rw [intervalIntegral.integral_const] at this
    simp only [agmI]
    calc φ / a = (φ - 0) • (1 / a) := by rw [smul_eq_mul]; ring
      _ ≤ _ := this
  · have := intervalIntegral.integral_mono_on (μ := volume) hφ hc (by simp : IntervalIntegrable (fun _ => 1 / b) volume 0 φ)
      (fun θ _ => one_div_le_one_div_of_le hb (hbd θ).1)
    rw [intervalIntegral.integral_const] at this
    simp only [agmI]
    calc _ ≤ (φ - 0) • (1 / b) := this
      _ = φ / b := by rw [smul_eq_mul]; ring

theorem legendreF_eq_agmI {k : ℝ} (hk : k ^ 2 ≤ 1) (φ : ℝ) : legendreF φ k = agmI 1 (Real.sqrt (1 - k ^ 2)) φ := by
  rw [legendreF, agmI]
  congr 1
  funext θ
  rw [Real.sq_sqrt (by linarith)]
  congr 2
  have := Real.sin_sq_add_cos_sq θ
  nlinarith

end Verif
