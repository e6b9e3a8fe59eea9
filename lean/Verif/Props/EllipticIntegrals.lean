import Verif.Props.Elliptic
import Verif.Lemmas.Legendre

/-! # Property C70: complete elliptic integral and inverse elliptic functions -/

set_option linter.unusedSimpArgs false

namespace Verif
open Set

section
variable (eps : ℝ) (he0 : 0 < eps) (he1 : eps ≤ 1 / 2000)
include he0 he1

/-- **C70**: the complete elliptic integral of every modulus between minus one and one, to a quarter of the machine epsilon. -/
theorem C70_K (k : ℝ) (hk : k ^ 2 < 1) :
    ∃ (N : ℕ) (v : ℝ), (∀ fuel, N ≤ fuel → ellipticK fuel eps k = .ok (v : WithTop ℝ)) ∧
      |v - legendreK k| ≤ eps / 4 * legendreK k := by
  have h := C69_accuracy eps he0 he1 0 (1 - k * k) 1 le_rfl (by nlinarith) zero_le_one ⟨by nlinarith, by nlinarith, by norm_num⟩
  have hF := legendreF_eq (Real.pi / 2) k (by linarith [Real.pi_pos]) le_rfl (by rw [Real.sin_pi_div_two]; linarith)
  simp only [Real.sin_pi_div_two, Real.cos_pi_div_two, one_mul, one_pow, mul_one] at hF
  rw [legendreK, ← hF]
  have e : (0 : ℝ) ^ 2 = 0 := by norm_num
  rw [e, show k ^ 2 = k * k by ring]
  exact h

omit he0 he1 in
/-- **C70**: of the moduli one and minus one it is infinite -/
theorem C70_K_one (fuel : ℕ) (k : ℝ) (hk : k ^ 2 = 1) : ellipticK fuel eps k = .ok ⊤ := by
  have e : 1 - k * k = 0 := by linarith
  unfold ellipticK
  rw [e]
  exact (C69_infinite fuel eps 0 0 1 le_rfl le_rfl zero_le_one (by simp [AtMostOneZero])).1

/-- **C70**: the inverse of sn on [0, 1]: the result is the elliptic integral up to the angle whose sine is `x` -/
theorem C70_arcsn (x k : ℝ) (hx0 : 0 ≤ x) (hx1 : x ≤ 1) (hk : k ^ 2 * x ^ 2 ≤ 1) (hne : x ^ 2 < 1 ∨ k ^ 2 * x ^ 2 < 1) :
    ∃ (N : ℕ) (v : ℝ), (∀ fuel, N ≤ fuel → ellipticArcSN fuel eps x k = .ok (v : WithTop ℝ)) ∧
      |v - legendreF (Real.arcsin x) k| ≤ eps / 4 * legendreF (Real.arcsin x) k := by
  have hx2 : x ^ 2 ≤ 1 := by nlinarith
  obtain ⟨N, v, hv, hacc⟩ := C69_accuracy eps he0 he1 (1 - x * x) (1 - k * k * x * x) 1 (by nlinarith) (by nlinarith) zero_le_one
    ⟨by rcases hne with h | h <;> nlinarith, by nlinarith, by nlinarith⟩
  refine ⟨N, x * v, fun fuel hf => ?_, ?_⟩
  · unfold ellipticArcSN
    rw [fsqrt_ok (mul_self_nonneg x), Out.ok_bind, hv fuel hf, Out.ok_bind, Real.sqrt_mul_self hx0]
    rfl
  · have hF : x * symmetricRF (1 - x * x) (1 - k * k * x * x) 1 = legendreF (Real.arcsin x) k := by
      rcases hx0.eq_or_lt with h0 | h0
      · rw [← h0]
        simp [legendreF]
      · have hs : Real.sin (Real.arcsin x) = x := Real.sin_arcsin (by linarith) hx1
        have := legendreF_eq (Real.arcsin x) k (Real.arcsin_pos.2 h0) (Real.arcsin_le_pi_div_two x) (by rw [hs]; exact hk)
        rw [← this, hs, Real.cos_sq', hs]
        congr 2 <;> ring
    rw [← hF, ← mul_sub, abs_mul, abs_of_nonneg hx0, mul_left_comm]
    gcongr

/-- **C70**: the inverse of cn on [0, 1] -/
theorem C70_arccn (x k : ℝ) (hx0 : 0 ≤ x) (hx1 : x ≤ 1) (hk : k ^ 2 * (1 - x ^ 2) ≤ 1) (hne : 0 < x ∨ k ^ 2 * (1 - x ^ 2) < 1) :
    ∃ (N : ℕ) (v : ℝ), (∀ fuel, N ≤ fuel → ellipticArcCN fuel eps x k = .ok (v : WithTop ℝ)) ∧
      |v - legendreF (Real.arccos x) k| ≤ eps / 4 * legendreF (Real.arccos x) k := by
  have hx2 : x ^ 2 ≤ 1 := by nlinarith
  obtain ⟨N, v, hv, hacc⟩ := C69_accuracy eps he0 he1 (x * x) 1 (1 - k * k + k * k * x * x) (by nlinarith) zero_le_one (by nlinarith)
    ⟨by nlinarith, by nlinarith, by rcases hne with h | h <;> nlinarith⟩
  have hr : 0 ≤ 1 - x * x := by nlinarith
  refine ⟨N, Real.sqrt (1 - x * x) * v, fun fuel hf => ?_, ?_⟩
  · unfold ellipticArcCN
    rw [fsqrt_ok hr, Out.ok_bind, hv fuel hf, Out.ok_bind]
    rfl
  · have hF : Real.sqrt (1 - x * x) * symmetricRF (x * x) 1 (1 - k * k + k * k * x * x) = legendreF (Real.arccos x) k := by
      rcases hx1.eq_or_lt with h0 | h0
      · rw [h0]
        simp [legendreF]
      · have hs : Real.sin (Real.arccos x) = Real.sqrt (1 - x * x) := by rw [Real.sin_arccos, sq]
        have hs2 : Real.sin (Real.arccos x) ^ 2 = 1 - x * x := by rw [hs, Real.sq_sqrt hr]
        have := legendreF_eq (Real.arccos x) k (Real.arccos_pos.2 h0) (Real.arccos_le_pi_div_two.2 hx0) (by rw [hs2]; nlinarith)
        rw [← this, hs2, hs, Real.cos_arccos (by linarith) hx1, symmetricRF_swap23]
        congr 2 <;> ring
    rw [← hF, ← mul_sub, abs_mul, abs_of_nonneg (Real.sqrt_nonneg _), mul_left_comm]
    gcongr

/-- **C70**: the inverse of dn on [√(1 - k²), 1]: `dn = x` where `k sn = √(1 - x²)` -/
theorem C70_arcdn (x k : ℝ) (hk0 : 0 < k) (hx0 : 0 ≤ x) (hx1 : x ≤ 1) (hk : 1 - k ^ 2 ≤ x ^ 2) (hne : 0 < x ∨ 1 - k ^ 2 < x ^ 2) :
    ∃ (N : ℕ) (v : ℝ), (∀ fuel, N ≤ fuel → ellipticArcDN fuel eps x k = .ok (v : WithTop ℝ)) ∧
      |v - legendreF (Real.arcsin (Real.sqrt (1 - x ^ 2) / k)) k| ≤ eps / 4 * legendreF (Real.arcsin (Real.sqrt (1 - x ^ 2) / k)) k := by
  have hkk : 0 < k * k := by positivity
  obtain ⟨N, v, hv, hacc⟩ := C69_accuracy eps he0 he1 (k * k * x * x) (k * k) (k * k + x * x - 1) (by positivity) hkk.le (by nlinarith)
    ⟨by positivity, by nlinarith, by
      rcases hne with h | h
      · have : 0 < k * k * x * x := by positivity
        nlinarith
      · have : 0 ≤ k * k * x * x := by positivity
        nlinarith⟩
  have hr : 0 ≤ 1 - x * x := by nlinarith
  refine ⟨N, Real.sqrt (1 - x * x) * v, fun fuel hf => ?_, ?_⟩
  · unfold ellipticArcDN
    rw [fsqrt_ok hr, Out.ok_bind, hv fuel hf, Out.ok_bind]
    rfl
  · have hF : Real.sqrt (1 - x * x) * symmetricRF (k * k * x * x) (k * k) (k * k + x * x - 1) =
        legendreF (Real.arcsin (Real.sqrt (1 - x ^ 2) / k)) k := by
      rw [show x ^ 2 = x * x by ring]
      rcases hx1.eq_or_lt with h0 | h0
      · rw [h0]
        simp [legendreF]
      · have hp : 0 < 1 - x * x := by nlinarith
        have hs0 : 0 < Real.sqrt (1 - x * x) / k := by have := Real.sqrt_pos.2 hp; positivity
        have hs1 : Real.sqrt (1 - x * x) / k ≤ 1 := by
          rw [div_le_one hk0]
          apply Real.sqrt_le_iff.2
          constructor
          · exact hk0.le
          · nlinarith
        have hs : Real.sin (Real.arcsin (Real.sqrt (1 - x * x) / k)) = Real.sqrt (1 - x * x) / k := Real.sin_arcsin (by linarith) hs1
        have hs2 : Real.sin (Real.arcsin (Real.sqrt (1 - x * x) / k)) ^ 2 = (1 - x * x) / k ^ 2 := by rw [hs, div_pow, Real.sq_sqrt hr]
        have hk2 : k ^ 2 * ((1 - x * x) / k ^ 2) = 1 - x * x := by field_simp
        have := legendreF_eq _ k (Real.arcsin_pos.2 hs0) (Real.arcsin_le_pi_div_two _) (by rw [hs2, hk2]; nlinarith [mul_self_nonneg x])
        rw [← this, hs2, hs, Real.cos_sq', hs2, hk2]
        have h4 := symmetricRF_scale (k * k) (x * x) 1 (1 - (1 - x * x) / k ^ 2) hkk
        rw [Real.sqrt_mul_self hk0.le] at h4
        have e1 : k * k * x * x = k * k * (x * x) := by ring
        have e2 : k * k + x * x - 1 = k * k * (1 - (1 - x * x) / k ^ 2) := by
          field_simp
          ring
        have e3 : k * k = k * k * 1 := by ring
        have e4 : symmetricRF (k * k * x * x) (k * k) (k * k + x * x - 1) = symmetricRF (x * x) 1 (1 - (1 - x * x) / k ^ 2) / k := by
          rw [← h4, e1, e2, mul_one]
        have e5 : symmetricRF (1 - (1 - x * x) / k ^ 2) (x * x) 1 = symmetricRF (x * x) 1 (1 - (1 - x * x) / k ^ 2) := by
          rw [symmetricRF_swap12, symmetricRF_swap23]
        rw [e4, show 1 - (1 - x * x) = x * x by ring, e5]
        ring
    rw [← hF, ← mul_sub, abs_mul, abs_of_nonneg (Real.sqrt_nonneg _), mul_left_comm]
    gcongr

end

/-- moduli and arguments that meet the hypotheses of the three inverses -/
example : ((3 / 5 : ℝ) ^ 2 * (1 / 2) ^ 2 ≤ 1 ∧ ((1 / 2 : ℝ) ^ 2 < 1)) ∧ ((3 / 5 : ℝ) ^ 2 * (1 - (1 / 2) ^ 2) ≤ 1) ∧
    (1 - (3 / 5 : ℝ) ^ 2 ≤ (9 / 10) ^ 2) := by norm_num

/-- **C70**, what the library gets wrong: the inverse of sn ignores the sign of its argument (sn is odd), and so does the inverse
of cn, though cn takes every value of [-1, 1] once on [0, 2K]. -/
theorem C70_sign_wrong (fuel : ℕ) (eps x k : ℝ) :
    ellipticArcSN fuel eps (-x) k = ellipticArcSN fuel eps x k ∧ ellipticArcCN fuel eps (-x) k = ellipticArcCN fuel eps x k := by
  unfold ellipticArcSN ellipticArcCN
  have e1 : -x * -x = x * x := by ring
  have e2 : k * k * -x * -x = k * k * x * x := by ring
  rw [e1, e2]
  exact ⟨rfl, rfl⟩

/-- what the right values would be -/
theorem C70_sign_right (x k : ℝ) (hk : k ^ 2 < 1) :
    legendreF (Real.arcsin (-x)) k = -legendreF (Real.arcsin x) k ∧
    legendreF (Real.arccos (-x)) k = 2 * legendreK k - legendreF (Real.arccos x) k := by
  have hcont : Continuous fun θ : ℝ => 1 / Real.sqrt (1 - k ^ 2 * Real.sin θ ^ 2) := by
    apply Continuous.div continuous_const (by fun_prop)
    intro θ
    have : k ^ 2 * Real.sin θ ^ 2 < 1 := by
      have := Real.sin_sq_le_one θ
      nlinarith [sq_nonneg k, sq_nonneg (Real.sin θ)]
    exact (Real.sqrt_pos.2 (by linarith)).ne'
  have hint : ∀ a b : ℝ, IntervalIntegrable (fun θ : ℝ => 1 / Real.sqrt (1 - k ^ 2 * Real.sin θ ^ 2)) MeasureTheory.volume a b :=
    fun a b => hcont.intervalIntegrable a b
  constructor
  · rw [Real.arcsin_neg]
    unfold legendreF
    rw [← neg_zero, ← intervalIntegral.integral_comp_neg, neg_zero, intervalIntegral.integral_symm]
    simp
  · rw [Real.arccos_neg]
    unfold legendreK legendreF
    have hrefl : ∀ a b : ℝ, ∫ θ in (Real.pi - a)..(Real.pi - b), 1 / Real.sqrt (1 - k ^ 2 * Real.sin θ ^ 2) =
        ∫ θ in b..a, 1 / Real.sqrt (1 - k ^ 2 * Real.sin θ ^ 2) := by
      intro a b
      rw [← intervalIntegral.integral_comp_sub_left]
      simp [Real.sin_pi_sub]
    have h1 := intervalIntegral.integral_add_adjacent_intervals (hint 0 (Real.pi / 2)) (hint (Real.pi / 2) (Real.pi - Real.arccos x))
    have h2 := hrefl (Real.pi / 2) (Real.arccos x)
    rw [show Real.pi - Real.pi / 2 = Real.pi / 2 by ring] at h2
    have h3 := intervalIntegral.integral_add_adjacent_intervals (hint 0 (Real.arccos x)) (hint (Real.arccos x) (Real.pi / 2))
    rw [← h1, h2]
    linarith

end Verif
