import Verif.Props.EllipticIntegrals

set_option linter.unusedSimpArgs false

/-! # C70: the inverse elliptic functions of complex arguments -/

namespace Verif

theorem csqrt_neg {a : ℝ} (h : 0 ≤ a) : csqrt (((-a : ℝ)) : ℂ) = Complex.I * ((Real.sqrt a : ℝ) : ℂ) := by
  rw [csqrt, Complex.ofReal_cpow_of_nonpos (by linarith), ← Complex.ofReal_neg, neg_neg]
  have h1 := csqrt_ofReal h
  rw [csqrt] at h1
  rw [h1]
  have : Complex.exp (Real.pi * Complex.I * (1 / 2)) = Complex.I := by
    rw [show (Real.pi : ℂ) * Complex.I * (1 / 2) = Real.pi / 2 * Complex.I by ring]
    exact Complex.exp_pi_div_two_mul_I
  rw [this]
  ring

section
variable (eps : ℝ) (he0 : 0 < eps) (he1 : eps ≤ 1 / 2000)
include he0 he1

/-- **C70**: on [0, 1] the complex inverse functions return the same numbers as the real ones -/
theorem C70_complex_real (x k : ℝ) (hx0 : 0 ≤ x) (hx1 : x ≤ 1) :
    (k ^ 2 * x ^ 2 ≤ 1 → (x ^ 2 < 1 ∨ k ^ 2 * x ^ 2 < 1) →
      ∃ (N : ℕ) (v : ℝ), ∀ fuel, N ≤ fuel → ellipticArcSN fuel eps x k = .ok (v : WithTop ℝ) ∧ ellipticArcSNC fuel eps x k = .ok (v : ℂ)) ∧
    (k ^ 2 * (1 - x ^ 2) ≤ 1 → (0 < x ∨ k ^ 2 * (1 - x ^ 2) < 1) →
      ∃ (N : ℕ) (v : ℝ), ∀ fuel, N ≤ fuel → ellipticArcCN fuel eps x k = .ok (v : WithTop ℝ) ∧ ellipticArcCNC fuel eps x k = .ok (v : ℂ)) ∧
    (0 < k → 1 - k ^ 2 ≤ x ^ 2 → (0 < x ∨ 1 - k ^ 2 < x ^ 2) →
      ∃ (N : ℕ) (v : ℝ), ∀ fuel, N ≤ fuel → ellipticArcDN fuel eps x k = .ok (v : WithTop ℝ) ∧ ellipticArcDNC fuel eps x k = .ok (v : ℂ)) := by
  have hx2 : x ^ 2 ≤ 1 := by nlinarith
  have hr : 0 ≤ 1 - x * x := by nlinarith
  refine ⟨fun hk hne => ?_, fun hk hne => ?_, fun hk0 hk hne => ?_⟩
  · obtain ⟨N, v, hv, -⟩ := C69_complex eps he0 he1 (1 - x * x) (1 - k * k * x * x) 1 (by nlinarith) (by nlinarith) zero_le_one
      ⟨by rcases hne with h | h <;> nlinarith, by nlinarith, by nlinarith⟩
    refine ⟨N, x * v, fun fuel hf => ⟨?_, ?_⟩⟩
    · unfold ellipticArcSN
      rw [fsqrt_ok (mul_self_nonneg x), Out.ok_bind, (hv fuel hf).1, Out.ok_bind, Real.sqrt_mul_self hx0]
      rfl
    · unfold ellipticArcSNC
      have h := (hv fuel hf).2
      push_cast at h ⊢
      rw [h, Out.ok_bind, ← Complex.ofReal_mul, csqrt_ofReal (mul_self_nonneg x), Real.sqrt_mul_self hx0]
      rfl
  · obtain ⟨N, v, hv, -⟩ := C69_complex eps he0 he1 (x * x) 1 (1 - k * k + k * k * x * x) (by nlinarith) zero_le_one (by nlinarith)
      ⟨by nlinarith, by nlinarith, by rcases hne with h | h <;> nlinarith⟩
    refine ⟨N, Real.sqrt (1 - x * x) * v, fun fuel hf => ⟨?_, ?_⟩⟩
    · unfold ellipticArcCN
      rw [fsqrt_ok hr, Out.ok_bind, (hv fuel hf).1, Out.ok_bind]
      rfl
    · unfold ellipticArcCNC
      have h := (hv fuel hf).2
      have e : (1 : ℂ) - (x : ℂ) * x = ((1 - x * x : ℝ) : ℂ) := by push_cast; ring
      rw [e, csqrt_ofReal hr]
      push_cast at h ⊢
      rw [h, Out.ok_bind]
      rfl
  · have hkk : 0 < k * k := by positivity
    obtain ⟨N, v, hv, -⟩ := C69_complex eps he0 he1 (k * k * x * x) (k * k) (k * k + x * x - 1) (by positivity) hkk.le (by nlinarith)
      ⟨by positivity, by nlinarith, by
        rcases hne with h | h
        · have : 0 < k * k * x * x := by positivity
          nlinarith
        · have : 0 ≤ k * k * x * x := by positivity
          nlinarith⟩
    refine ⟨N, Real.sqrt (1 - x * x) * v, fun fuel hf => ⟨?_, ?_⟩⟩
    · unfold ellipticArcDN
      rw [fsqrt_ok hr, Out.ok_bind, (hv fuel hf).1, Out.ok_bind]
      rfl
    · unfold ellipticArcDNC
      have h := (hv fuel hf).2
      have e : (1 : ℂ) - (x : ℂ) * x = ((1 - x * x : ℝ) : ℂ) := by push_cast; ring
      rw [e, csqrt_ofReal hr]
      push_cast at h ⊢
      rw [h, Out.ok_bind]
      rfl

/-- **C70**: the inverse of sn on the imaginary axis is Jacobi's imaginary transformation: `arcsn (i y, k) = i F (arctan y, k')` -/
theorem C70_arcsn_imaginary (y k : ℝ) (hy : 0 < y) (hk : k ^ 2 ≤ 1) :
    ∃ (N : ℕ) (v : ℝ), (∀ fuel, N ≤ fuel → ellipticArcSNC fuel eps (Complex.I * y) k = .ok (Complex.I * v)) ∧
      |v - legendreF (Real.arctan y) (Real.sqrt (1 - k ^ 2))| ≤ eps / 4 * legendreF (Real.arctan y) (Real.sqrt (1 - k ^ 2)) := by
  have hy2 : 0 < y * y := by positivity
  have hky : 0 ≤ k * k * y * y := by
    have : k * k * y * y = (k * y) ^ 2 := by ring
    rw [this]; positivity
  obtain ⟨N, v, hv, hacc⟩ := C69_complex eps he0 he1 (1 + y * y) (1 + k * k * y * y) 1 (by positivity) (by linarith) zero_le_one
    ⟨by linarith, by linarith, by linarith⟩
  refine ⟨N, y * v, fun fuel hf => ?_, ?_⟩
  · unfold ellipticArcSNC
    have h := (hv fuel hf).2
    have e0 : Complex.I * (y : ℂ) * (Complex.I * y) = ((-(y * y) : ℝ) : ℂ) := by
      push_cast
      linear_combination (y : ℂ) ^ 2 * Complex.I_sq
    have e1 : (1 : ℂ) - Complex.I * y * (Complex.I * y) = ((1 + y * y : ℝ) : ℂ) := by rw [e0]; push_cast; ring
    have e2 : (1 : ℂ) - ((k * k : ℝ) : ℂ) * (Complex.I * y) * (Complex.I * y) = ((1 + k * k * y * y : ℝ) : ℂ) := by
      rw [mul_assoc, e0]; push_cast; ring
    rw [e1, e2]
    rw [Complex.ofReal_one] at h
    rw [h, Out.ok_bind, e0, csqrt_neg hy2.le, Real.sqrt_mul_self hy.le]
    change Out.ok _ = _
    push_cast
    rw [mul_assoc]
  · have hF : y * symmetricRF (1 + y * y) (1 + k * k * y * y) 1 = legendreF (Real.arctan y) (Real.sqrt (1 - k ^ 2)) := by
      have hkp : Real.sqrt (1 - k ^ 2) ^ 2 = 1 - k ^ 2 := Real.sq_sqrt (by linarith)
      have hpos : 0 < 1 + y ^ 2 := by positivity
      have hs2 : Real.sin (Real.arctan y) ^ 2 = y ^ 2 / (1 + y ^ 2) := by
        rw [Real.sin_arctan, div_pow, Real.sq_sqrt hpos.le]
      have hle : (1 - k ^ 2) * (y ^ 2 / (1 + y ^ 2)) ≤ 1 := by
        have h1 : y ^ 2 / (1 + y ^ 2) ≤ 1 := by rw [div_le_one hpos]; linarith
        have h0 : 0 ≤ y ^ 2 / (1 + y ^ 2) := by positivity
        nlinarith [sq_nonneg k]
      have h := legendreF_eq (Real.arctan y) (Real.sqrt (1 - k ^ 2)) (Real.arctan_pos.2 hy) (Real.arctan_lt_pi_div_two y).le
        (by rw [hkp, hs2]; exact hle)
      rw [← h, hkp, hs2, Real.cos_sq_arctan, Real.sin_arctan]
      have hsc := symmetricRF_scale (1 + y ^ 2) (1 / (1 + y ^ 2)) (1 - (1 - k ^ 2) * (y ^ 2 / (1 + y ^ 2))) 1 hpos
      have a1 : (1 + y ^ 2) * (1 / (1 + y ^ 2)) = 1 := by field_simp
      have a2 : (1 + y ^ 2) * (1 - (1 - k ^ 2) * (y ^ 2 / (1 + y ^ 2))) = 1 + k * k * y * y := by field_simp; ring
      rw [a1, a2, mul_one] at hsc
      have a3 : symmetricRF (1 + y * y) (1 + k * k * y * y) 1 = symmetricRF 1 (1 + k * k * y * y) (1 + y ^ 2) := by
        rw [symmetricRF_swap12, symmetricRF_swap23, symmetricRF_swap12]
        congr 1
        ring
      rw [a3, hsc]
      ring
    rw [← hF, ← mul_sub, abs_mul, abs_of_pos hy, mul_left_comm]
    gcongr

end

/-- arguments that meet the hypotheses -/
example : ((3 / 5 : ℝ) ^ 2 * (1 / 2) ^ 2 ≤ 1 ∧ ((1 / 2 : ℝ) ^ 2 < 1)) ∧ (0 : ℝ) < 4 / 3 ∧ (3 / 5 : ℝ) ^ 2 ≤ 1 := by norm_num

end Verif
