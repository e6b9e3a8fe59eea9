import Verif.Lemmas.EllipticPoles
import Verif.Lemmas.Chebyshev

set_option linter.unusedSimpArgs false
set_option linter.unusedSectionVars false

/-! # The magnitude response of a filter with the poles and zeros of an elliptic one -/

namespace Verif
open Finset Complex

theorem normSq_rootsOf (r m : ℕ) (a : ℝ) (q : ℕ → ℂ) (z : ℂ) :
    normSq (rootProduct (rootsOf (List.replicate r a) ((List.range m).map q)) z) =
      normSq (z - a) ^ r * ∏ j ∈ range m, (normSq (z - q j) * normSq (z - (starRingEnd ℂ) (q j))) := by
  have h1 : rootsOf (List.replicate r a) ((List.range m).map q) =
      List.replicate r (a : ℂ) ++ ((List.range m).map q ++ (List.range m).map fun j => (starRingEnd ℂ) (q j)) := by
    rw [rootsOf, List.map_replicate, List.map_map, List.append_assoc]
    rfl
  rw [h1, rootProduct_append, rootProduct_append, normSq_mul, normSq_mul, normSq_rootProduct, normSq_rootProduct, ← prod_mul_distrib]
  congr 1
  simp [rootProduct]

theorem pole_pair (S : ℂ) (w : ℝ) : normSq (I * (w : ℂ) - I * S) * normSq (I * (w : ℂ) - (starRingEnd ℂ) (I * S)) =
    normSq (((w ^ 2 : ℝ) : ℂ) - S ^ 2) := by
  have h1 : I * (w : ℂ) - (starRingEnd ℂ) (I * S) = I * (starRingEnd ℂ) ((w : ℂ) + S) := by
    rw [map_mul, map_add, conj_I, conj_ofReal]; ring
  rw [h1, ← mul_sub, normSq_mul, normSq_mul, normSq_conj, normSq_I, one_mul, one_mul, ← normSq_mul]
  congr 1
  push_cast
  ring

theorem zero_pair {x : ℝ} (hx : x ≠ 0) (w : ℝ) : normSq (I * (w : ℂ) - I / (x : ℂ)) * normSq (I * (w : ℂ) - (starRingEnd ℂ) (I / (x : ℂ))) =
    ((1 - x ^ 2 * w ^ 2) / x ^ 2) ^ 2 := by
  have h1 : I / (x : ℂ) = I * ((1 / x : ℝ) : ℂ) := by push_cast; ring
  rw [h1, pole_pair]
  have : (((w ^ 2 : ℝ) : ℂ) - ((1 / x : ℝ) : ℂ) ^ 2) = ((w ^ 2 - (1 / x) ^ 2 : ℝ) : ℂ) := by push_cast; ring
  rw [this, normSq_ofReal, ← sq, ← neg_sq]
  congr 1
  field_simp
  ring

/-- the magnitude response, squared, relative to the one at zero, as a function of the square of the frequency -/
noncomputable def ellipticShape (k : ℝ) (n : ℕ) (θ : ℕ → ℝ) (ψ x : ℝ) : ℝ :=
  (∏ j ∈ range (n / 2), (1 - (k * Real.sin (θ j)) ^ 2 * x) ^ 2) /
    ((1 + x / Real.tan ψ ^ 2) ^ (n % 2) * ∏ j ∈ range (n / 2), normSq (1 - (x : ℂ) / complexSn k (θ j) ψ ^ 2))

theorem complexSn_parts {k θ ψ : ℝ} (hk : k ^ 2 < 1) (hk0 : k ≠ 0) (hθ0 : 0 < θ) (hθ1 : θ < Real.pi / 2) (hψ0 : 0 < ψ) (hψ1 : ψ < Real.pi / 2) :
    0 < (complexSn k θ ψ).re ∧ 0 < (complexSn k θ ψ).im := by
  have s0 := Real.sin_pos_of_pos_of_lt_pi hθ0 (by linarith [Real.pi_pos])
  have c0 := Real.cos_pos_of_mem_Ioo (x := θ) ⟨by linarith [Real.pi_pos], hθ1⟩
  have s1 := Real.sin_pos_of_pos_of_lt_pi hψ0 (by linarith [Real.pi_pos])
  have c1 := Real.cos_pos_of_mem_Ioo (x := ψ) ⟨by linarith [Real.pi_pos], hψ1⟩
  have d0 := delta_pos hk θ
  have d1 := delta_pos (compl_sq hk0 hk).2 ψ
  have hD : 0 < complexDenominator k θ ψ := by rw [complexDenominator]; positivity
  simp only [complexSn]
  constructor <;> positivity

/-- the magnitude response of a system with the given poles, zeros and value at zero -/
theorem elliptic_magnitude {n : ℕ} {k ψ : ℝ} {θ : ℕ → ℝ} {sys : Zpk} (hk0 : 0 < k) (hk : k ^ 2 < 1)
    (hθ : ∀ j < n / 2, 0 < θ j ∧ θ j < Real.pi / 2) (hψ0 : 0 < ψ) (hψ1 : ψ < Real.pi / 2)
    (hz : sys.zeros.roots = rootsOf [] ((List.range (n / 2)).map fun j => I / ((k * Real.sin (θ j) : ℝ) : ℂ)))
    (hp : sys.poles.roots = rootsOf (List.replicate (n % 2) (-Real.tan ψ)) ((List.range (n / 2)).map fun j => I * complexSn k (θ j) ψ))
    (w : ℝ) : normSq (sys.eval (I * (w : ℂ))) = normSq (sys.eval (0 : ℂ)) * ellipticShape k n θ ψ (w ^ 2) := by
  have ht : 0 < Real.tan ψ := Real.tan_pos_of_pos_of_lt_pi_div_two hψ0 hψ1
  have hx : ∀ j ∈ range (n / 2), k * Real.sin (θ j) ≠ 0 := fun j hj => by
    obtain ⟨h0, h1⟩ := hθ j (mem_range.mp hj)
    exact (mul_pos hk0 (Real.sin_pos_of_pos_of_lt_pi h0 (by linarith [Real.pi_pos]))).ne'
  have hS : ∀ j ∈ range (n / 2), complexSn k (θ j) ψ ≠ 0 := fun j hj h => by
    have := (complexSn_parts hk hk0.ne' (hθ j (mem_range.mp hj)).1 (hθ j (mem_range.mp hj)).2 hψ0 hψ1).1
    rw [h] at this
    simp at this
  have hgen : ∀ w : ℝ, normSq (sys.eval (I * (w : ℂ))) = sys.gain ^ 2 * (∏ j ∈ range (n / 2), ((1 - (k * Real.sin (θ j)) ^ 2 * w ^ 2) / (k * Real.sin (θ j)) ^ 2) ^ 2) /
      ((w ^ 2 + Real.tan ψ ^ 2) ^ (n % 2) * ∏ j ∈ range (n / 2), normSq (((w ^ 2 : ℝ) : ℂ) - complexSn k (θ j) ψ ^ 2)) := by
    intro w
    have e0 := normSq_rootsOf 0 (n / 2) 0 (fun j => I / ((k * Real.sin (θ j) : ℝ) : ℂ)) (I * (w : ℂ))
    rw [List.replicate_zero, pow_zero, one_mul] at e0
    rw [zpk_value, hz, hp, normSq_div, normSq_mul, normSq_rootsOf, e0, normSq_ofReal]
    have e1 : normSq (I * (w : ℂ) - ((-Real.tan ψ : ℝ) : ℂ)) = w ^ 2 + Real.tan ψ ^ 2 := by
      rw [normSq_apply]
      simp only [sub_re, sub_im, mul_re, mul_im, I_re, I_im, ofReal_re, ofReal_im]
      ring
    rw [e1, prod_congr rfl fun j hj => zero_pair (hx j hj) w, prod_congr rfl fun j _ => pole_pair (complexSn k (θ j) ψ) w]
    ring
  have h0 := hgen 0
  rw [ofReal_zero, mul_zero] at h0
  rw [hgen w, h0, ellipticShape]
  have e1 : ∀ x : ℝ, ∏ j ∈ range (n / 2), ((1 - (k * Real.sin (θ j)) ^ 2 * x) / (k * Real.sin (θ j)) ^ 2) ^ 2 =
      (∏ j ∈ range (n / 2), (1 - (k * Real.sin (θ j)) ^ 2 * x) ^ 2) / ∏ j ∈ range (n / 2), ((k * Real.sin (θ j)) ^ 2) ^ 2 := by
    intro x
    rw [← prod_div_distrib]
    exact prod_congr rfl fun j _ => div_pow _ _ _
  have e2 : ∏ j ∈ range (n / 2), normSq (((w ^ 2 : ℝ) : ℂ) - complexSn k (θ j) ψ ^ 2) =
      (∏ j ∈ range (n / 2), normSq (1 - ((w ^ 2 : ℝ) : ℂ) / complexSn k (θ j) ψ ^ 2)) * ∏ j ∈ range (n / 2), normSq (complexSn k (θ j) ψ ^ 2) := by
    rw [← prod_mul_distrib]
    refine prod_congr rfl fun j hj => ?_
    rw [← normSq_mul]
    have hne : complexSn k (θ j) ψ ^ 2 ≠ 0 := pow_ne_zero 2 (hS j hj)
    rw [sub_mul, div_mul_cancel₀ _ hne, one_mul, ← normSq_neg, neg_sub]
  have e3 : w ^ 2 + Real.tan ψ ^ 2 = (1 + w ^ 2 / Real.tan ψ ^ 2) * Real.tan ψ ^ 2 := by field_simp; ring
  have e4 : ∏ j ∈ range (n / 2), normSq ((((0 : ℝ) ^ 2 : ℝ) : ℂ) - complexSn k (θ j) ψ ^ 2) = ∏ j ∈ range (n / 2), normSq (complexSn k (θ j) ψ ^ 2) :=
    prod_congr rfl fun j _ => by rw [show (((0 : ℝ) ^ 2 : ℝ) : ℂ) = 0 by norm_num, zero_sub, normSq_neg]
  rw [e1, e1, e2, e3, e4, mul_pow]
  have p1 : ∏ j ∈ range (n / 2), normSq (complexSn k (θ j) ψ ^ 2) ≠ 0 :=
    prod_ne_zero_iff.mpr fun j hj => by
      rw [Ne, normSq_eq_zero]
      exact pow_ne_zero 2 (hS j hj)
  have p2 : ∏ j ∈ range (n / 2), ((k * Real.sin (θ j)) ^ 2) ^ 2 ≠ 0 := prod_ne_zero_iff.mpr fun j hj => pow_ne_zero _ (pow_ne_zero _ (hx j hj))
  have p3 : (Real.tan ψ ^ 2) ^ (n % 2) ≠ 0 := by positivity
  have e5 : ∏ j ∈ range (n / 2), (1 - (k * Real.sin (θ j)) ^ 2 * (0 : ℝ) ^ 2) ^ 2 = 1 := by simp
  have e6 : ((0 : ℝ) ^ 2 + Real.tan ψ ^ 2) = Real.tan ψ ^ 2 := by ring
  rw [e5, e6]
  generalize ∏ j ∈ range (n / 2), normSq (complexSn k (θ j) ψ ^ 2) = a at *
  generalize ∏ j ∈ range (n / 2), ((k * Real.sin (θ j)) ^ 2) ^ 2 = b at *
  generalize (Real.tan ψ ^ 2) ^ (n % 2) = c at *
  generalize ∏ j ∈ range (n / 2), (1 - (k * Real.sin (θ j)) ^ 2 * w ^ 2) ^ 2 = f at *
  generalize ∏ j ∈ range (n / 2), normSq (1 - ((w ^ 2 : ℝ) : ℂ) / complexSn k (θ j) ψ ^ 2) = g at *
  field_simp

end Verif
