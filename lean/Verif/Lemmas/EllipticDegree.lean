import Verif.Lemmas.EllipticRational
import Mathlib.Analysis.SpecialFunctions.Trigonometric.InverseDeriv
import Mathlib.Analysis.SpecialFunctions.Trigonometric.ArctanDeriv
import Mathlib.Analysis.SpecialFunctions.Sqrt

set_option linter.unusedSimpArgs false
set_option linter.unusedSectionVars false

/-! # The degree equation: how Jacobi's transformation changes the complete integrals -/

namespace Verif
open Polynomial Finset Filter Topology

theorem legendreF_continuous {k : ℝ} (hk : k ^ 2 < 1) : Continuous fun φ => legendreF φ k :=
  continuous_iff_continuousAt.mpr fun φ => (legendreF_deriv hk φ).continuousAt

/-- the elliptic integral of the first kind in terms of the square of the sine -/
noncomputable def sineIntegral (k x : ℝ) : ℝ := legendreF (Real.arcsin (Real.sqrt x)) k
/-- the elliptic integral with the complementary modulus in terms of the square of the tangent -/
noncomputable def tanIntegral (k t : ℝ) : ℝ := legendreF (Real.arctan (Real.sqrt t)) (Real.sqrt (1 - k ^ 2))

theorem sineIntegral_continuous {k : ℝ} (hk : k ^ 2 < 1) : Continuous (sineIntegral k) :=
  (legendreF_continuous hk).comp (Real.continuous_arcsin.comp Real.continuous_sqrt)

theorem sineIntegral_deriv {k x : ℝ} (hk : k ^ 2 < 1) (h0 : 0 < x) (h1 : x < 1) :
    HasDerivAt (sineIntegral k) (1 / (2 * Real.sqrt (x * (1 - x) * (1 - k ^ 2 * x)))) x := by
  have hs : Real.sqrt x ^ 2 = x := Real.sq_sqrt h0.le
  have hs0 : 0 < Real.sqrt x := Real.sqrt_pos.mpr h0
  have hs1 : Real.sqrt x < 1 := by rw [Real.sqrt_lt' one_pos]; linarith
  have a1 := (Real.hasDerivAt_sqrt h0.ne')
  have a2 := (Real.hasDerivAt_arcsin (x := Real.sqrt x) (by linarith) (by linarith)).comp x a1
  have a3 := (legendreF_deriv hk (Real.arcsin (Real.sqrt x))).comp x a2
  refine a3.congr_deriv ?_
  rw [Real.sin_arcsin (by linarith) (by linarith), hs]
  have p1 : 0 < 1 - x := by linarith
  have p2 : 0 < 1 - k ^ 2 * x := by nlinarith [sq_nonneg k]
  rw [Real.sqrt_mul (by positivity), Real.sqrt_mul h0.le]
  have q1 := Real.sqrt_pos.mpr p1
  have q2 := Real.sqrt_pos.mpr p2
  field_simp

theorem sineIntegral_zero (k : ℝ) : sineIntegral k 0 = 0 := by simp [sineIntegral, legendreF_zero]
theorem sineIntegral_one (k : ℝ) : sineIntegral k 1 = legendreK k := by simp [sineIntegral, legendreK]

theorem sineIntegral_jsn {k u : ℝ} (hk : k ^ 2 < 1) (h0 : 0 ≤ u) (h1 : u ≤ legendreK k) : sineIntegral k (jsn k u ^ 2) = u := by
  have b0 := (jam_strictMono hk).monotone h0
  have b1 := (jam_strictMono hk).monotone h1
  rw [jam_zero hk] at b0
  rw [jam_K hk] at b1
  rw [sineIntegral, jsn, Real.sqrt_sq (Real.sin_nonneg_of_nonneg_of_le_pi b0 (by linarith [Real.pi_pos])),
    Real.arcsin_sin (by linarith [Real.pi_pos]) b1, legendreF_jam hk]

theorem compl_sq {k : ℝ} (hk0 : k ≠ 0) (hk : k ^ 2 < 1) : Real.sqrt (1 - k ^ 2) ^ 2 = 1 - k ^ 2 ∧ Real.sqrt (1 - k ^ 2) ^ 2 < 1 := by
  have : Real.sqrt (1 - k ^ 2) ^ 2 = 1 - k ^ 2 := Real.sq_sqrt (by linarith)
  refine ⟨this, ?_⟩
  rw [this]
  have : 0 < k ^ 2 := by positivity
  linarith

theorem tanIntegral_continuous {k : ℝ} (hk0 : k ≠ 0) (hk : k ^ 2 < 1) : Continuous (tanIntegral k) :=
  (legendreF_continuous (compl_sq hk0 hk).2).comp (Real.continuous_arctan.comp Real.continuous_sqrt)

theorem tanIntegral_deriv {k t : ℝ} (hk0 : k ≠ 0) (hk : k ^ 2 < 1) (h0 : 0 < t) :
    HasDerivAt (tanIntegral k) (1 / (2 * Real.sqrt (t * (1 + t) * (1 + k ^ 2 * t)))) t := by
  have hs : Real.sqrt t ^ 2 = t := Real.sq_sqrt h0.le
  have hs0 : 0 < Real.sqrt t := Real.sqrt_pos.mpr h0
  have a1 := (Real.hasDerivAt_sqrt h0.ne')
  have a2 := (Real.hasDerivAt_arctan (Real.sqrt t)).comp t a1
  have a3 := (legendreF_deriv (compl_sq hk0 hk).2 (Real.arctan (Real.sqrt t))).comp t a2
  refine a3.congr_deriv ?_
  have hsin : Real.sin (Real.arctan (Real.sqrt t)) ^ 2 = t / (1 + t) := by
    rw [Real.sin_arctan, div_pow, hs, Real.sq_sqrt (by positivity)]
  have hin : 1 - Real.sqrt (1 - k ^ 2) ^ 2 * (t / (1 + t)) = (1 + k ^ 2 * t) / (1 + t) := by
    rw [(compl_sq hk0 hk).1]
    field_simp
    ring
  rw [hsin, hin, hs, Real.sqrt_div (by positivity), Real.sqrt_mul (by positivity), Real.sqrt_mul h0.le]
  have p1 : 0 < 1 + t := by linarith
  have q1 := Real.sqrt_pos.mpr p1
  have q2 : 0 < Real.sqrt (1 + k ^ 2 * t) := Real.sqrt_pos.mpr (by positivity)
  have q3 : Real.sqrt (1 + t) ^ 2 = 1 + t := Real.sq_sqrt p1.le
  rw [div_eq_mul_one_div (1 : ℝ) (2 * _)]
  field_simp
  exact q3

theorem tanIntegral_zero (k : ℝ) : tanIntegral k 0 = 0 := by simp [tanIntegral, legendreF_zero]

theorem tanIntegral_tendsto {k : ℝ} (hk0 : k ≠ 0) (hk : k ^ 2 < 1) : Tendsto (tanIntegral k) atTop (𝓝 (legendreK (Real.sqrt (1 - k ^ 2)))) := by
  have h1 : Tendsto (fun t => Real.arctan (Real.sqrt t)) atTop (𝓝 (Real.pi / 2)) :=
    (tendsto_nhds_of_tendsto_nhdsWithin Real.tendsto_arctan_atTop).comp (Real.tendsto_sqrt_atTop)
  exact ((legendreF_continuous (compl_sq hk0 hk).2).tendsto _).comp h1

/-- equal derivatives -/
theorem eq_of_equal_deriv {f g f' : ℝ → ℝ} {b : ℝ} (hf : ContinuousOn f (Set.Icc 0 b)) (hg : ContinuousOn g (Set.Icc 0 b)) (h0 : f 0 = g 0)
    (hf' : ∀ x ∈ Set.Ioo 0 b, HasDerivAt f (f' x) x) (hg' : ∀ x ∈ Set.Ioo 0 b, HasDerivAt g (f' x) x) (hb : 0 < b) : f b = g b := by
  obtain ⟨c, hc, h⟩ := exists_hasDerivAt_eq_slope (fun x => f x - g x) (fun x => f' x - f' x) hb (hf.sub hg)
    (fun x hx => (hf' x hx).sub (hg' x hx))
  rw [sub_self, h0, sub_self, sub_zero, sub_zero, eq_comm, div_eq_zero_iff] at h
  rcases h with h | h
  · linarith
  · linarith

theorem deriv_match {y' m P Q : ℝ} (hy : 0 < y') (hm : 0 < m) (hP : 0 < P) (hQ : 0 < Q) (h : y' ^ 2 * P = m ^ 2 * Q) :
    1 / (2 * Real.sqrt Q) * y' = m * (1 / (2 * Real.sqrt P)) := by
  have h1 : y' * Real.sqrt P = m * Real.sqrt Q := by
    have := congrArg Real.sqrt h
    rwa [Real.sqrt_mul (by positivity), Real.sqrt_mul (by positivity), Real.sqrt_sq hy.le, Real.sqrt_sq hm.le] at this
  have := Real.sqrt_pos.mpr hP
  have := Real.sqrt_pos.mpr hQ
  field_simp
  linarith

section
variable {k : ℝ} (hk0 : 0 < k) (hk : k ^ 2 < 1) {n : ℕ} (hn : 1 ≤ n)
include hk0 hk hn

/-- the modulus that Jacobi's transformation leads to -/
noncomputable def jmodulus (k : ℝ) (n : ℕ) : ℝ := gridA k n * k ^ n

theorem jmodulus_pos : 0 < jmodulus k n := mul_pos (gridA_pos hk hn) (by positivity)
theorem jmodulus_lt : jmodulus k n < 1 := by
  have h1 : k < 1 := by nlinarith
  have h2 : k ^ n ≤ k ^ 1 := pow_le_pow_of_le_one hk0.le h1.le hn
  have h3 := gridA_le hk hn
  have h4 : gridA k n * k ^ n ≤ 1 * k ^ n := mul_le_mul_of_nonneg_right h3 (by positivity)
  rw [jmodulus]
  linarith
theorem jmodulus_sq_lt : jmodulus k n ^ 2 < 1 := by
  have := jmodulus_pos hk0 hk hn
  have := jmodulus_lt hk0 hk hn
  nlinarith

/-- Jacobi's rational function -/
noncomputable def jratio (k : ℝ) (n : ℕ) (x : ℝ) : ℝ := (-1) ^ (n + 1) * (nE k n).eval x / (gridA k n * (dE k n).eval x)

theorem jratio_one_sub {x : ℝ} (hd : (dE k n).eval x ≠ 0) :
    1 - jratio k n x = (-1) ^ n * (nO k n).eval x / (gridA k n * (dE k n).eval x) := by
  have hA := (gridA_pos hk hn).ne'
  have h := congrArg (fun P => P.eval x) (nO_eq hk hn)
  simp only [eval_add, eval_mul, eval_C] at h
  have hs : ((-1 : ℝ) ^ n) * (-1) ^ n = 1 := by rw [← mul_pow]; norm_num
  rw [jratio, h, pow_succ]
  field_simp
  linear_combination -(gridA k n * (dE k n).eval x) * hs

theorem jratio_one_sub' {x : ℝ} (hd : (dE k n).eval x ≠ 0) :
    1 - jmodulus k n ^ 2 * jratio k n x = (dO k n).eval x / (dE k n).eval x := by
  have hA := (gridA_pos hk hn).ne'
  have h := congrArg (fun P => P.eval x) (dO_eq hk hn hk0.ne')
  simp only [eval_add, eval_mul, eval_C] at h
  rw [jratio, h, pow_succ, jmodulus, mul_pow, ← pow_mul]
  field_simp
  ring

theorem jratio_deriv {x : ℝ} (hd : (dE k n).eval x ≠ 0) :
    HasDerivAt (jratio k n) ((-1) ^ (n + 1) * (wronskian k n).eval x / (gridA k n * (dE k n).eval x ^ 2)) x := by
  have hA := (gridA_pos hk hn).ne'
  have h := (((nE k n).hasDerivAt x).const_mul ((-1) ^ (n + 1))).div (((dE k n).hasDerivAt x).const_mul (gridA k n)) (mul_ne_zero hA hd)
  refine h.congr_deriv ?_
  rw [wronskian, eval_sub, eval_mul, eval_mul]
  field_simp

theorem jratio_ode {x : ℝ} (hd : (dE k n).eval x ≠ 0) :
    ((-1) ^ (n + 1) * (wronskian k n).eval x / (gridA k n * (dE k n).eval x ^ 2)) ^ 2 * (x * (1 - x) * (1 - k ^ 2 * x)) =
      multiplier k n ^ 2 * (jratio k n x * (1 - jratio k n x) * (1 - jmodulus k n ^ 2 * jratio k n x)) := by
  have hA := (gridA_pos hk hn).ne'
  have h := wronskian_sq hk hn hk0.ne' x
  rw [jratio_one_sub hk0 hk hn hd, jratio_one_sub' hk0 hk hn hd, jratio]
  have hs : ((-1 : ℝ) ^ n) * (-1) ^ n = 1 := by rw [← mul_pow]; norm_num
  rw [div_pow, mul_pow, ← pow_mul, mul_comm (n + 1) 2, pow_mul, neg_one_sq, one_pow, one_mul, pow_succ]
  generalize x * (1 - x) * (1 - k ^ 2 * x) = P at *
  field_simp
  rw [h]
  rw [pow_succ]
  linear_combination (multiplier k n ^ 2 * ((nE k n).eval x * (nO k n).eval x * (dE k n).eval x * (dO k n).eval x)) * hs

theorem jratio_zero : jratio k n 0 = 0 := by
  rw [jratio, numP_eval, prod_eq_zero (i := 0) (mem_range.mpr (by omega))]
  · simp
  · simp [grid_zero hk hn]

theorem neg_one_prod {f : ℕ → ℝ} {x : ℝ} (m : ℕ) : (-1) ^ m * ∏ j ∈ range m, (x - f j) = ∏ j ∈ range m, (f j - x) := by
  have : (-1 : ℝ) ^ m = ∏ _j ∈ range m, (-1 : ℝ) := by simp
  rw [this, ← prod_mul_distrib]
  exact prod_congr rfl fun j _ => by ring

theorem grid_one_le {i : ℕ} (h0 : 0 < i) (h1 : i < 2 * n) : grid k n 1 ≤ grid k n i := by
  rcases le_or_gt i n with h | h
  · rcases (by omega : 1 ≤ i).eq_or_lt with h' | h'
    · rw [h']
    · exact (grid_lt hk hn h' h).le
  · rw [← grid_sym hk hn h1.le]
    rcases (by omega : 1 ≤ 2 * n - i).eq_or_lt with h' | h'
    · rw [← h']
    · exact (grid_lt hk hn h' (by omega)).le

theorem nE_eval_sign (x : ℝ) : (-1) ^ (n + 1) * (nE k n).eval x = x * ∏ j ∈ range (n - 1), (grid k n (2 * j + 2) - x) := by
  rw [← neg_one_prod hk0 hk hn, numP_eval]
  obtain ⟨m, rfl⟩ : ∃ m, n = m + 1 := ⟨n - 1, by omega⟩
  rw [prod_range_succ', mul_zero, grid_zero hk hn, sub_zero, Nat.add_sub_cancel, show m + 1 + 1 = m + 2 by ring, pow_add]
  simp only [mul_add, mul_one]
  ring

theorem dE_pos_of {x : ℝ} (hx : k ^ 2 * x < 1) : 0 < (dE k n).eval x :=
  denP_pos hk hn _ (fun _ => ⟨grid_nonneg hk hn _, grid_le_one hk hn _⟩) n hx
theorem dO_pos_of {x : ℝ} (hx : k ^ 2 * x < 1) : 0 < (dO k n).eval x :=
  denP_pos hk hn _ (fun _ => ⟨grid_nonneg hk hn _, grid_le_one hk hn _⟩) n hx

theorem wronskian_sign (x : ℝ) : (-1) ^ (n + 1) * (wronskian k n).eval x =
    multiplier k n * ((∏ i ∈ range (n - 1), (grid k n (i + 1) - x)) * ∏ i ∈ range (n - 1), (1 - k ^ 2 * grid k n (i + 1) * x)) := by
  rw [wronskian_eval hk hn hk0.ne', prod_mul_distrib, ← neg_one_prod hk0 hk hn (n - 1)]
  obtain ⟨m, rfl⟩ : ∃ m, n = m + 1 := ⟨n - 1, by omega⟩
  rw [Nat.add_sub_cancel, show m + 1 + 1 = m + 2 by ring, pow_add]
  ring

theorem small_of_lt_one {x : ℝ} (hx : x ≤ 1) : k ^ 2 * x < 1 := by
  have : k ^ 2 * x ≤ k ^ 2 * 1 := mul_le_mul_of_nonneg_left hx (sq_nonneg k)
  linarith

/-- the complete integral -/
theorem jmodulus_K : legendreK (jmodulus k n) = multiplier k n * (legendreK k / n) := by
  have hn0 : (0 : ℝ) < n := by exact_mod_cast (by omega : 0 < n)
  have hK := legendreK_pos hk
  have hk1 := jmodulus_sq_lt hk0 hk hn
  have hA := gridA_pos hk hn
  have hm := multiplier_pos hk hn
  obtain ⟨b, hb⟩ : ∃ b, b = grid k n 1 := ⟨_, rfl⟩
  have hb0 : 0 < b := by rw [hb]; exact grid_pos hk hn (by omega) (by omega)
  have hb1 : b ≤ 1 := by rw [hb]; exact grid_le_one hk hn 1
  have hd : ∀ x, x ≤ 1 → (dE k n).eval x ≠ 0 := fun x hx => (dE_pos_of hk0 hk hn (small_of_lt_one hk0 hk hn hx)).ne'
  have hcont : ContinuousOn (jratio k n) (Set.Icc 0 b) := fun x hx =>
    (jratio_deriv hk0 hk hn (hd x (hx.2.trans hb1))).continuousAt.continuousWithinAt
  have key := eq_of_equal_deriv (f := fun x => sineIntegral (jmodulus k n) (jratio k n x)) (g := fun x => multiplier k n * sineIntegral k x)
    (f' := fun x => multiplier k n * (1 / (2 * Real.sqrt (x * (1 - x) * (1 - k ^ 2 * x))))) (b := b)
    ((sineIntegral_continuous hk1).comp_continuousOn hcont) ((sineIntegral_continuous hk).const_mul _).continuousOn
    (by simp only [jratio_zero hk0 hk hn, sineIntegral_zero, mul_zero]) ?_ ?_ hb0
  · have h1 : jratio k n b = 1 := by
      have := jratio_one_sub hk0 hk hn (hd b hb1)
      rw [numP_eval, prod_eq_zero (i := 0) (mem_range.mpr (by omega)) (by simp [hb])] at this
      simp only [mul_zero, zero_div] at this
      linarith
    have h2 : sineIntegral k b = legendreK k / n := by
      rw [hb, grid]
      have : ((1 : ℕ) : ℝ) * legendreK k / n = legendreK k / n := by simp
      rw [this]
      refine sineIntegral_jsn hk (by positivity) ?_
      rw [div_le_iff₀ hn0]
      have : (1 : ℝ) ≤ n := by exact_mod_cast hn
      nlinarith
    simp only [h1, h2, sineIntegral_one] at key
    exact key
  · intro x hx
    have hx1 : x < 1 := hx.2.trans_le hb1
    have hE := dE_pos_of hk0 hk hn (small_of_lt_one hk0 hk hn hx1.le)
    have hO := dO_pos_of hk0 hk hn (small_of_lt_one hk0 hk hn hx1.le)
    have hlt : ∀ i, 0 < i → i < 2 * n → 0 < grid k n i - x := fun i h0 h1 => by
      have := grid_one_le hk0 hk hn h0 h1
      have := hx.2
      rw [hb] at this
      linarith
    have y0 : 0 < jratio k n x := by
      rw [jratio, nE_eval_sign hk0 hk hn]
      refine div_pos (mul_pos hx.1 (prod_pos fun j hj => ?_)) (by positivity)
      have := mem_range.mp hj
      exact hlt _ (by omega) (by omega)
    have y1 : 0 < 1 - jratio k n x := by
      rw [jratio_one_sub hk0 hk hn hE.ne', numP_eval, neg_one_prod hk0 hk hn]
      refine div_pos (prod_pos fun j hj => ?_) (by positivity)
      have := mem_range.mp hj
      exact hlt _ (by omega) (by omega)
    have y2 : 0 < 1 - jmodulus k n ^ 2 * jratio k n x := by
      rw [jratio_one_sub' hk0 hk hn hE.ne']
      positivity
    have hy' : 0 < (-1) ^ (n + 1) * (wronskian k n).eval x / (gridA k n * (dE k n).eval x ^ 2) := by
      rw [wronskian_sign hk0 hk hn]
      refine div_pos (mul_pos hm (mul_pos (prod_pos fun j hj => ?_) (prod_pos fun j hj => ?_))) (by positivity)
      · have := mem_range.mp hj
        exact hlt _ (by omega) (by omega)
      · have h1 := grid_le_one hk hn (j + 1)
        have h2 : grid k n (j + 1) * x ≤ 1 * 1 := mul_le_mul h1 hx1.le hx.1.le (by norm_num)
        have h3 : k ^ 2 * (grid k n (j + 1) * x) ≤ k ^ 2 * 1 := mul_le_mul_of_nonneg_left (by linarith) (sq_nonneg k)
        nlinarith
    have hP : 0 < x * (1 - x) * (1 - k ^ 2 * x) :=
      mul_pos (mul_pos hx.1 (by linarith)) (by have := small_of_lt_one hk0 hk hn hx1.le; linarith)
    have h1 := (sineIntegral_deriv hk1 y0 (by linarith)).comp x (jratio_deriv hk0 hk hn hE.ne')
    refine h1.congr_deriv ?_
    exact deriv_match hy' hm hP (mul_pos (mul_pos y0 y1) y2) (jratio_ode hk0 hk hn hE.ne')
  · intro x hx
    exact (sineIntegral_deriv hk hx.1 (hx.2.trans_le hb1)).const_mul _

/-- the ratio on the negative axis -/
theorem jratio_neg (t : ℝ) : -jratio k n (-t) = t * (∏ j ∈ range (n - 1), (grid k n (2 * j + 2) + t)) / (gridA k n * (dE k n).eval (-t)) := by
  rw [jratio, nE_eval_sign hk0 hk hn]
  simp only [sub_neg_eq_add]
  ring

theorem small_of_neg {t : ℝ} (ht : 0 ≤ t) : k ^ 2 * (-t) < 1 := by
  have : 0 ≤ k ^ 2 * t := by positivity
  linarith

/-- the incomplete integral with the complementary modulus -/
theorem jratio_tanIntegral {t : ℝ} (ht : 0 ≤ t) : tanIntegral (jmodulus k n) (-jratio k n (-t)) = multiplier k n * tanIntegral k t := by
  rcases ht.eq_or_lt with h | ht
  · rw [← h, neg_zero, jratio_zero hk0 hk hn, neg_zero, tanIntegral_zero, tanIntegral_zero, mul_zero]
  have hk1 := jmodulus_sq_lt hk0 hk hn
  have hk10 := (jmodulus_pos hk0 hk hn).ne'
  have hA := gridA_pos hk hn
  have hm := multiplier_pos hk hn
  have hneg : ∀ x : ℝ, HasDerivAt (fun x : ℝ => -x) (-1) x := fun x => hasDerivAt_neg x
  have hder : ∀ x, 0 ≤ x → HasDerivAt (fun x => -jratio k n (-x)) ((-1) ^ (n + 1) * (wronskian k n).eval (-x) / (gridA k n * (dE k n).eval (-x) ^ 2)) x := by
    intro x hx
    have h1 := ((jratio_deriv hk0 hk hn (dE_pos_of hk0 hk hn (small_of_neg hk0 hk hn hx)).ne').comp x (hneg x)).neg
    refine h1.congr_deriv ?_
    ring
  refine eq_of_equal_deriv (f := fun x => tanIntegral (jmodulus k n) (-jratio k n (-x))) (g := fun x => multiplier k n * tanIntegral k x)
    (f' := fun x => multiplier k n * (1 / (2 * Real.sqrt (x * (1 + x) * (1 + k ^ 2 * x))))) (b := t)
    ((tanIntegral_continuous hk10 hk1).comp_continuousOn fun x hx => (hder x hx.1).continuousAt.continuousWithinAt)
    ((tanIntegral_continuous hk0.ne' hk).const_mul _).continuousOn
    (by simp only [neg_zero, jratio_zero hk0 hk hn, tanIntegral_zero, mul_zero]) ?_ ?_ ht
  · intro x hx
    have hE := dE_pos_of hk0 hk hn (small_of_neg hk0 hk hn hx.1.le)
    have hO := dO_pos_of hk0 hk hn (small_of_neg hk0 hk hn hx.1.le)
    have hg : ∀ i, 0 < grid k n i + x := fun i => by
      have := grid_nonneg hk hn i
      linarith [hx.1]
    have y0 : 0 < -jratio k n (-x) := by
      rw [jratio_neg hk0 hk hn]
      exact div_pos (mul_pos hx.1 (prod_pos fun j _ => hg _)) (by positivity)
    have hy' : 0 < (-1) ^ (n + 1) * (wronskian k n).eval (-x) / (gridA k n * (dE k n).eval (-x) ^ 2) := by
      rw [wronskian_sign hk0 hk hn]
      refine div_pos (mul_pos hm (mul_pos (prod_pos fun j _ => ?_) (prod_pos fun j _ => ?_))) (by positivity)
      · have := hg (j + 1)
        linarith
      · have h1 : 0 ≤ k ^ 2 * grid k n (j + 1) * x := mul_nonneg (mul_nonneg (sq_nonneg k) (grid_nonneg hk hn _)) hx.1.le
        nlinarith
    have hx0 := hx.1
    have hode := jratio_ode hk0 hk hn hE.ne'
    have h1 := (tanIntegral_deriv hk10 hk1 y0).comp x (hder x hx.1.le)
    refine h1.congr_deriv ?_
    have y1 : 0 < 1 + -jratio k n (-x) := by linarith
    have y2 : 0 < 1 + jmodulus k n ^ 2 * -jratio k n (-x) := by
      have : 0 < jmodulus k n ^ 2 * -jratio k n (-x) := mul_pos (by positivity) y0
      linarith
    refine deriv_match hy' hm (by positivity) (mul_pos (mul_pos y0 y1) y2) ?_
    linear_combination -hode
  · intro x hx
    exact (tanIntegral_deriv hk0.ne' hk hx.1).const_mul _

theorem jratio_tendsto : Tendsto (fun t => -jratio k n (-t)) atTop atTop := by
  have hA := gridA_pos hk hn
  obtain ⟨c, hc⟩ : ∃ c, c = (∏ j ∈ range (n - 1), grid k n (2 * j + 2)) / gridA k n := ⟨_, rfl⟩
  have hp : 0 < ∏ j ∈ range (n - 1), grid k n (2 * j + 2) :=
    prod_pos fun j hj => grid_pos hk hn (by omega) (by have := mem_range.mp hj; omega)
  have hc0 : 0 < c := by rw [hc]; positivity
  refine tendsto_atTop_mono' atTop (f₁ := fun t => t * c) ?_ (tendsto_id.atTop_mul_const hc0)
  filter_upwards [eventually_ge_atTop 0] with t ht
  have hE := dE_pos_of hk0 hk hn (small_of_neg hk0 hk hn ht)
  rw [jratio_neg hk0 hk hn, hc, le_div_iff₀ (by positivity)]
  have hle : (∏ j ∈ range (n - 1), grid k n (2 * j + 2)) * (dE k n).eval (-t) ≤ ∏ j ∈ range (n - 1), (grid k n (2 * j + 2) + t) := by
    have : (dE k n).eval (-t) = ∏ j ∈ range (n - 1), (1 + k ^ 2 * grid k n (2 * j + 2) * t) := by
      rw [denP_eval, show range n = range (n - 1 + 1) by rw [Nat.sub_add_cancel hn], prod_range_succ', mul_zero, grid_zero hk hn]
      simp only [mul_zero, zero_mul, sub_zero, mul_one]
      exact prod_congr rfl fun j _ => by rw [mul_add, mul_one]; ring
    rw [this, ← prod_mul_distrib]
    refine prod_le_prod (fun j _ => ?_) fun j _ => ?_
    · have := grid_nonneg hk hn (2 * j + 2)
      positivity
    · have h0 := grid_nonneg hk hn (2 * j + 2)
      have h1 := grid_le_one hk hn (2 * j + 2)
      have h2 : grid k n (2 * j + 2) * grid k n (2 * j + 2) ≤ 1 := by nlinarith
      have h3 : k ^ 2 * (grid k n (2 * j + 2) * grid k n (2 * j + 2)) ≤ 1 := by
        have := mul_le_mul hk.le h2 (by positivity) (by norm_num)
        linarith
      have h4 := mul_le_mul_of_nonneg_right h3 ht
      nlinarith
  have e : t * ((∏ j ∈ range (n - 1), grid k n (2 * j + 2)) / gridA k n) * (gridA k n * (dE k n).eval (-t)) =
      t * ((∏ j ∈ range (n - 1), grid k n (2 * j + 2)) * (dE k n).eval (-t)) := by field_simp
  rw [e]
  exact mul_le_mul_of_nonneg_left hle ht

/-- the complementary complete integral -/
theorem jmodulus_Kp : legendreK (Real.sqrt (1 - jmodulus k n ^ 2)) = multiplier k n * legendreK (Real.sqrt (1 - k ^ 2)) := by
  have hk1 := jmodulus_sq_lt hk0 hk hn
  have hk10 := (jmodulus_pos hk0 hk hn).ne'
  have h1 := (tanIntegral_tendsto hk10 hk1).comp (jratio_tendsto hk0 hk hn)
  have h2 := (tanIntegral_tendsto hk0.ne' hk).const_mul (multiplier k n)
  refine tendsto_nhds_unique h1 (h2.congr' ?_)
  filter_upwards [eventually_ge_atTop 0] with t ht
  exact (jratio_tanIntegral hk0 hk hn ht).symm

end
end Verif
