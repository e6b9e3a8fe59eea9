import Verif.Lemmas.EllipticMagnitude

set_option linter.unusedSimpArgs false
set_option linter.unusedSectionVars false

/-! # The exact elliptic filter: its poles, and its ripples -/

namespace Verif
open Polynomial Finset Complex

/-- numerator and denominator of the elliptic rational function of order `n`, squared -/
noncomputable abbrev rN (k : ℝ) (n : ℕ) : ℝ[X] := numP (fun j => grid k n (2 * j + (n + 1) % 2)) n
noncomputable abbrev rD (k : ℝ) (n : ℕ) : ℝ[X] := denP k (fun j => grid k n (2 * j + (n + 1) % 2)) n

theorem rN_odd {k : ℝ} {n : ℕ} (h : n % 2 = 1) : rN k n = nE k n ∧ rD k n = dE k n := by
  have : (n + 1) % 2 = 0 := by omega
  simp only [rN, rD, this, add_zero, and_self]
theorem rN_even {k : ℝ} {n : ℕ} (h : n % 2 = 0) : rN k n = nO k n ∧ rD k n = dO k n := by
  have : (n + 1) % 2 = 1 := by omega
  simp only [rN, rD, this, and_self]

section
variable {k : ℝ} (hk0 : 0 < k) (hk : k ^ 2 < 1) {n : ℕ} (hn : 1 ≤ n)
include hk0 hk hn

theorem jprod_half (u : ℝ) : (nO k n).eval (jsn k u ^ 2) / (dO k n).eval (jsn k u ^ 2) = -jprod k n (u + legendreK k / n) := by
  obtain ⟨m, rfl⟩ : ∃ m, n = m + 1 := ⟨n - 1, by omega⟩
  have hn0 : ((m + 1 : ℕ) : ℝ) ≠ 0 := by positivity
  have e0 : ∀ j : ℕ, (jsn k u ^ 2 - grid k (m + 1) (2 * j + 1)) / (1 - k ^ 2 * grid k (m + 1) (2 * j + 1) * jsn k u ^ 2) =
      jsn k (u + (2 * j + 1 : ℕ) * legendreK k / (m + 1 : ℕ)) * jsn k (u - (2 * j + 1 : ℕ) * legendreK k / (m + 1 : ℕ)) := fun j => by
    rw [jsn_mul hk, grid]
  rw [numP_eval, denP_eval, ← prod_div_distrib, jprod, prod_mul_distrib, prod_congr rfl fun j _ => e0 j, prod_mul_distrib,
    prod_range_succ (fun j : ℕ => jsn k (u - (2 * j + 1 : ℕ) * legendreK k / (m + 1 : ℕ))),
    prod_range_succ' (fun j : ℕ => jsn k (u + legendreK k / (m + 1 : ℕ) - (2 * j : ℕ) * legendreK k / (m + 1 : ℕ)))]
  have e1 : ∀ j : ℕ, u + legendreK k / (m + 1 : ℕ) + (2 * j : ℕ) * legendreK k / (m + 1 : ℕ) = u + (2 * j + 1 : ℕ) * legendreK k / (m + 1 : ℕ) := by
    intro j; push_cast; ring
  have e2 : ∀ j : ℕ, u + legendreK k / (m + 1 : ℕ) - (2 * (j + 1) : ℕ) * legendreK k / (m + 1 : ℕ) = u - (2 * j + 1 : ℕ) * legendreK k / (m + 1 : ℕ) := by
    intro j; push_cast; ring
  have e3 : u + legendreK k / (m + 1 : ℕ) - (2 * 0 : ℕ) * legendreK k / (m + 1 : ℕ) = (u - (2 * m + 1 : ℕ) * legendreK k / (m + 1 : ℕ)) + 2 * legendreK k := by
    push_cast at hn0 ⊢
    field_simp
    ring
  simp only [e1, e2]
  rw [e3, jsn_add_period hk]
  ring

theorem dO_pos_at (u : ℝ) : 0 < (dO k n).eval (jsn k u ^ 2) := dO_pos_of hk0 hk hn (small_of_lt_one hk0 hk hn (jsn_sq_le hk u))

/-- the transformation with a shifted real argument -/
theorem real_shift (j : ℕ) (u : ℝ) :
    (rN k n).eval (jsn k (u + (2 * j + 1 + n % 2 : ℕ) * legendreK k / n) ^ 2) * (dE k n).eval (jsn k u ^ 2) =
      (-1) ^ (n + 1) * ((nE k n).eval (jsn k u ^ 2) * (rD k n).eval (jsn k (u + (2 * j + 1 + n % 2 : ℕ) * legendreK k / n) ^ 2)) := by
  have hE := (dE_pos_at hk hn u).ne'
  have hu := jprod_eq hk hn u
  rcases Nat.mod_two_eq_zero_or_one n with h | h
  · rw [(rN_even h).1, (rN_even h).2, h, add_zero]
    have h1 := jprod_half hk0 hk hn (u + (2 * j + 1 : ℕ) * legendreK k / n)
    have h2 := jprod_period_nat hk hn u (j + 1)
    rw [show u + (2 * j + 1 : ℕ) * legendreK k / n + legendreK k / n = u + (j + 1 : ℕ) * (2 * legendreK k / n) by push_cast; ring, h2, hu] at h1
    have hO := (dO_pos_at hk0 hk hn (u + (2 * j + 1 : ℕ) * legendreK k / n)).ne'
    rw [div_eq_iff hO] at h1
    rw [h1, Odd.neg_one_pow (by rw [Nat.odd_iff]; omega)]
    field_simp
  · rw [(rN_odd h).1, (rN_odd h).2, h]
    have h1 := jprod_eq hk hn (u + (2 * j + 1 + 1 : ℕ) * legendreK k / n)
    have h2 := jprod_period_nat hk hn u (j + 1)
    rw [show u + (2 * j + 1 + 1 : ℕ) * legendreK k / n = u + (j + 1 : ℕ) * (2 * legendreK k / n) by push_cast; ring] at h1 ⊢
    rw [h2, hu] at h1
    have hO := (dE_pos_at hk hn (u + (j + 1 : ℕ) * (2 * legendreK k / n))).ne'
    rw [eq_div_iff hO] at h1
    rw [← h1, Even.neg_one_pow (by rw [Nat.even_iff]; omega)]
    field_simp

/-- the amplitudes of the poles and zeros -/
noncomputable def poleAngle (k : ℝ) (n j : ℕ) : ℝ := jam k ((2 * j + 1 + n % 2 : ℕ) * legendreK k / n)

theorem poleAngle_mem {j : ℕ} (hj : j < n / 2) : 0 < poleAngle k n j ∧ poleAngle k n j < Real.pi / 2 := by
  have hn0 : (0 : ℝ) < n := by exact_mod_cast (by omega : 0 < n)
  have hK := legendreK_pos hk
  apply jam_mem hk
  · positivity
  · rw [div_lt_iff₀ hn0, mul_comm (legendreK k)]
    have : ((2 * j + 1 + n % 2 : ℕ) : ℝ) < n := by exact_mod_cast (by omega)
    gcongr

/-- the value of the rational function at the poles -/
noncomputable def poleLevel (k : ℝ) (n : ℕ) (ψ : ℝ) : ℝ := -jratio k n (-Real.tan ψ ^ 2)

theorem poleLevel_pos {ψ : ℝ} (hψ0 : 0 < ψ) (hψ1 : ψ < Real.pi / 2) : 0 < poleLevel k n ψ := by
  have ht : 0 < Real.tan ψ := Real.tan_pos_of_pos_of_lt_pi_div_two hψ0 hψ1
  have hA := gridA_pos hk hn
  rw [poleLevel, jratio_neg hk0 hk hn]
  have hE := dE_pos_of hk0 hk hn (small_of_neg hk0 hk hn (sq_nonneg (Real.tan ψ)))
  refine div_pos (mul_pos (by positivity) (prod_pos fun j _ => ?_)) (by positivity)
  have := grid_nonneg hk hn (2 * j + 2)
  positivity

theorem level_eq (ψ : ℝ) : (-1) ^ (n + 1) * (nE k n).eval (-Real.tan ψ ^ 2) = -(poleLevel k n ψ * gridA k n * (dE k n).eval (-Real.tan ψ ^ 2)) := by
  have hA := (gridA_pos hk hn).ne'
  have hE := (dE_pos_of hk0 hk hn (small_of_neg hk0 hk hn (sq_nonneg (Real.tan ψ)))).ne'
  rw [poleLevel, jratio]
  field_simp

theorem ofReal_numP (a : ℕ → ℝ) (m : ℕ) (x : ℝ) : (((numP a m).eval x : ℝ) : ℂ) = ∏ j ∈ range m, ((x : ℂ) - (a j : ℝ)) := by
  rw [numP_eval, ofReal_prod]
  exact prod_congr rfl fun j _ => by push_cast; rfl
theorem ofReal_denP (a : ℕ → ℝ) (m : ℕ) (x : ℝ) : (((denP k a m).eval x : ℝ) : ℂ) = ∏ j ∈ range m, (1 - (k : ℂ) ^ 2 * (a j : ℝ) * (x : ℂ)) := by
  rw [denP_eval, ofReal_prod]
  exact prod_congr rfl fun j _ => by push_cast; rfl

theorem map_numP (a : ℕ → ℝ) (m : ℕ) (z : ℂ) : ((numP a m).map ofRealHom).eval z = ∏ j ∈ range m, (z - (a j : ℝ)) := by
  rw [numP, Polynomial.map_prod, eval_prod]
  exact prod_congr rfl fun j _ => by simp
theorem map_denP (a : ℕ → ℝ) (m : ℕ) (z : ℂ) : ((denP k a m).map ofRealHom).eval z = ∏ j ∈ range m, (1 - (k : ℂ) ^ 2 * (a j : ℝ) * z) := by
  rw [denP, Polynomial.map_prod, eval_prod]
  exact prod_congr rfl fun j _ => by simp

/-- the polynomial of the squares of the poles -/
noncomputable def polePoly (k : ℝ) (n : ℕ) (ψ : ℝ) : ℝ[X] := rN k n + C (poleLevel k n ψ * gridA k n) * rD k n

theorem polePoly_map (ψ : ℝ) (z : ℂ) : ((polePoly k n ψ).map ofRealHom).eval z =
    ((rN k n).map ofRealHom).eval z + ((poleLevel k n ψ * gridA k n : ℝ) : ℂ) * ((rD k n).map ofRealHom).eval z := by
  rw [polePoly, Polynomial.map_add, Polynomial.map_mul, Polynomial.map_C, eval_add, eval_mul, eval_C]
  rfl

theorem polePoly_root {ψ : ℝ} (hc : Real.cos ψ ≠ 0) (j : ℕ) :
    ((polePoly k n ψ).map ofRealHom).eval (complexSn k (poleAngle k n j) ψ ^ 2) = 0 := by
  obtain ⟨h1, h2, h3⟩ := complexSn_add hk ((2 * j + 1 + n % 2 : ℕ) * legendreK k / n) ψ hc
  have h := shift_identity hk (fun j => grid k n (2 * j + (n + 1) % 2)) (fun j => grid k n (2 * j)) n ((-1) ^ (n + 1))
    ((2 * j + 1 + n % 2 : ℕ) * legendreK k / n) (fun u => by
      have := real_shift hk0 hk hn j u
      rwa [numP_eval, numP_eval, denP_eval, denP_eval] at this) h1 h3 h2
  have hE := dE_pos_of hk0 hk hn (small_of_neg hk0 hk hn (sq_nonneg (Real.tan ψ)))
  rw [← ofReal_denP hk0 hk hn, ← ofReal_numP hk0 hk hn, ← mul_assoc, ← ofReal_mul, level_eq hk0 hk hn] at h
  rw [polePoly_map hk0 hk hn, map_numP hk0 hk hn, map_denP hk0 hk hn]
  have hEc : (((dE k n).eval (-Real.tan ψ ^ 2) : ℝ) : ℂ) ≠ 0 := by exact_mod_cast hE.ne'
  apply mul_right_cancel₀ hEc
  rw [zero_mul, add_mul, poleAngle, h]
  push_cast
  ring

theorem polePoly_root_real {ψ : ℝ} (h : n % 2 = 1) : (polePoly k n ψ).eval (-Real.tan ψ ^ 2) = 0 := by
  have := level_eq hk0 hk hn ψ
  rw [Even.neg_one_pow (by rw [Nat.even_iff]; omega), one_mul] at this
  rw [polePoly, (rN_odd h).1, (rN_odd h).2, eval_add, eval_mul, eval_C, this]
  ring

theorem polePoly_zero (ψ : ℝ) : (polePoly k n ψ).eval 0 = (if n % 2 = 1 then 0 else gridA k n) + poleLevel k n ψ * gridA k n := by
  have hD : (rD k n).eval 0 = 1 := by rw [denP_eval]; simp
  rw [polePoly, eval_add, eval_mul, eval_C, hD, mul_one]
  congr 1
  rcases Nat.mod_two_eq_zero_or_one n with h | h
  · rw [if_neg (by omega), (rN_even h).1, numP_eval, gridA]
    simp only [zero_sub]
    rw [prod_neg, card_range, Even.neg_one_pow (by rw [Nat.even_iff]; omega), one_mul]
  · rw [if_pos h, (rN_odd h).1, numP_eval, prod_eq_zero (i := 0) (mem_range.mpr (by omega))]
    simp [grid_zero hk hn]

theorem polePoly_natDegree_le (ψ : ℝ) : (polePoly k n ψ).natDegree ≤ n := by
  refine (natDegree_add_le _ _).trans (max_le (by rw [numP_natDegree]) ?_)
  exact (natDegree_C_mul_le _ _).trans (denP_natDegree_le hk hn _ n)

/-- the distance of the square of sn from one -/
theorem complexSn_dist (θ : ℝ) {ψ : ℝ} (hc : Real.cos ψ ≠ 0) :
    normSq (1 - complexSn k θ ψ ^ 2) = ((1 - Real.sin θ ^ 2 * jacobiDelta (Real.sqrt (1 - k ^ 2)) ψ ^ 2) / complexDenominator k θ ψ) ^ 2 := by
  have hD : complexDenominator k θ ψ ≠ 0 := by rw [complexDenominator]; positivity
  have h := (C71_complex_relations hk.le θ ψ hD).1
  rw [show 1 - complexSn k θ ψ ^ 2 = complexCn k θ ψ ^ 2 by linear_combination -h, map_pow]
  congr 1
  have a1 := Real.sin_sq_add_cos_sq θ
  have a2 := Real.sin_sq_add_cos_sq ψ
  have a3 := delta_sq hk.le θ
  have a4 := delta_compl_sq hk.le ψ
  have hD' : complexDenominator k θ ψ = Real.cos ψ ^ 2 + k ^ 2 * Real.sin θ ^ 2 * Real.sin ψ ^ 2 := rfl
  rw [normSq_apply, complexCn]
  simp only []
  generalize complexDenominator k θ ψ = D at *
  generalize jacobiDelta (Real.sqrt (1 - k ^ 2)) ψ = e at *
  generalize jacobiDelta k θ = d at *
  generalize Real.sin θ = s at *
  generalize Real.cos θ = c at *
  generalize Real.sin ψ = t at *
  generalize Real.cos ψ = g at *
  have c2 : c ^ 2 = 1 - s ^ 2 := by linarith
  have g2 : g ^ 2 = 1 - t ^ 2 := by linarith
  have key : c ^ 2 * g ^ 2 + s ^ 2 * d ^ 2 * t ^ 2 * e ^ 2 = (1 - s ^ 2 * e ^ 2) * D := by
    rw [hD', c2, g2, a3, a4]; ring
  field_simp
  linear_combination key

theorem pole_sq_inj {ψ : ℝ} (hψ0 : 0 < ψ) (hψ1 : ψ < Real.pi / 2) {i j : ℕ} (hi : i < n / 2) (hj : j < n / 2)
    (h : complexSn k (poleAngle k n i) ψ ^ 2 = complexSn k (poleAngle k n j) ψ ^ 2) : i = j := by
  have hc := Real.cos_pos_of_mem_Ioo (x := ψ) ⟨by linarith [Real.pi_pos], hψ1⟩
  have h1 := complexSn_dist hk0 hk hn (poleAngle k n i) hc.ne'
  rw [h, complexSn_dist hk0 hk hn (poleAngle k n j) hc.ne'] at h1
  have hD : ∀ θ, 0 < complexDenominator k θ ψ := fun θ => by rw [complexDenominator]; positivity
  have he : jacobiDelta (Real.sqrt (1 - k ^ 2)) ψ ^ 2 ≤ 1 := by
    rw [delta_compl_sq hk.le]
    have : 0 ≤ (1 - k ^ 2) * Real.sin ψ ^ 2 := mul_nonneg (by linarith) (sq_nonneg _)
    linarith
  have hnn : ∀ θ, 0 ≤ (1 - Real.sin θ ^ 2 * jacobiDelta (Real.sqrt (1 - k ^ 2)) ψ ^ 2) / complexDenominator k θ ψ := fun θ => by
    refine div_nonneg ?_ (hD θ).le
    have := mul_le_one₀ (Real.sin_sq_le_one θ) (sq_nonneg _) he
    linarith
  have h2 := (sq_eq_sq₀ (hnn _) (hnn _)).mp h1
  rw [div_eq_div_iff (hD _).ne' (hD _).ne', complexDenominator, complexDenominator] at h2
  have h3 : (Real.sin (poleAngle k n i) ^ 2 - Real.sin (poleAngle k n j) ^ 2) *
      (k ^ 2 * Real.sin ψ ^ 2 + jacobiDelta (Real.sqrt (1 - k ^ 2)) ψ ^ 2 * Real.cos ψ ^ 2) = 0 := by
    linear_combination h2
  have hpos : 0 < k ^ 2 * Real.sin ψ ^ 2 + jacobiDelta (Real.sqrt (1 - k ^ 2)) ψ ^ 2 * Real.cos ψ ^ 2 := by
    have := delta_pos (compl_sq hk0.ne' hk).2 ψ
    positivity
  have h4 := (mul_eq_zero.mp h3).resolve_right hpos.ne'
  have h5 : grid k n (2 * i + 1 + n % 2) = grid k n (2 * j + 1 + n % 2) := by
    rw [grid, grid]
    simp only [jsn]
    rw [poleAngle, poleAngle] at h4
    linarith
  have := grid_inj hk hn (by omega) (by omega) h5
  omega

theorem cx_sub_coprime {a b : ℂ} (h : a ≠ b) : IsCoprime (X - C a : ℂ[X]) (X - C b) :=
  isCoprime_X_sub_C_of_isUnit_sub (sub_ne_zero.mpr h).isUnit

/-- the factors of the polynomial of the poles -/
theorem polePoly_factor {ψ : ℝ} (hψ0 : 0 < ψ) (hψ1 : ψ < Real.pi / 2) : ∃ L : ℂ, ∀ x : ℝ,
    (((polePoly k n ψ).eval x : ℝ) : ℂ) = L * (((x + Real.tan ψ ^ 2) ^ (n % 2) *
      ∏ j ∈ range (n / 2), normSq ((x : ℂ) - complexSn k (poleAngle k n j) ψ ^ 2) : ℝ) : ℂ) := by
  obtain ⟨S, hS⟩ : ∃ S : ℕ → ℂ, S = fun j => complexSn k (poleAngle k n j) ψ ^ 2 := ⟨_, rfl⟩
  have hc := Real.cos_pos_of_mem_Ioo (x := ψ) ⟨by linarith [Real.pi_pos], hψ1⟩
  have him : ∀ j < n / 2, 0 < (S j).im := by
    intro j hj
    obtain ⟨h0, h1⟩ := poleAngle_mem hk0 hk hn hj
    obtain ⟨a, b⟩ := complexSn_parts hk hk0.ne' h0 h1 hψ0 hψ1
    rw [hS]
    simp only [sq, mul_im]
    positivity
  have hroot : ∀ j, ((polePoly k n ψ).map ofRealHom).eval (S j) = 0 := fun j => by rw [hS]; exact polePoly_root hk0 hk hn hc.ne' j
  have hroot' : ∀ j, ((polePoly k n ψ).map ofRealHom).eval ((starRingEnd ℂ) (S j)) = 0 := fun j => by
    have h := congrArg (starRingEnd ℂ) (hroot j)
    rw [polePoly_map hk0 hk hn, map_numP hk0 hk hn, map_denP hk0 hk hn, map_zero, map_add, map_mul, _root_.map_prod, _root_.map_prod] at h
    rw [polePoly_map hk0 hk hn, map_numP hk0 hk hn, map_denP hk0 hk hn]
    simpa using h
  have hdvd : ((∏ j ∈ range (n / 2), (X - C (S j))) * (∏ j ∈ range (n / 2), (X - C ((starRingEnd ℂ) (S j))))) * (X - C ((-Real.tan ψ ^ 2 : ℝ) : ℂ)) ^ (n % 2) ∣
      (polePoly k n ψ).map ofRealHom := by
    apply IsCoprime.mul_dvd
    · apply IsCoprime.pow_right
      apply IsCoprime.mul_left
      · apply IsCoprime.prod_left
        intro j hj
        apply cx_sub_coprime hk0 hk hn
        intro h
        have := him j (mem_range.mp hj)
        rw [h, ofReal_im] at this
        exact lt_irrefl _ this
      · apply IsCoprime.prod_left
        intro j hj
        apply cx_sub_coprime hk0 hk hn
        intro h
        have := him j (mem_range.mp hj)
        have h2 := congrArg Complex.im h
        rw [conj_im, ofReal_im] at h2
        linarith
    · apply IsCoprime.mul_dvd
      · apply IsCoprime.prod_left
        intro i hi
        apply IsCoprime.prod_right
        intro j hj
        apply cx_sub_coprime hk0 hk hn
        intro h
        have h1 := him i (mem_range.mp hi)
        have h2 := him j (mem_range.mp hj)
        rw [h, conj_im] at h1
        linarith
      · apply Finset.prod_dvd_of_coprime
        · intro i hi j hj hij
          apply cx_sub_coprime hk0 hk hn
          intro h
          rw [hS] at h
          exact hij (pole_sq_inj hk0 hk hn hψ0 hψ1 (mem_range.mp (mem_coe.mp hi)) (mem_range.mp (mem_coe.mp hj)) h)
        · intro j _
          exact dvd_iff_isRoot.mpr (hroot j)
      · apply Finset.prod_dvd_of_coprime
        · intro i hi j hj hij
          apply cx_sub_coprime hk0 hk hn
          intro h
          have h' := (starRingEnd ℂ).injective h
          rw [hS] at h'
          exact hij (pole_sq_inj hk0 hk hn hψ0 hψ1 (mem_range.mp (mem_coe.mp hi)) (mem_range.mp (mem_coe.mp hj)) h')
        · intro j _
          exact dvd_iff_isRoot.mpr (hroot' j)
    · rcases Nat.mod_two_eq_zero_or_one n with h | h
      · rw [h, pow_zero]; exact one_dvd _
      · rw [h, pow_one]
        apply dvd_iff_isRoot.mpr
        have := polePoly_root_real hk0 hk hn (ψ := ψ) h
        change eval (ofRealHom (-Real.tan ψ ^ 2)) _ = 0
        rw [eval_map_apply, this, map_zero]
  obtain ⟨q, hq⟩ := hdvd
  have m1 : (∏ j ∈ range (n / 2), (X - C (S j))).Monic := monic_prod_of_monic _ _ fun _ _ => monic_X_sub_C _
  have m2 : (∏ j ∈ range (n / 2), (X - C ((starRingEnd ℂ) (S j)))).Monic := monic_prod_of_monic _ _ fun _ _ => monic_X_sub_C _
  have m3 : ((X - C ((-Real.tan ψ ^ 2 : ℝ) : ℂ)) ^ (n % 2)).Monic := (monic_X_sub_C _).pow _
  have hdeg : (((∏ j ∈ range (n / 2), (X - C (S j))) * (∏ j ∈ range (n / 2), (X - C ((starRingEnd ℂ) (S j))))) * (X - C ((-Real.tan ψ ^ 2 : ℝ) : ℂ)) ^ (n % 2)).natDegree = n := by
    rw [(m1.mul m2).natDegree_mul m3, m1.natDegree_mul m2, natDegree_prod_of_monic _ _ fun _ _ => monic_X_sub_C _,
      natDegree_prod_of_monic _ _ fun _ _ => monic_X_sub_C _, (monic_X_sub_C _).natDegree_pow]
    simp only [natDegree_X_sub_C, sum_const, card_range, smul_eq_mul, mul_one]
    omega
  have hqd : q.natDegree = 0 := by
    have h1 := (natDegree_map_le (p := polePoly k n ψ) (f := ofRealHom)).trans (polePoly_natDegree_le hk0 hk hn ψ)
    rw [hq] at h1
    by_cases h : q = 0
    · rw [h, natDegree_zero]
    · rw [((m1.mul m2).mul m3).natDegree_mul' h, hdeg] at h1
      omega
  refine ⟨q.coeff 0, fun x => ?_⟩
  have hx : (((polePoly k n ψ).eval x : ℝ) : ℂ) = ((polePoly k n ψ).map ofRealHom).eval (x : ℂ) := by
    change ofRealHom _ = eval (ofRealHom x) _
    rw [eval_map_apply]
  rw [hx, hq, eq_C_of_natDegree_eq_zero hqd]
  simp only [eval_mul, eval_pow, eval_prod, eval_sub, eval_X, eval_C, coeff_C_zero]
  rw [ofReal_mul, ofReal_prod, mul_comm, ← prod_mul_distrib]
  congr 1
  rw [mul_comm]
  congr 1
  · push_cast; ring
  · refine prod_congr rfl fun j _ => ?_
    rw [hS, ← mul_conj, map_sub, conj_ofReal]

/-- the zeros -/
theorem rD_eval (x : ℝ) : (rD k n).eval x = ∏ j ∈ range (n / 2), (1 - (k * Real.sin (poleAngle k n j)) ^ 2 * x) ^ 2 := by
  have hg : ∀ j, (k * Real.sin (poleAngle k n j)) ^ 2 = k ^ 2 * grid k n (2 * j + 1 + n % 2) := fun j => by
    rw [mul_pow, grid, jsn, poleAngle]
  simp only [hg]
  rw [prod_pow]
  rcases Nat.mod_two_eq_zero_or_one n with h | h
  · rw [(rN_even h).2, dO_split hk hn, h, pow_zero, mul_one, eval_pow, eval_prod]
    simp
  · rw [(rN_odd h).2, dE_split hk hn, h, show (n - 1) % 2 = 0 by omega, pow_zero, mul_one, eval_pow, eval_prod, show (n - 1) / 2 = n / 2 by omega]
    simp

/-- the response, in terms of the rational function -/
theorem shape_exact {ψ : ℝ} (hψ0 : 0 < ψ) (hψ1 : ψ < Real.pi / 2) (x : ℝ) :
    ellipticShape k n (poleAngle k n) ψ x = (rD k n).eval x * (polePoly k n ψ).eval 0 / (polePoly k n ψ).eval x := by
  obtain ⟨L, hL⟩ := polePoly_factor hk0 hk hn hψ0 hψ1
  have ht : 0 < Real.tan ψ := Real.tan_pos_of_pos_of_lt_pi_div_two hψ0 hψ1
  have hS : ∀ j ∈ range (n / 2), complexSn k (poleAngle k n j) ψ ≠ 0 := fun j hj h => by
    obtain ⟨h0, h1⟩ := poleAngle_mem hk0 hk hn (mem_range.mp hj)
    have := (complexSn_parts hk hk0.ne' h0 h1 hψ0 hψ1).1
    rw [h] at this
    simp at this
  have hA := gridA_pos hk hn
  have hy := poleLevel_pos hk0 hk hn hψ0 hψ1
  have h0 : 0 < (polePoly k n ψ).eval 0 := by
    rw [polePoly_zero hk0 hk hn]
    split_ifs <;> positivity
  obtain ⟨a, ha⟩ : ∃ a, a = ∏ j ∈ range (n / 2), normSq (complexSn k (poleAngle k n j) ψ ^ 2) := ⟨_, rfl⟩
  have ha0 : a ≠ 0 := by
    rw [ha]
    refine prod_ne_zero_iff.mpr fun j hj => ?_
    rw [Ne, normSq_eq_zero]
    exact pow_ne_zero 2 (hS j hj)
  obtain ⟨c, hc⟩ : ∃ c, c = (Real.tan ψ ^ 2) ^ (n % 2) := ⟨_, rfl⟩
  have hc0 : c ≠ 0 := by rw [hc]; positivity
  have hL0 := hL 0
  rw [ofReal_zero] at hL0
  simp only [zero_sub, normSq_neg, zero_add] at hL0
  rw [← ha, ← hc] at hL0
  have hLx := hL x
  have e2 : ∏ j ∈ range (n / 2), normSq ((x : ℂ) - complexSn k (poleAngle k n j) ψ ^ 2) =
      (∏ j ∈ range (n / 2), normSq (1 - (x : ℂ) / complexSn k (poleAngle k n j) ψ ^ 2)) * a := by
    rw [ha, ← prod_mul_distrib]
    refine prod_congr rfl fun j hj => ?_
    rw [← normSq_mul]
    have hne : complexSn k (poleAngle k n j) ψ ^ 2 ≠ 0 := pow_ne_zero 2 (hS j hj)
    rw [sub_mul, div_mul_cancel₀ _ hne, one_mul, ← normSq_neg, neg_sub]
  have e3 : x + Real.tan ψ ^ 2 = (1 + x / Real.tan ψ ^ 2) * Real.tan ψ ^ 2 := by field_simp; ring
  rw [e2, e3, mul_pow, ← hc] at hLx
  rw [ellipticShape, ← rD_eval hk0 hk hn]
  generalize ∏ j ∈ range (n / 2), normSq (1 - (x : ℂ) / complexSn k (poleAngle k n j) ψ ^ 2) = g at *
  generalize (1 + x / Real.tan ψ ^ 2) ^ (n % 2) = f at *
  have hx : (polePoly k n ψ).eval x = (polePoly k n ψ).eval 0 * (f * g) := by
    have hcc : ((c * a : ℝ) : ℂ) ≠ 0 := by exact_mod_cast mul_ne_zero hc0 ha0
    have hL' : L = (((polePoly k n ψ).eval 0 : ℝ) : ℂ) / ((c * a : ℝ) : ℂ) := by rw [eq_div_iff hcc, hL0]
    rw [hL', div_mul_eq_mul_div, eq_div_iff hcc, ← ofReal_mul, ← ofReal_mul] at hLx
    have h := ofReal_injective hLx
    apply mul_right_cancel₀ (mul_ne_zero hc0 ha0)
    linear_combination h
  rw [hx, mul_comm ((rD k n).eval x), mul_div_mul_left _ _ h0.ne']

end
end Verif
