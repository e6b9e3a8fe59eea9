import Verif.Lemmas.Realizations
import Mathlib.Analysis.Complex.Polynomial.Basic
import Mathlib.Analysis.Normed.Field.Basic
import Mathlib.RingTheory.PowerSeries.Inverse

/-!
Recursive filters with all poles in the unit disk: gain, transients and steady state.
-/

set_option linter.unusedVariables false
set_option linter.unusedSimpArgs false
set_option linter.unusedSectionVars false

namespace Verif.Stab
open Finset

/-- one pole: `y n = p y (n-1) + u n` -/
noncomputable def G (p : ℂ) (u : ℕ → ℂ) : ℕ → ℂ
  | 0 => u 0
  | n + 1 => p * G p u n + u (n + 1)

/-- several poles -/
noncomputable def Gs (ps : List ℂ) (u : ℕ → ℂ) : ℕ → ℂ := ps.foldr G u

theorem G_series (p : ℂ) (u : ℕ → ℂ) : (1 - PowerSeries.C p * PowerSeries.X) * PowerSeries.mk (G p u) = PowerSeries.mk u := by
  ext n
  rw [sub_mul, one_mul, mul_assoc, map_sub, PowerSeries.coeff_C_mul]
  cases n with
  | zero => simp [G]
  | succ n => rw [PowerSeries.coeff_succ_X_mul]; simp [G]

theorem Gs_series (ps : List ℂ) (u : ℕ → ℂ) :
    (ps.map fun p => (1 - PowerSeries.C p * PowerSeries.X : PowerSeries ℂ)).prod * PowerSeries.mk (Gs ps u) = PowerSeries.mk u := by
  induction ps with
  | nil => simp [Gs]
  | cons p ps ih =>
    rw [List.map_cons, List.prod_cons]
    have : Gs (p :: ps) u = G p (Gs ps u) := rfl
    rw [this, mul_comm (1 - _) _, mul_assoc, G_series, ih]

theorem Gs_sub (ps : List ℂ) (u v : ℕ → ℂ) (n : ℕ) : Gs ps (fun n => u n - v n) n = Gs ps u n - Gs ps v n := by
  induction ps generalizing n with
  | nil => rfl
  | cons p ps ih =>
    show G p (Gs ps _) n = G p (Gs ps u) n - G p (Gs ps v) n
    induction n with
    | zero => simp only [G]; exact ih 0
    | succ n ihn =>
      simp only [G]
      rw [ihn, ih]
      ring

theorem Gs_bounded (ps : List ℂ) (hp : ∀ p ∈ ps, ‖p‖ < 1) : ∃ M : ℝ, 0 ≤ M ∧ ∀ (u : ℕ → ℂ) (B : ℝ), (∀ n, ‖u n‖ ≤ B) →
    ∀ n, ‖Gs ps u n‖ ≤ M * B := by
  induction ps with
  | nil => exact ⟨1, by norm_num, fun u B h n => by simpa [Gs] using h n⟩
  | cons p ps ih =>
    obtain ⟨M, hM, h⟩ := ih fun q hq => hp q (List.mem_cons_of_mem _ hq)
    have hp1 : ‖p‖ < 1 := hp p (List.mem_cons_self ..)
    have hpos : 0 < 1 - ‖p‖ := by linarith
    refine ⟨M / (1 - ‖p‖), by positivity, fun u B hu n => ?_⟩
    have hv := h u B hu
    have hB : 0 ≤ M * B := le_trans (norm_nonneg _) (hv 0)
    show ‖G p (Gs ps u) n‖ ≤ _
    have e : M / (1 - ‖p‖) * B * (1 - ‖p‖) = M * B := by field_simp
    generalize M / (1 - ‖p‖) * B = T at e ⊢
    have hT : 0 ≤ T := by
      by_contra hneg
      push Not at hneg
      nlinarith
    induction n with
    | zero =>
      simp only [G]
      have := hv 0
      nlinarith [norm_nonneg p]
    | succ n ihn =>
      simp only [G]
      have h1 := norm_add_le (p * G p (Gs ps u) n) (Gs ps u (n + 1))
      rw [norm_mul] at h1
      have h2 := mul_le_mul_of_nonneg_left ihn (norm_nonneg p)
      have := hv (n + 1)
      nlinarith

/-- the value at `1/z` of `1/∏ (1 - p t)` -/
noncomputable def gain (ps : List ℂ) (z : ℂ) : ℂ := (ps.map fun p => z / (z - p)).prod

theorem Gs_near (ps : List ℂ) (r : ℝ) (hr0 : 0 < r) (hr : r < 1) (hp : ∀ p ∈ ps, ‖p‖ < r) : ∃ M : ℝ, 0 ≤ M ∧
    ∀ (u : ℕ → ℂ) (z c : ℂ) (D : ℝ), ‖z‖ = 1 → (∀ n, ‖u n - c * z ^ n‖ ≤ D * r ^ n) →
      ‖c * gain ps z‖ ≤ M * ‖c‖ ∧ ∀ n, ‖Gs ps u n - c * gain ps z * z ^ n‖ ≤ M * (‖c‖ + D) * r ^ n := by
  induction ps with
  | nil =>
    refine ⟨1, by norm_num, fun u z c D hz h => ⟨by simp [gain], fun n => ?_⟩⟩
    simp only [Gs, gain, List.foldr_nil, List.map_nil, List.prod_nil, mul_one, one_mul]
    refine (h n).trans ?_
    have := pow_pos hr0 n
    nlinarith [norm_nonneg c]
  | cons p ps ih =>
    obtain ⟨M, hM, h⟩ := ih fun q hq => hp q (List.mem_cons_of_mem _ hq)
    have hp1 : ‖p‖ < r := hp p (List.mem_cons_self ..)
    have hpos : 0 < 1 - ‖p‖ := by linarith
    have hpos' : 0 < r - ‖p‖ := by linarith
    -- the constant
    obtain ⟨N, hN⟩ : ∃ N : ℝ, N = M / (1 - ‖p‖) + (M + M / (1 - ‖p‖)) * r / (r - ‖p‖) := ⟨_, rfl⟩
    have hN1 : M / (1 - ‖p‖) ≤ N := by
      rw [hN]
      have : 0 ≤ (M + M / (1 - ‖p‖)) * r / (r - ‖p‖) := by positivity
      linarith
    have hN2 : (M + M / (1 - ‖p‖)) * r ≤ N * (r - ‖p‖) := by
      have e : (M + M / (1 - ‖p‖)) * r / (r - ‖p‖) * (r - ‖p‖) = (M + M / (1 - ‖p‖)) * r := div_mul_cancel₀ _ hpos'.ne'
      have : 0 ≤ M / (1 - ‖p‖) * (r - ‖p‖) := by positivity
      rw [hN, add_mul (M / (1 - ‖p‖)), e]
      linarith
    refine ⟨N, by rw [hN]; positivity, fun u z c D hz hu => ?_⟩
    obtain ⟨h1, h2⟩ := h u z c D hz hu
    have hD : 0 ≤ D := by
      have := (norm_nonneg _).trans (hu 0)
      simpa using this
    have hzp : 1 - ‖p‖ ≤ ‖z - p‖ := by
      have := norm_sub_norm_le z p
      rw [hz] at this
      exact this
    have hzp0 : z - p ≠ 0 := norm_pos_iff.1 (by linarith)
    have e1 : gain (p :: ps) z = z / (z - p) * gain ps z := by simp [gain]
    have hq : ‖z / (z - p)‖ ≤ 1 / (1 - ‖p‖) := by
      rw [norm_div, hz]
      exact one_div_le_one_div_of_le hpos hzp
    have hcg : ‖c * gain (p :: ps) z‖ ≤ M / (1 - ‖p‖) * ‖c‖ := by
      rw [e1, show c * (z / (z - p) * gain ps z) = z / (z - p) * (c * gain ps z) by ring, norm_mul]
      calc _ ≤ 1 / (1 - ‖p‖) * (M * ‖c‖) := mul_le_mul hq h1 (norm_nonneg _) (by positivity)
        _ = _ := by ring
    refine ⟨hcg.trans (mul_le_mul_of_nonneg_right hN1 (norm_nonneg _)), ?_⟩
    show ∀ n, ‖G p (Gs ps u) n - _‖ ≤ _
    have hz0 : z ≠ 0 := norm_pos_iff.1 (by rw [hz]; norm_num)
    obtain ⟨c', hc'⟩ : ∃ c', c' = c * gain (p :: ps) z := ⟨_, rfl⟩
    have ec : c * gain ps z = c' * (1 - p / z) := by
      rw [hc', e1]
      field_simp
    rw [← hc'] at hcg ⊢
    have hS : 0 ≤ ‖c‖ + D := by positivity
    intro n
    induction n with
    | zero =>
      simp only [G, pow_zero, mul_one]
      have a := h2 0
      simp only [pow_zero, mul_one] at a
      have b : Gs ps u 0 - c' = (Gs ps u 0 - c * gain ps z) - c' * (p / z) := by rw [ec]; ring
      rw [b]
      have d := norm_sub_le (Gs ps u 0 - c * gain ps z) (c' * (p / z))
      rw [norm_mul, norm_div, hz, div_one] at d
      have f : ‖c'‖ * ‖p‖ ≤ M / (1 - ‖p‖) * ‖c‖ * r := mul_le_mul hcg hp1.le (norm_nonneg _) (by positivity)
      have k1 : 0 ≤ M / (1 - ‖p‖) := by positivity
      have k2 : M + M / (1 - ‖p‖) * r ≤ N := by
        have : N * (r - ‖p‖) ≤ N * r := by
          have hNn : 0 ≤ N := k1.trans hN1
          nlinarith [norm_nonneg p]
        have h3 : (M + M / (1 - ‖p‖)) * r ≤ N * r := hN2.trans this
        have h4 : M + M / (1 - ‖p‖) ≤ N := le_of_mul_le_mul_right h3 hr0
        nlinarith
      have k3 := mul_le_mul_of_nonneg_right k2 hS
      have k4 : M / (1 - ‖p‖) * ‖c‖ * r ≤ M / (1 - ‖p‖) * r * (‖c‖ + D) := by
        have : 0 ≤ M / (1 - ‖p‖) * r * D := by positivity
        nlinarith
      linarith
    | succ n ihn =>
      simp only [G]
      have a := h2 (n + 1)
      have b : p * G p (Gs ps u) n + Gs ps u (n + 1) - c' * z ^ (n + 1) =
          p * (G p (Gs ps u) n - c' * z ^ n) + (Gs ps u (n + 1) - c * gain ps z * z ^ (n + 1)) := by
        rw [ec, pow_succ]
        field_simp
        ring
      rw [b]
      have d := norm_add_le (p * (G p (Gs ps u) n - c' * z ^ n)) (Gs ps u (n + 1) - c * gain ps z * z ^ (n + 1))
      rw [norm_mul] at d
      have f := mul_le_mul_of_nonneg_left ihn (norm_nonneg p)
      refine d.trans ((add_le_add f a).trans ?_)
      have k1 : 0 ≤ M / (1 - ‖p‖) := by positivity
      have k2 : ‖p‖ * N + M * r ≤ N * r := by nlinarith
      have k3 := mul_le_mul_of_nonneg_right (mul_le_mul_of_nonneg_right k2 hS) (pow_pos hr0 n).le
      rw [pow_succ]
      nlinarith

/-- coefficients of the numerator applied to a signal -/
noncomputable def numer (b : List ℝ) (X : ℕ → ℂ) (n : ℕ) : ℂ :=
  ∑ k ∈ range b.length, ((sig b (b.length - 1 - k) : ℝ) : ℂ) * (if k ≤ n then X (n - k) else 0)

/-- the value at `1/z` of the reversed coefficient list: `z^(1 - length) * b(z)` -/
noncomputable def revVal (b : List ℝ) (z : ℂ) : ℂ := ∑ k ∈ range b.length, ((sig b (b.length - 1 - k) : ℝ) : ℂ) * z⁻¹ ^ k

noncomputable def size1 (b : List ℝ) : ℝ := ∑ k ∈ range b.length, |sig b (b.length - 1 - k)|

theorem size1_nonneg (b : List ℝ) : 0 ≤ size1 b := sum_nonneg fun _ _ => abs_nonneg _

theorem revVal_eq (b : List ℝ) {z : ℂ} (hz : z ≠ 0) : z ^ (b.length - 1) * revVal b z = polyEval Complex.ofReal b z := by
  have h := polyEval_sum z b
  rw [show (algebraMap ℝ ℂ : ℝ → ℂ) = Complex.ofReal from rfl] at h
  rw [h, revVal, mul_sum, ← sum_range_reflect (fun i => ((sig b i : ℝ) : ℂ) * z ^ i)]
  refine sum_congr rfl fun k hk => ?_
  have hk := mem_range.1 hk
  rw [mul_left_comm, inv_pow]
  congr 1
  rw [← div_eq_mul_inv, div_eq_iff (pow_ne_zero _ hz), ← pow_add]
  congr 1
  omega

theorem numer_bounded (b : List ℝ) (X : ℕ → ℂ) (B : ℝ) (h : ∀ n, ‖X n‖ ≤ B) (n : ℕ) : ‖numer b X n‖ ≤ size1 b * B := by
  have hB : 0 ≤ B := (norm_nonneg _).trans (h 0)
  unfold numer size1
  rw [sum_mul]
  refine (norm_sum_le _ _).trans (sum_le_sum fun k _ => ?_)
  rw [norm_mul, Complex.norm_real, Real.norm_eq_abs]
  refine mul_le_mul_of_nonneg_left ?_ (abs_nonneg _)
  split
  · exact h _
  · simpa using hB

theorem numer_zero (b : List ℝ) (X : ℕ → ℂ) (m : ℕ) (h : ∀ n, m ≤ n → X n = 0) (n : ℕ) (hn : m + b.length ≤ n) : numer b X n = 0 := by
  unfold numer
  refine sum_eq_zero fun k hk => ?_
  have hk := mem_range.1 hk
  rw [if_pos (by omega), h _ (by omega), mul_zero]

theorem numer_sub (b : List ℝ) (X Y : ℕ → ℂ) (n : ℕ) : numer b (fun n => X n - Y n) n = numer b X n - numer b Y n := by
  unfold numer
  rw [← sum_sub_distrib]
  refine sum_congr rfl fun k _ => ?_
  split <;> ring

theorem numer_near (b : List ℝ) (r : ℝ) (hr0 : 0 < r) (hr : r < 1) (c z : ℂ) (hz : ‖z‖ = 1) (n : ℕ) :
    ‖numer b (fun n => c * z ^ n) n - c * revVal b z * z ^ n‖ ≤ ‖c‖ * (size1 b * r⁻¹ ^ b.length) * r ^ n := by
  have hz0 : z ≠ 0 := norm_pos_iff.1 (by rw [hz]; norm_num)
  have e : numer b (fun n => c * z ^ n) n - c * revVal b z * z ^ n =
      ∑ k ∈ range b.length, ((sig b (b.length - 1 - k) : ℝ) : ℂ) * (if k ≤ n then 0 else -(c * z⁻¹ ^ k * z ^ n)) := by
    unfold numer revVal
    rw [mul_sum, sum_mul, ← sum_sub_distrib]
    refine sum_congr rfl fun k _ => ?_
    split
    · rename_i h
      rw [mul_zero, sub_eq_zero, inv_pow]
      rw [show z ^ n = z ^ (n - k) * z ^ k by rw [← pow_add]; congr 1; omega]
      field_simp
    · ring
  rw [e]
  rcases Nat.lt_or_ge n b.length with h | h
  · have h1 : ‖∑ k ∈ range b.length, ((sig b (b.length - 1 - k) : ℝ) : ℂ) * (if k ≤ n then 0 else -(c * z⁻¹ ^ k * z ^ n))‖ ≤
        size1 b * ‖c‖ := by
      unfold size1
      rw [sum_mul]
      refine (norm_sum_le _ _).trans (sum_le_sum fun k _ => ?_)
      rw [norm_mul, Complex.norm_real, Real.norm_eq_abs]
      refine mul_le_mul_of_nonneg_left ?_ (abs_nonneg _)
      split
      · simp
      · rw [norm_neg, norm_mul, norm_mul, norm_pow, norm_pow, norm_inv, hz]
        simp
    refine h1.trans ?_
    have h2 : 1 ≤ r⁻¹ ^ b.length * r ^ n := by
      rw [inv_pow, ← div_eq_inv_mul, one_le_div (by positivity)]
      exact pow_le_pow_of_le_one hr0.le hr.le h.le
    have h3 := mul_le_mul_of_nonneg_left h2 (mul_nonneg (size1_nonneg b) (norm_nonneg c))
    linarith
  · rw [sum_eq_zero]
    · simp only [norm_zero]
      have := size1_nonneg b
      positivity
    · intro k hk
      have := mem_range.1 hk
      rw [if_pos (by omega), mul_zero]

/-! ### the difference equation -/

/-- the complex roots of the denominator -/
structure Factored (a : List ℝ) (lead : ℝ) (ps : List ℂ) : Prop where
  lead_ne : lead ≠ 0
  value : ∀ z : ℂ, polyEval Complex.ofReal a z = lead * (ps.map fun p => z - p).prod
  length : a.length = ps.length + 1

theorem exists_factored (a : List ℝ) (h : sig a (a.length - 1) ≠ 0) : ∃ ps, Factored a (sig a (a.length - 1)) ps := by
  have hpos : 0 < a.length := by
    rcases Nat.eq_zero_or_pos a.length with h0 | h0
    · rw [List.length_eq_zero_iff] at h0
      subst h0
      simp [sig] at h
    · exact h0
  obtain ⟨P, hP⟩ : ∃ P : Polynomial ℂ, P = ∑ i ∈ range a.length, Polynomial.C ((sig a i : ℝ) : ℂ) * Polynomial.X ^ i := ⟨_, rfl⟩
  have hc : ∀ i, P.coeff i = if i < a.length then ((sig a i : ℝ) : ℂ) else 0 := by
    intro i
    rw [hP, Polynomial.finsetSum_coeff]
    simp only [Polynomial.coeff_C_mul, Polynomial.coeff_X_pow, mul_ite, mul_one, mul_zero]
    rw [sum_ite_eq]
    simp [mem_range]
  have hdeg : P.natDegree = a.length - 1 := by
    apply le_antisymm
    · rw [Polynomial.natDegree_le_iff_coeff_eq_zero]
      intro N hN
      rw [hc, if_neg (by omega)]
    · apply Polynomial.le_natDegree_of_ne_zero
      rw [hc, if_pos (by omega)]
      exact_mod_cast h
  have hlead : P.leadingCoeff = ((sig a (a.length - 1) : ℝ) : ℂ) := by
    rw [Polynomial.leadingCoeff, hdeg, hc, if_pos (by omega)]
  have hsp := IsAlgClosed.splits P
  refine ⟨P.roots.toList, h, fun z => ?_, ?_⟩
  · have h1 : polyEval Complex.ofReal a z = P.eval z := by
      have h2 := polyEval_sum z a
      rw [show (algebraMap ℝ ℂ : ℝ → ℂ) = Complex.ofReal from rfl] at h2
      rw [h2, hP, Polynomial.eval_finsetSum]
      simp
    rw [h1]
    conv_lhs => rw [hsp.eq_prod_roots]
    rw [hlead, Polynomial.eval_mul, Polynomial.eval_C, Polynomial.eval_multiset_prod, Multiset.map_map]
    congr 1
    rw [← Multiset.prod_coe, ← Multiset.map_coe, Multiset.coe_toList]
    congr 1
    refine Multiset.map_congr rfl fun p _ => by simp
  · rw [Multiset.length_toList, ← hsp.natDegree_eq_card_roots, hdeg]
    omega

theorem revP_map (a : List ℝ) : ((revP a).map Complex.ofRealHom : Polynomial ℂ) =
    ∑ k ∈ range a.length, Polynomial.C ((sig a (a.length - 1 - k) : ℝ) : ℂ) * Polynomial.X ^ k := by
  unfold revP
  rw [Polynomial.map_sum]
  refine sum_congr rfl fun k _ => by simp

theorem revP_factor {a : List ℝ} {lead : ℝ} {ps : List ℂ} (h : Factored a lead ps) :
    ((revP a).map Complex.ofRealHom : Polynomial ℂ) =
      Polynomial.C (lead : ℂ) * (ps.map fun p => (1 - Polynomial.C p * Polynomial.X : Polynomial ℂ)).prod := by
  refine Polynomial.eq_of_infinite_eval_eq _ _ ?_
  refine Set.Infinite.mono (s := {t : ℂ | t ≠ 0}) ?_ ?_
  · intro t ht
    have ht : t ≠ 0 := ht
    show Polynomial.eval t _ = Polynomial.eval t _
    have hv := revVal_eq a (z := t⁻¹) (inv_ne_zero ht)
    rw [h.value] at hv
    have e1 : Polynomial.eval t ((revP a).map Complex.ofRealHom) = revVal a t⁻¹ := by
      rw [revP_map, Polynomial.eval_finsetSum, revVal]
      simp
    have e2 : Polynomial.eval t ((ps.map fun p => (1 - Polynomial.C p * Polynomial.X : Polynomial ℂ)).prod) =
        t ^ ps.length * (ps.map fun p => t⁻¹ - p).prod := by
      rw [Polynomial.eval_list_prod, List.map_map]
      clear hv h e1
      induction ps with
      | nil => simp
      | cons p ps ih =>
        simp only [List.map_cons, List.prod_cons, List.length_cons, Function.comp] at ih ⊢
        rw [ih, pow_succ]
        simp only [Polynomial.eval_sub, Polynomial.eval_one, Polynomial.eval_mul, Polynomial.eval_C, Polynomial.eval_X]
        field_simp
    rw [e1, Polynomial.eval_mul, Polynomial.eval_C, e2]
    have hl : a.length - 1 = ps.length := by rw [h.length]; omega
    rw [hl, inv_pow] at hv
    have : revVal a t⁻¹ = t ^ ps.length * ((t ^ ps.length)⁻¹ * revVal a t⁻¹) := by
      rw [← mul_assoc, mul_inv_cancel₀ (pow_ne_zero _ ht), one_mul]
    rw [this, hv]
    ring
  · have : {t : ℂ | t ≠ 0} = ({0} : Set ℂ)ᶜ := rfl
    rw [this]
    exact (Set.finite_singleton (0 : ℂ)).infinite_compl

/-- the response of the filter to a complex sequence -/
noncomputable def resp (b : List ℝ) (lead : ℝ) (ps : List ℂ) (X : ℕ → ℂ) (n : ℕ) : ℂ := Gs ps (fun n => numer b X n / lead) n

theorem numer_series (b : List ℝ) (X : ℕ → ℂ) :
    (((revP b).map Complex.ofRealHom : Polynomial ℂ) : PowerSeries ℂ) * PowerSeries.mk X = PowerSeries.mk (numer b X) := by
  ext n
  have : (((revP b).map Complex.ofRealHom : Polynomial ℂ) : PowerSeries ℂ) =
      ∑ k ∈ range b.length, PowerSeries.C ((sig b (b.length - 1 - k) : ℝ) : ℂ) * PowerSeries.X ^ k := by
    rw [revP_map, ← Polynomial.coeToPowerSeries.ringHom_apply, map_sum]
    refine sum_congr rfl fun k _ => by simp
  rw [this, sum_mul, map_sum, PowerSeries.coeff_mk, numer]
  refine sum_congr rfl fun k _ => ?_
  rw [mul_assoc, PowerSeries.coeff_C_mul, PowerSeries.coeff_X_pow_mul']
  simp only [PowerSeries.coeff_mk]

theorem coe_prod (ps : List ℂ) : (((ps.map fun p => (1 - Polynomial.C p * Polynomial.X : Polynomial ℂ)).prod : Polynomial ℂ) : PowerSeries ℂ) =
    (ps.map fun p => (1 - PowerSeries.C p * PowerSeries.X : PowerSeries ℂ)).prod := by
  induction ps with
  | nil => simp
  | cons p ps ih =>
    simp only [List.map_cons, List.prod_cons, Polynomial.coe_mul, ih, Polynomial.coe_sub, Polynomial.coe_one, Polynomial.coe_C,
      Polynomial.coe_X]

theorem resp_series (b : List ℝ) {a : List ℝ} {lead : ℝ} {ps : List ℂ} (h : Factored a lead ps) (X : ℕ → ℂ) :
    (((revP a).map Complex.ofRealHom : Polynomial ℂ) : PowerSeries ℂ) * PowerSeries.mk (resp b lead ps X) =
      (((revP b).map Complex.ofRealHom : Polynomial ℂ) : PowerSeries ℂ) * PowerSeries.mk X := by
  rw [numer_series b, revP_factor h, Polynomial.coe_mul, coe_prod, Polynomial.coe_C, mul_assoc]
  have : PowerSeries.mk (resp b lead ps X) = PowerSeries.mk (Gs ps (fun n => numer b X n / lead)) := rfl
  rw [this, Gs_series]
  ext n
  rw [PowerSeries.coeff_C_mul, PowerSeries.coeff_mk, PowerSeries.coeff_mk]
  have : (lead : ℂ) ≠ 0 := by exact_mod_cast h.lead_ne
  field_simp

/-- A response of the difference equation is `resp` of its input, continued in any way. -/
theorem resp_eq {b a x y : List ℝ} {lead : ℝ} {ps : List ℂ} (h : Factored a lead ps) (hr : IsResponse b a x y) (X : ℕ → ℂ)
    (hX : ∀ n, n < x.length → X n = ((sig x n : ℝ) : ℂ)) (n : ℕ) (hn : n < x.length) :
    ((sig y n : ℝ) : ℂ) = resp b lead ps X n := by
  obtain ⟨hl, hd⟩ := (isResponse_iff b a x y).1 hr
  have hd' := map_dvd (PowerSeries.map Complex.ofRealHom) hd
  rw [map_pow, PowerSeries.map_X, map_sub, map_mul, map_mul] at hd'
  obtain ⟨A, hA⟩ : ∃ A : PowerSeries ℂ, A = (((revP a).map Complex.ofRealHom : Polynomial ℂ) : PowerSeries ℂ) := ⟨_, rfl⟩
  obtain ⟨B, hB⟩ : ∃ B : PowerSeries ℂ, B = (((revP b).map Complex.ofRealHom : Polynomial ℂ) : PowerSeries ℂ) := ⟨_, rfl⟩
  have eA : PowerSeries.map Complex.ofRealHom (revP a : PowerSeries ℝ) = A := by rw [hA, Polynomial.polynomial_map_coe]
  have eB : PowerSeries.map Complex.ofRealHom (revP b : PowerSeries ℝ) = B := by rw [hB, Polynomial.polynomial_map_coe]
  rw [eA, eB] at hd'
  have hs := resp_series b h X
  rw [← hA, ← hB] at hs
  have hx : (PowerSeries.X : PowerSeries ℂ) ^ x.length ∣ PowerSeries.map Complex.ofRealHom (ser x) - PowerSeries.mk X := by
    rw [PowerSeries.X_pow_dvd_iff]
    intro m hm
    simp [ser, hX m hm]
  have h1 : (PowerSeries.X : PowerSeries ℂ) ^ x.length ∣
      A * (PowerSeries.map Complex.ofRealHom (ser y) - PowerSeries.mk (resp b lead ps X)) := by
    have : A * (PowerSeries.map Complex.ofRealHom (ser y) - PowerSeries.mk (resp b lead ps X)) =
        (A * PowerSeries.map Complex.ofRealHom (ser y) - B * PowerSeries.map Complex.ofRealHom (ser x)) +
          B * (PowerSeries.map Complex.ofRealHom (ser x) - PowerSeries.mk X) := by
      rw [mul_sub, hs]; ring
    rw [this]
    exact dvd_add hd' (hx.mul_left B)
  have hu : IsUnit A := by
    rw [PowerSeries.isUnit_iff_constantCoeff, hA, revP_factor h, Polynomial.coe_mul, coe_prod, map_mul, map_list_prod, List.map_map]
    have : (List.map ((PowerSeries.constantCoeff : PowerSeries ℂ →+* ℂ) ∘ fun p => (1 - PowerSeries.C p * PowerSeries.X : PowerSeries ℂ)) ps).prod = 1 := by
      rw [List.prod_eq_one]
      intro v hv
      obtain ⟨p, -, rfl⟩ := List.mem_map.1 hv
      simp
    rw [this, mul_one]
    have : (lead : ℂ) ≠ 0 := by exact_mod_cast h.lead_ne
    simpa using this
  rw [hu.dvd_mul_left, PowerSeries.X_pow_dvd_iff] at h1
  have := h1 n hn
  rw [map_sub, sub_eq_zero, PowerSeries.coeff_mk] at this
  rw [← this]
  simp [ser]

end Verif.Stab

namespace Verif.Stab
open Finset

theorem resp_sub (b : List ℝ) (lead : ℝ) (ps : List ℂ) (X Y : ℕ → ℂ) (n : ℕ) :
    resp b lead ps (fun n => X n - Y n) n = resp b lead ps X n - resp b lead ps Y n := by
  unfold resp
  rw [← Gs_sub]
  congr 1
  funext m
  rw [numer_sub, sub_div]

theorem exists_radius (ps : List ℂ) (hp : ∀ p ∈ ps, ‖p‖ < 1) : ∃ r : ℝ, 0 < r ∧ r < 1 ∧ ∀ p ∈ ps, ‖p‖ < r := by
  induction ps with
  | nil => exact ⟨1 / 2, by norm_num, by norm_num, by simp⟩
  | cons p ps ih =>
    obtain ⟨r, h0, h1, h2⟩ := ih fun q hq => hp q (List.mem_cons_of_mem _ hq)
    have hp1 := hp p (List.mem_cons_self ..)
    refine ⟨max r ((‖p‖ + 1) / 2), lt_max_of_lt_left h0, max_lt h1 (by linarith), ?_⟩
    intro q hq
    rcases List.mem_cons.1 hq with rfl | hq
    · exact lt_max_of_lt_right (by linarith)
    · exact lt_max_of_lt_left (h2 q hq)

theorem resp_bounded (b : List ℝ) (lead : ℝ) (ps : List ℂ) (hp : ∀ p ∈ ps, ‖p‖ < 1) : ∃ M : ℝ, 0 ≤ M ∧ ∀ (X : ℕ → ℂ) (B : ℝ),
    (∀ n, ‖X n‖ ≤ B) → ∀ n, ‖resp b lead ps X n‖ ≤ M * B := by
  obtain ⟨M, hM, h⟩ := Gs_bounded ps hp
  have hs := size1_nonneg b
  refine ⟨M * (size1 b / |lead|), by positivity, fun X B hX n => ?_⟩
  have := h (fun n => numer b X n / lead) (size1 b / |lead| * B) (fun m => ?_) n
  · unfold resp
    rw [mul_assoc]
    exact this
  · rw [norm_div, Complex.norm_real, Real.norm_eq_abs, div_mul_eq_mul_div]
    exact div_le_div_of_nonneg_right (numer_bounded b X B hX m) (abs_nonneg _)

theorem revVal_bounded (b : List ℝ) {z : ℂ} (hz : ‖z‖ = 1) : ‖revVal b z‖ ≤ size1 b := by
  unfold revVal size1
  refine (norm_sum_le _ _).trans (sum_le_sum fun k _ => ?_)
  rw [norm_mul, Complex.norm_real, Real.norm_eq_abs, norm_pow, norm_inv, hz]
  simp

theorem resp_near (b : List ℝ) (lead : ℝ) (ps : List ℂ) (r : ℝ) (hr0 : 0 < r) (hr : r < 1) (hp : ∀ p ∈ ps, ‖p‖ < r) : ∃ M : ℝ, 0 ≤ M ∧
    ∀ (z c : ℂ), ‖z‖ = 1 → ∀ n, ‖resp b lead ps (fun n => c * z ^ n) n - c * (revVal b z / lead * gain ps z) * z ^ n‖ ≤ M * ‖c‖ * r ^ n := by
  obtain ⟨M, hM, h⟩ := Gs_near ps r hr0 hr hp
  have hs := size1_nonneg b
  refine ⟨M * (size1 b / |lead| + size1 b * r⁻¹ ^ b.length / |lead|), by positivity, fun z c hz n => ?_⟩
  have key := (h (fun n => numer b (fun n => c * z ^ n) n / lead) z (c * revVal b z / lead) (‖c‖ * (size1 b * r⁻¹ ^ b.length) / |lead|) hz ?_).2 n
  · unfold resp
    have e : c * (revVal b z / lead * gain ps z) = c * revVal b z / lead * gain ps z := by ring
    rw [e]
    refine key.trans (mul_le_mul_of_nonneg_right ?_ (pow_nonneg hr0.le n))
    rw [mul_assoc M]
    refine mul_le_mul_of_nonneg_left ?_ hM
    rw [norm_div, norm_mul, Complex.norm_real, Real.norm_eq_abs]
    have h1 : ‖c‖ * ‖revVal b z‖ / |lead| ≤ ‖c‖ * size1 b / |lead| :=
      div_le_div_of_nonneg_right (mul_le_mul_of_nonneg_left (revVal_bounded b hz) (norm_nonneg c)) (abs_nonneg _)
    refine (add_le_add_left h1 _).trans (le_of_eq ?_)
    ring
  · intro m
    rw [show numer b (fun n => c * z ^ n) m / lead - c * revVal b z / lead * z ^ m =
      (numer b (fun n => c * z ^ n) m - c * revVal b z * z ^ m) / lead by ring, norm_div, Complex.norm_real, Real.norm_eq_abs,
      div_mul_eq_mul_div]
    exact div_le_div_of_nonneg_right (numer_near b r hr0 hr c z hz m) (abs_nonneg _)

/-- An input that has ended: the response decays. -/
theorem resp_decay (b : List ℝ) (lead : ℝ) (ps : List ℂ) (r : ℝ) (hr0 : 0 < r) (hr : r < 1) (hp : ∀ p ∈ ps, ‖p‖ < r) : ∃ M : ℝ, 0 ≤ M ∧
    ∀ (X : ℕ → ℂ) (B : ℝ) (m : ℕ), (∀ n, n < m → ‖X n‖ ≤ B) → (∀ n, m ≤ n → X n = 0) → 0 ≤ B → ∀ n, m ≤ n →
      ‖resp b lead ps X n‖ ≤ M * B * r ^ (n - m) := by
  obtain ⟨M, hM, h⟩ := Gs_near ps r hr0 hr hp
  have hs := size1_nonneg b
  refine ⟨M * (size1 b * r⁻¹ ^ b.length / |lead|), by positivity, fun X B m hX1 hX2 hB n hn => ?_⟩
  have hX : ∀ n, ‖X n‖ ≤ B := by
    intro k
    rcases Nat.lt_or_ge k m with hk | hk
    · exact hX1 k hk
    · rw [hX2 k hk, norm_zero]; exact hB
  have key := (h (fun n => numer b X n / lead) 1 0 (size1 b * B * r⁻¹ ^ (m + b.length) / |lead|) (by simp) ?_).2 n
  · unfold resp
    simp only [zero_mul, sub_zero, norm_zero, zero_add] at key
    refine key.trans (le_of_eq ?_)
    have e : r ^ n = r ^ (n - m) * r ^ m := by rw [← pow_add]; congr 1; omega
    rw [e, pow_add, inv_pow, inv_pow]
    field_simp
  · intro k
    simp only [zero_mul, sub_zero]
    rw [norm_div, Complex.norm_real, Real.norm_eq_abs, div_mul_eq_mul_div]
    refine div_le_div_of_nonneg_right ?_ (abs_nonneg _)
    rcases Nat.lt_or_ge k (m + b.length) with hk | hk
    · refine (numer_bounded b X B hX k).trans ?_
      have h2 : 1 ≤ r⁻¹ ^ (m + b.length) * r ^ k := by
        rw [inv_pow, ← div_eq_inv_mul, one_le_div (by positivity)]
        exact pow_le_pow_of_le_one hr0.le hr.le hk.le
      have h3 := mul_le_mul_of_nonneg_left h2 (mul_nonneg hs hB)
      linarith
    · rw [numer_zero b X m hX2 k hk, norm_zero]
      positivity

theorem gain_eq (ps : List ℂ) (z : ℂ) : gain ps z = z ^ ps.length / (ps.map fun p => z - p).prod := by
  unfold gain
  induction ps with
  | nil => simp
  | cons p ps ih =>
    simp only [List.map_cons, List.prod_cons, List.length_cons, ih, pow_succ]
    rw [div_mul_div_comm]
    congr 1
    ring

theorem polyEval_conj (a : List ℝ) (z : ℂ) :
    polyEval Complex.ofReal a ((starRingEnd ℂ) z) = (starRingEnd ℂ) (polyEval Complex.ofReal a z) := by
  have h := fun z : ℂ => polyEval_sum z a
  rw [show (algebraMap ℝ ℂ : ℝ → ℂ) = Complex.ofReal from rfl] at h
  rw [h, h, map_sum]
  refine sum_congr rfl fun k _ => ?_
  rw [map_mul, map_pow, Complex.conj_ofReal]

/-- the frequency response, with the delay of the realizations -/
theorem value_eq {b a : List ℝ} {lead : ℝ} {ps : List ℂ} (h : Factored a lead ps) {z : ℂ} (hz : z ≠ 0) :
    revVal b z / lead * gain ps z =
      z ^ ((a.length : ℤ) - 1 - ((b.length - 1 : ℕ) : ℤ)) * (polyEval Complex.ofReal b z / polyEval Complex.ofReal a z) := by
  have h1 := revVal_eq b hz
  have hl : (a.length : ℤ) - 1 = ps.length := by rw [h.length]; push_cast; ring
  rw [gain_eq, h.value, hl, zpow_sub₀ hz, zpow_natCast, zpow_natCast, ← h1]
  have := pow_ne_zero (b.length - 1) hz
  field_simp

end Verif.Stab
