import Verif.Lemmas.EllipticBands
import Verif.Props.EllipticDesign

set_option linter.unusedSimpArgs false
set_option linter.unusedSectionVars false

/-! # The exact selectivity of an elliptic filter: existence, uniqueness, and what follows for the ripples -/

namespace Verif
open Filter Topology

/-- the integral depends continuously on the amplitude and on the modulus -/
theorem legendreF_continuousAt (φ : ℝ) {k : ℝ} (hk : k ^ 2 < 1) : ContinuousAt (fun q : ℝ × ℝ => legendreF q.1 q.2) (φ, k) := by
  obtain ⟨d, hd⟩ : ∃ d, d = (1 - k ^ 2) / 2 := ⟨_, rfl⟩
  have hd0 : 0 < d := by rw [hd]; linarith
  have hc : Continuous fun q : ℝ × ℝ => ∫ θ in (0 : ℝ)..q.1, 1 / Real.sqrt (max d (1 - q.2 ^ 2 * Real.sin θ ^ 2)) := by
    refine intervalIntegral.continuous_parametric_intervalIntegral_of_continuous (f := fun (q : ℝ × ℝ) θ => 1 / Real.sqrt (max d (1 - q.2 ^ 2 * Real.sin θ ^ 2))) ?_ continuous_fst
    refine Continuous.div continuous_const (by fun_prop) ?_
    rintro ⟨q, θ⟩
    have : 0 < max d (1 - q.2 ^ 2 * Real.sin θ ^ 2) := lt_max_of_lt_left hd0
    exact (Real.sqrt_pos.mpr this).ne'
  refine hc.continuousAt.congr ?_
  have hev : ∀ᶠ q : ℝ × ℝ in 𝓝 (φ, k), q.2 ^ 2 < 1 - d := by
    have : ContinuousAt (fun q : ℝ × ℝ => q.2 ^ 2) (φ, k) := by fun_prop
    refine this.eventually_lt continuousAt_const ?_
    simp only []
    linarith
  filter_upwards [hev] with q hq
  rw [legendreF]
  congr 1
  funext θ
  rw [max_eq_right]
  have := Real.sin_sq_le_one θ
  nlinarith [sq_nonneg q.2, sq_nonneg (Real.sin θ)]

theorem legendreK_continuousAt {k : ℝ} (hk : k ^ 2 < 1) : ContinuousAt legendreK k :=
  (legendreF_continuousAt (Real.pi / 2) hk).comp (f := fun k : ℝ => (Real.pi / 2, k)) (by fun_prop)

theorem compl_continuous : Continuous fun k : ℝ => Real.sqrt (1 - k ^ 2) := by fun_prop

theorem legendreKp_continuousAt {k : ℝ} (hk0 : 0 < k) (hk1 : k ≤ 1) : ContinuousAt legendreKp k :=
  (legendreK_continuousAt (kp_sq hk0 hk1).2.1).comp (f := fun k : ℝ => Real.sqrt (1 - k ^ 2)) compl_continuous.continuousAt

theorem legendreK_strictMono {a b : ℝ} (h : a ^ 2 < b ^ 2) (hb : b ^ 2 < 1) : legendreK a < legendreK b := by
  have hpi := Real.pi_pos
  rw [legendreK, legendreK, legendreF, legendreF]
  have hlt : ∀ θ : ℝ, 0 < Real.sin θ ^ 2 → 1 / Real.sqrt (1 - a ^ 2 * Real.sin θ ^ 2) < 1 / Real.sqrt (1 - b ^ 2 * Real.sin θ ^ 2) := by
    intro θ hθ
    apply one_div_lt_one_div_of_lt (Real.sqrt_pos.mpr (inside_pos hb θ))
    apply Real.sqrt_lt_sqrt (inside_pos hb θ).le
    have := mul_lt_mul_of_pos_right h hθ
    linarith
  apply intervalIntegral.integral_lt_integral_of_continuousOn_of_le_of_exists_lt (by positivity)
    (delta_continuous (h.trans hb)).continuousOn (delta_continuous hb).continuousOn
  · intro θ hθ
    refine (hlt θ ?_).le
    have := Real.sin_pos_of_pos_of_lt_pi hθ.1 (by linarith [hθ.2])
    positivity
  · exact ⟨Real.pi / 2, ⟨by positivity, le_refl _⟩, hlt _ (by rw [Real.sin_pi_div_two]; norm_num)⟩

/-- the quotient of the integrals -/
noncomputable def kquot (k : ℝ) : ℝ := legendreK k / legendreKp k

theorem kquot_lt {a b : ℝ} (h0 : 0 < a) (h : a < b) (h1 : b < 1) : kquot a < kquot b := by
  have hab : a ^ 2 < b ^ 2 := by nlinarith
  have hb : b ^ 2 < 1 := by nlinarith
  have h2 := legendreK_strictMono hab hb
  have h3 := kp_mono h0 h.le h1.le
  have h4 := kp_pos (h0.trans h) h1.le
  rw [kquot, kquot, div_lt_div_iff₀ (h4.trans_le h3) h4]
  have h5 := legendreK_pos (hab.trans hb)
  have h6 := legendreK_pos hb
  nlinarith

theorem kquot_inj {a b : ℝ} (ha : 0 < a) (ha1 : a < 1) (hb : 0 < b) (hb1 : b < 1) (h : kquot a = kquot b) : a = b := by
  rcases lt_trichotomy a b with hlt | he | hgt
  · exact absurd h (kquot_lt ha hlt hb1).ne
  · exact he
  · exact absurd h (kquot_lt hb hgt ha1).ne'

theorem kquot_pos {k : ℝ} (h0 : 0 < k) (h1 : k < 1) : 0 < kquot k :=
  div_pos (legendreK_pos (by nlinarith)) (kp_pos h0 h1.le)

theorem kquot_continuousAt {k : ℝ} (h0 : 0 < k) (h1 : k < 1) : ContinuousAt kquot k :=
  (legendreK_continuousAt (by nlinarith)).div (legendreKp_continuousAt h0 h1.le) (kp_pos h0 h1.le).ne'

/-- every quotient has exactly one modulus -/
theorem kquot_surj {q : ℝ} (hq : 0 < q) : ∃ k, 0 < k ∧ k < 1 ∧ kquot k = q := by
  have hpi := Real.pi_pos
  have hpi4 := Real.pi_le_four
  -- a modulus with a smaller quotient
  obtain ⟨a, ha0, ha1, ha⟩ : ∃ a, 0 < a ∧ a < 1 ∧ kquot a ≤ q := by
    obtain ⟨a, hae⟩ : ∃ a, a = min (1 / 2) (Real.exp (-(4 / q))) := ⟨_, rfl⟩
    have h0 : 0 < a := by rw [hae]; exact lt_min (by norm_num) (Real.exp_pos _)
    have h1 : a ≤ 1 / 2 := by rw [hae]; exact min_le_left _ _
    have h2 : a ≤ Real.exp (-(4 / q)) := by rw [hae]; exact min_le_right _ _
    refine ⟨a, h0, by linarith, ?_⟩
    have h3 := (kp_log h0 (by linarith)).trans h2
    have h4 : 4 / q ≤ legendreKp a := by have := Real.exp_le_exp.mp h3; linarith
    have h5 : legendreK a ≤ 4 := by
      have := legendreK_le (k := a) (by nlinarith)
      refine this.trans ?_
      rw [div_le_iff₀ (Real.sqrt_pos.mpr (by nlinarith))]
      have : 1 / 2 ≤ Real.sqrt (1 - a ^ 2) := Real.le_sqrt_of_sq_le (by nlinarith)
      linarith
    have h6 := kp_pos h0 (by linarith)
    rw [kquot, div_le_iff₀ h6]
    rw [div_le_iff₀ hq] at h4
    linarith
  obtain ⟨b, hb0, hb1, hb⟩ : ∃ b, 0 < b ∧ b < 1 ∧ q ≤ kquot b := by
    obtain ⟨c, hce⟩ : ∃ c, c = min (1 / 2) (Real.exp (-(4 * q))) := ⟨_, rfl⟩
    have h0 : 0 < c := by rw [hce]; exact lt_min (by norm_num) (Real.exp_pos _)
    have h1 : c ≤ 1 / 2 := by rw [hce]; exact min_le_left _ _
    have h2 : c ≤ Real.exp (-(4 * q)) := by rw [hce]; exact min_le_right _ _
    obtain ⟨e1, e2, e3⟩ := kp_sq h0 (by linarith)
    have hb0 : 0 < Real.sqrt (1 - c ^ 2) := Real.sqrt_pos.mpr (by nlinarith)
    have hb1 : Real.sqrt (1 - c ^ 2) < 1 := by
      rw [Real.sqrt_lt' one_pos]
      nlinarith
    have hge : 1 / 2 ≤ Real.sqrt (1 - c ^ 2) := Real.le_sqrt_of_sq_le (by nlinarith)
    refine ⟨Real.sqrt (1 - c ^ 2), hb0, hb1, ?_⟩
    have h3 := (kp_log h0 (by linarith)).trans h2
    have h4 : 4 * q ≤ legendreKp c := by have := Real.exp_le_exp.mp h3; linarith
    have h5 : legendreKp (Real.sqrt (1 - c ^ 2)) ≤ 4 := by
      refine (kp_le hb0 hb1.le).trans ?_
      rw [div_le_iff₀ hb0]
      linarith
    have h6 := kp_pos hb0 hb1.le
    rw [kquot, le_div_iff₀ h6]
    change 4 * q ≤ legendreK (Real.sqrt (1 - c ^ 2)) at h4
    nlinarith
  have hab : a ≤ b := by
    by_contra hc
    push Not at hc
    have := kquot_lt hb0 hc ha1
    linarith
  obtain ⟨k, hk, hkq⟩ := intermediate_value_Icc hab (f := kquot)
    (fun x hx => (kquot_continuousAt (ha0.trans_le hx.1) (hx.2.trans_lt hb1)).continuousWithinAt) ⟨ha, hb⟩
  exact ⟨k, ha0.trans_le hk.1, hk.2.trans_lt hb1, hkq⟩

/-- the ripple factor and the discrimination, in terms of the ripples -/
theorem ripple_facts {p s : ℝ} (hp : 0 < p) (hs : 0 < s) (hps : s < 1 - p) :
    0 < rippleFactor p ∧ 0 < discrimination p s ∧ discrimination p s < 1 ∧
    (1 / rippleFactor p ^ 2) / (1 + 1 / rippleFactor p ^ 2) = (1 - p) ^ 2 ∧
    (1 / rippleFactor p ^ 2) * discrimination p s ^ 2 / (1 + (1 / rippleFactor p ^ 2) * discrimination p s ^ 2) = s ^ 2 := by
  have hp1 : 0 < 1 - p := by linarith
  have hs1 : s < 1 := by linarith
  have a1 : 0 < 1 / (1 - p) ^ 2 - 1 := by
    rw [sub_pos, lt_div_iff₀ (by positivity)]
    nlinarith
  have a2 : 0 < 1 / s ^ 2 - 1 := by
    rw [sub_pos, lt_div_iff₀ (by positivity)]
    nlinarith
  have h1 : 0 < rippleFactor p := Real.sqrt_pos.mpr a1
  have h2 : rippleFactor p ^ 2 = 1 / (1 - p) ^ 2 - 1 := Real.sq_sqrt a1.le
  have h3 : 0 < discrimination p s := div_pos h1 (Real.sqrt_pos.mpr a2)
  have h4 : discrimination p s ^ 2 = rippleFactor p ^ 2 / (1 / s ^ 2 - 1) := by
    rw [discrimination, div_pow, Real.sq_sqrt a2.le]
  refine ⟨h1, h3, ?_, ?_, ?_⟩
  · rw [← Real.sqrt_one, Real.lt_sqrt h3.le, h4, div_lt_one a2, h2]
    have : 1 / (1 - p) ^ 2 < 1 / s ^ 2 := one_div_lt_one_div_of_lt (by positivity) (by nlinarith)
    linarith
  · have : rippleFactor p ^ 2 ≠ 0 := by positivity
    have e : (1 / rippleFactor p ^ 2) / (1 + 1 / rippleFactor p ^ 2) = 1 / (rippleFactor p ^ 2 + 1) := by field_simp
    rw [e, h2]
    field_simp
    ring
  · have hr : rippleFactor p ^ 2 ≠ 0 := by positivity
    have e : 1 / rippleFactor p ^ 2 * discrimination p s ^ 2 = 1 / (1 / s ^ 2 - 1) := by
      rw [h4]
      field_simp
    rw [e]
    have : 1 / s ^ 2 - 1 ≠ 0 := a2.ne'
    have e2 : 1 / (1 / s ^ 2 - 1) / (1 + 1 / (1 / s ^ 2 - 1)) = 1 / (1 / s ^ 2 - 1 + 1) := by
      generalize 1 / s ^ 2 - 1 = z at *
      field_simp
    rw [e2]
    field_simp
    ring

theorem degreeQuotient_eq (n : ℕ) (p s : ℝ) : degreeQuotient n p s = n * kquot (discrimination p s) := by
  rw [degreeQuotient, kquot, mul_div_assoc]

section
variable {n : ℕ} (hn : 1 ≤ n) {p s k : ℝ} (hp : 0 < p) (hs : 0 < s) (hps : s < 1 - p) (hk0 : 0 < k) (hk1 : k < 1)
  (hdeg : legendreK k = degreeQuotient n p s * legendreKp k)
include hn hp hs hps hk0 hk1 hdeg

theorem jmodulus_exact : jmodulus k n = discrimination p s := by
  have hk : k ^ 2 < 1 := by nlinarith
  obtain ⟨h1, h2, h3, -, -⟩ := ripple_facts hp hs hps
  have hn0 : (0 : ℝ) < n := by exact_mod_cast hn
  refine kquot_inj (jmodulus_pos hk0 hk hn) (jmodulus_lt hk0 hk hn) h2 h3 ?_
  have hm := multiplier_pos hk hn
  have hKp := kp_pos hk0 hk1.le
  rw [degreeQuotient_eq] at hdeg
  rw [kquot, legendreKp, jmodulus_K hk0 hk hn, jmodulus_Kp hk0 hk hn, hdeg]
  simp only [legendreKp] at hKp ⊢
  field_simp

theorem poleLevel_exact {ψ : ℝ} (hψ0 : 0 < ψ) (hψ1 : ψ < Real.pi / 2)
    (hψ : legendreF ψ (Real.sqrt (1 - k ^ 2)) = poleArgument n p s k) : poleLevel k n ψ = 1 / rippleFactor p ^ 2 := by
  have hk : k ^ 2 < 1 := by nlinarith
  obtain ⟨h1, h2, h3, -, -⟩ := ripple_facts hp hs hps
  have hn0 : (0 : ℝ) < n := by exact_mod_cast hn
  have hj := jmodulus_exact hn hp hs hps hk0 hk1 hdeg
  have ht : 0 < Real.tan ψ := Real.tan_pos_of_pos_of_lt_pi_div_two hψ0 hψ1
  have h := jratio_tanIntegral hk0 hk hn (t := Real.tan ψ ^ 2) (sq_nonneg _)
  have hm := multiplier_pos hk hn
  have hK := legendreK_pos hk
  have hK1 := jmodulus_K hk0 hk hn
  rw [hj] at h hK1
  have hy := poleLevel_pos hk0 hk hn hψ0 hψ1
  rw [← neg_sq, neg_sq] at h
  have e : -jratio k n (-Real.tan ψ ^ 2) = poleLevel k n ψ := rfl
  rw [e] at h
  rw [tanIntegral, tanIntegral, Real.sqrt_sq ht.le, Real.arctan_tan (by linarith) hψ1, hψ, poleArgument, hK1] at h
  have h' : legendreF (Real.arctan (Real.sqrt (poleLevel k n ψ))) (Real.sqrt (1 - discrimination p s ^ 2)) =
      legendreF (Real.arctan (1 / rippleFactor p)) (Real.sqrt (1 - discrimination p s ^ 2)) := by
    rw [h]
    field_simp
  have h4 := (legendreF_strictMono (kp_sq h2 h3.le).2.1).injective h'
  have h5 := Real.arctan_injective h4
  rw [← Real.sq_sqrt hy.le, h5]
  ring

end
end Verif
