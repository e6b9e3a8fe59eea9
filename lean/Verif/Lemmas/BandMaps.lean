import Verif.Lemmas.IirDesign
import Mathlib.Analysis.SpecialFunctions.Trigonometric.Bounds

set_option linter.unusedSimpArgs false
set_option linter.unusedSectionVars false

namespace Verif
open Complex

/-! ### how the all-pass substitutions act on the unit circle -/

theorem exp_half (θ : ℝ) : exp ((θ : ℂ) * I) =
    ((Real.cos (θ / 2) : ℂ) + (Real.sin (θ / 2) : ℂ) * I) * ((Real.cos (θ / 2) : ℂ) + (Real.sin (θ / 2) : ℂ) * I) := by
  have e : (θ : ℂ) * I = ((θ / 2 : ℝ) : ℂ) * I + ((θ / 2 : ℝ) : ℂ) * I := by push_cast; ring
  rw [e, exp_add, exp_mul_I, ← ofReal_cos, ← ofReal_sin]

theorem sq_half (θ : ℝ) : (Real.cos (θ / 2) : ℂ) * Real.cos (θ / 2) + (Real.sin (θ / 2) : ℂ) * Real.sin (θ / 2) = 1 := by
  have := Real.cos_sq_add_sin_sq (θ / 2)
  have h : ((Real.cos (θ / 2) ^ 2 + Real.sin (θ / 2) ^ 2 : ℝ) : ℂ) = 1 := by rw [this]; simp
  rw [ofReal_add, ofReal_pow, ofReal_pow] at h
  linear_combination h

theorem circle1_pos {a0 a1 θ w : ℝ}
    (h : (a1 + a0) * (Real.sin (θ / 2) * Real.cos (w / 2)) = (a1 - a0) * (Real.cos (θ / 2) * Real.sin (w / 2))) :
    exp ((θ : ℂ) * I) * ((a1 : ℂ) + a0 * exp ((w : ℂ) * I)) = (a1 : ℂ) * exp ((w : ℂ) * I) + a0 := by
  have h' : ((a1 : ℂ) + a0) * ((Real.sin (θ / 2) : ℂ) * Real.cos (w / 2)) =
      ((a1 : ℂ) - a0) * ((Real.cos (θ / 2) : ℂ) * Real.sin (w / 2)) := by exact_mod_cast h
  have h1 := sq_half θ
  have h2 := sq_half w
  rw [exp_half θ, exp_half w]
  generalize (Real.cos (θ / 2) : ℂ) = C at *
  generalize (Real.sin (θ / 2) : ℂ) = S at *
  generalize (Real.cos (w / 2) : ℂ) = c at *
  generalize (Real.sin (w / 2) : ℂ) = s at *
  have hI : I * I = -1 := I_mul_I
  have k1 : (C + S * I) * (C - S * I) = 1 := by linear_combination h1 - S * S * hI
  have k2 : (c + s * I) * (c - s * I) = 1 := by linear_combination h2 - s * s * hI
  have e : (C + S * I) * (a1 * (c - s * I) + a0 * (c + s * I)) -
      (C - S * I) * (a1 * (c + s * I) + a0 * (c - s * I)) = 0 := by
    linear_combination 2 * I * h'
  have e2 : (C + S * I) * (c + s * I) * ((C + S * I) * (a1 * (c - s * I) + a0 * (c + s * I)) -
      (C - S * I) * (a1 * (c + s * I) + a0 * (c - s * I))) = 0 := by rw [e, mul_zero]
  linear_combination e2 - (C + S * I) * (C + S * I) * a1 * k2 + (a1 * (c + s * I) * (c + s * I) + a0) * k1 +
    (C + S * I) * (C - S * I) * a0 * (k2)

theorem circle1_neg {a0 a1 θ w : ℝ}
    (h : (a1 + a0) * (Real.cos (θ / 2) * Real.cos (w / 2)) = -(a1 - a0) * (Real.sin (θ / 2) * Real.sin (w / 2))) :
    exp ((θ : ℂ) * I) * ((a1 : ℂ) + a0 * exp ((w : ℂ) * I)) = -((a1 : ℂ) * exp ((w : ℂ) * I) + a0) := by
  have h' : ((a1 : ℂ) + a0) * ((Real.cos (θ / 2) : ℂ) * Real.cos (w / 2)) =
      -((a1 : ℂ) - a0) * ((Real.sin (θ / 2) : ℂ) * Real.sin (w / 2)) := by exact_mod_cast h
  have h1 := sq_half θ
  have h2 := sq_half w
  rw [exp_half θ, exp_half w]
  generalize (Real.cos (θ / 2) : ℂ) = C at *
  generalize (Real.sin (θ / 2) : ℂ) = S at *
  generalize (Real.cos (w / 2) : ℂ) = c at *
  generalize (Real.sin (w / 2) : ℂ) = s at *
  have hI : I * I = -1 := I_mul_I
  have k1 : (C + S * I) * (C - S * I) = 1 := by linear_combination h1 - S * S * hI
  have k2 : (c + s * I) * (c - s * I) = 1 := by linear_combination h2 - s * s * hI
  have e : (C + S * I) * (a1 * (c - s * I) + a0 * (c + s * I)) +
      (C - S * I) * (a1 * (c + s * I) + a0 * (c - s * I)) = 0 := by
    linear_combination 2 * h' + (-2 * (a1 - a0) * S * s) * hI
  have e2 : (C + S * I) * (c + s * I) * ((C + S * I) * (a1 * (c - s * I) + a0 * (c + s * I)) +
      (C - S * I) * (a1 * (c + s * I) + a0 * (c - s * I))) = 0 := by rw [e, mul_zero]
  linear_combination e2 - (C + S * I) * (C + S * I) * a1 * k2 - (a1 * (c + s * I) * (c + s * I) + a0) * k1 -
    (C + S * I) * (C - S * I) * a0 * (k2)

theorem exp_inv_circle (w : ℝ) : exp ((w : ℂ) * I) = (Real.cos w : ℂ) + (Real.sin w : ℂ) * I := by
  rw [exp_mul_I, ← ofReal_cos, ← ofReal_sin]

theorem circle2_pos {a0 a1 a2 θ w : ℝ}
    (h : Real.sin (θ / 2) * ((a2 + a0) * Real.cos w + a1) = Real.cos (θ / 2) * ((a2 - a0) * Real.sin w)) :
    exp ((θ : ℂ) * I) * ((a2 : ℂ) + a1 * exp ((w : ℂ) * I) + a0 * exp ((w : ℂ) * I) * exp ((w : ℂ) * I)) =
      (a2 : ℂ) * exp ((w : ℂ) * I) * exp ((w : ℂ) * I) + a1 * exp ((w : ℂ) * I) + a0 := by
  have h' : (Real.sin (θ / 2) : ℂ) * (((a2 : ℂ) + a0) * Real.cos w + a1) =
      (Real.cos (θ / 2) : ℂ) * (((a2 : ℂ) - a0) * Real.sin w) := by exact_mod_cast h
  have h1 := sq_half θ
  have h2 : (Real.cos w : ℂ) * Real.cos w + (Real.sin w : ℂ) * Real.sin w = 1 := by
    have := sq_half (2 * w)
    rwa [show 2 * w / 2 = w by ring] at this
  rw [exp_half θ, exp_inv_circle w]
  generalize (Real.cos (θ / 2) : ℂ) = C at *
  generalize (Real.sin (θ / 2) : ℂ) = S at *
  generalize (Real.cos w : ℂ) = c at *
  generalize (Real.sin w : ℂ) = s at *
  have hI : I * I = -1 := I_mul_I
  have k1 : (C + S * I) * (C - S * I) = 1 := by linear_combination h1 - S * S * hI
  have k2 : (c + s * I) * (c - s * I) = 1 := by linear_combination h2 - s * s * hI
  have e : (C + S * I) * (a2 * (c - s * I) + a1 + a0 * (c + s * I)) -
      (C - S * I) * (a2 * (c + s * I) + a1 + a0 * (c - s * I)) = 0 := by
    linear_combination 2 * I * h'
  have e2 : (C + S * I) * (c + s * I) * ((C + S * I) * (a2 * (c - s * I) + a1 + a0 * (c + s * I)) -
      (C - S * I) * (a2 * (c + s * I) + a1 + a0 * (c - s * I))) = 0 := by rw [e, mul_zero]
  linear_combination e2 - (C + S * I) * (C + S * I) * a2 * k2 +
    (a2 * (c + s * I) * (c + s * I) + a1 * (c + s * I) + a0) * k1 + (C + S * I) * (C - S * I) * a0 * k2

theorem circle2_neg {a0 a1 a2 θ w : ℝ}
    (h : Real.cos (θ / 2) * ((a2 + a0) * Real.cos w + a1) = -Real.sin (θ / 2) * ((a2 - a0) * Real.sin w)) :
    exp ((θ : ℂ) * I) * ((a2 : ℂ) + a1 * exp ((w : ℂ) * I) + a0 * exp ((w : ℂ) * I) * exp ((w : ℂ) * I)) =
      -((a2 : ℂ) * exp ((w : ℂ) * I) * exp ((w : ℂ) * I) + a1 * exp ((w : ℂ) * I) + a0) := by
  have h' : (Real.cos (θ / 2) : ℂ) * (((a2 : ℂ) + a0) * Real.cos w + a1) =
      -(Real.sin (θ / 2) : ℂ) * (((a2 : ℂ) - a0) * Real.sin w) := by exact_mod_cast h
  have h1 := sq_half θ
  have h2 : (Real.cos w : ℂ) * Real.cos w + (Real.sin w : ℂ) * Real.sin w = 1 := by
    have := sq_half (2 * w)
    rwa [show 2 * w / 2 = w by ring] at this
  rw [exp_half θ, exp_inv_circle w]
  generalize (Real.cos (θ / 2) : ℂ) = C at *
  generalize (Real.sin (θ / 2) : ℂ) = S at *
  generalize (Real.cos w : ℂ) = c at *
  generalize (Real.sin w : ℂ) = s at *
  have hI : I * I = -1 := I_mul_I
  have k1 : (C + S * I) * (C - S * I) = 1 := by linear_combination h1 - S * S * hI
  have k2 : (c + s * I) * (c - s * I) = 1 := by linear_combination h2 - s * s * hI
  have e : (C + S * I) * (a2 * (c - s * I) + a1 + a0 * (c + s * I)) +
      (C - S * I) * (a2 * (c + s * I) + a1 + a0 * (c - s * I)) = 0 := by
    linear_combination 2 * h' + (-2 * (a2 - a0) * S * s) * hI
  have e2 : (C + S * I) * (c + s * I) * ((C + S * I) * (a2 * (c - s * I) + a1 + a0 * (c + s * I)) +
      (C - S * I) * (a2 * (c + s * I) + a1 + a0 * (c - s * I))) = 0 := by rw [e, mul_zero]
  linear_combination e2 - (C + S * I) * (C + S * I) * a2 * k2 -
    (a2 * (c + s * I) * (c + s * I) + a1 * (c + s * I) + a0) * k1 - (C + S * I) * (C - S * I) * a0 * k2

/-! ### the transforms, for systems with all roots in the closed unit disk -/

/-- All roots in the closed unit disk. -/
def Zpk.InDisk (s : Zpk) : Prop := (∀ q ∈ s.zeros.roots, ‖q‖ ≤ 1) ∧ ∀ q ∈ s.poles.roots, ‖q‖ ≤ 1

/-- All poles inside the unit circle. -/
def Zpk.Stable (s : Zpk) : Prop := ∀ q ∈ s.poles.roots, ‖q‖ < 1

theorem norm_exp_circle (w : ℝ) : ‖exp ((w : ℂ) * I)‖ = 1 := norm_exp_ofReal_mul_I w

theorem band1_spec {sys : Zpk} (hs : sys.Reachable) (hd : sys.InDisk) (s a0 a1 : ℝ) (h1 : s * s = 1)
    (h2 : a0 ^ 2 < a1 ^ 2) (hn : sys.zeros.numRoots ≤ sys.poles.numRoots)
    (ha : sys.zeros.numRoots = sys.poles.numRoots ∨ a0 ≠ 0) :
    ∃ f, mapZDomain1 sys s a0 a1 = .ok f ∧ f.Reachable ∧ f.zeros.numRoots = sys.poles.numRoots ∧
      f.poles.numRoots = sys.poles.numRoots ∧ (sys.Stable → f.Stable) ∧
      ∀ w θ : ℝ, exp ((θ : ℂ) * I) * ((a1 : ℂ) + a0 * exp ((w : ℂ) * I)) = s * ((a1 : ℂ) * exp ((w : ℂ) * I) + a0) →
        f.eval (exp ((w : ℂ) * I)) = sys.eval (exp ((θ : ℂ) * I)) := by
  obtain ⟨f, e1, e2, e3, e4, e5, e6⟩ := mapZDomain1_spec hs s a0 a1
  have ho : sys.order = sys.poles.numRoots := by unfold Zpk.order; omega
  refine ⟨f, e1, e2, by rw [e3, ho], by rw [e4, ho], ?_, ?_⟩
  · intro hst q hq
    have := ((e5 hn).mem_iff).1 hq
    obtain ⟨p, hp, rfl⟩ := List.mem_map.1 this
    exact map1_stable h1 h2 (hst p hp)
  · intro w θ h
    have hden : (a1 : ℂ) + a0 * exp ((w : ℂ) * I) ≠ 0 := by
      have := map1_gain_ne (s := 1) (a0 := a0) (a1 := a1) (by norm_num) h2 (p := -exp ((w : ℂ) * I))
        (by rw [norm_neg, norm_exp_circle])
      intro h0
      apply this
      push_cast
      linear_combination h0
    rw [e6 (fun p hp => map1_gain_ne h1 h2 (hd.1 p hp)) (fun p hp => map1_gain_ne h1 h2 (hd.2 p hp)) ha
      (by omega) _ hden, gainError, if_pos hn, ofReal_one, one_mul]
    congr 1
    rw [mapPoint1, ← h, mul_div_assoc, div_self hden, mul_one]

theorem band2_spec {sys : Zpk} (hs : sys.Reachable) (hd : sys.InDisk) (s a0 a1 a2 : ℝ) (h1 : s * s = 1)
    (h2 : a0 ^ 2 < a2 ^ 2) (h3 : a1 ^ 2 < (a2 + a0) ^ 2) (hn : sys.zeros.numRoots ≤ sys.poles.numRoots)
    (ha : sys.zeros.numRoots = sys.poles.numRoots ∨ a0 ≠ 0) :
    ∃ f, mapZDomain2 sys s a0 a1 a2 = .ok f ∧ f.Reachable ∧ f.zeros.numRoots = 2 * sys.poles.numRoots ∧
      f.poles.numRoots = 2 * sys.poles.numRoots ∧ (sys.Stable → f.Stable) ∧
      ∀ w θ : ℝ, exp ((θ : ℂ) * I) *
          ((a2 : ℂ) + a1 * exp ((w : ℂ) * I) + a0 * exp ((w : ℂ) * I) * exp ((w : ℂ) * I)) =
          s * ((a2 : ℂ) * exp ((w : ℂ) * I) * exp ((w : ℂ) * I) + a1 * exp ((w : ℂ) * I) + a0) →
        f.eval (exp ((w : ℂ) * I)) = sys.eval (exp ((θ : ℂ) * I)) := by
  obtain ⟨f, e1, e2, e3, e4, e5, e6⟩ := mapZDomain2_spec hs s a0 a1 a2
  have ho : sys.order = sys.poles.numRoots := by unfold Zpk.order; omega
  refine ⟨f, e1, e2, by rw [e3, ho], by rw [e4, ho], ?_, ?_⟩
  · intro hst q hq
    have := ((e5 hn).mem_iff).1 hq
    obtain ⟨p, hp, hq'⟩ := List.mem_flatMap.1 this
    exact map2_stable h1 h2 h3 (hst p hp) hq'
  · intro w θ h
    have hden : (a2 : ℂ) + a1 * exp ((w : ℂ) * I) + a0 * exp ((w : ℂ) * I) * exp ((w : ℂ) * I) ≠ 0 := by
      intro h0
      have k := (map2_outside h2 h3 (z := exp ((w : ℂ) * I)) (norm_exp_circle w).ge).2
      rw [h0, mul_zero] at h
      have hs0 : (s : ℂ) ≠ 0 := by
        intro h'
        have : s = 0 := by exact_mod_cast h'
        rw [this] at h1; norm_num at h1
      exact k ((mul_eq_zero.1 h.symm).resolve_left hs0)
    rw [e6 (fun p hp => map2_gain_ne h1 h2 (hd.1 p hp)) (fun p hp => map2_gain_ne h1 h2 (hd.2 p hp)) ha
      (by omega) _ hden, gainError, if_pos hn, ofReal_one, one_mul]
    congr 1
    rw [mapPoint2, ← h, mul_div_assoc, div_self hden, mul_one]

/-! ### the coefficients -/

theorem half_angle (w : ℝ) : Real.sin w = 2 * Real.sin (w / 2) * Real.cos (w / 2) ∧
    Real.cos w = 2 * Real.cos (w / 2) ^ 2 - 1 ∧ Real.sin (w / 2) ^ 2 + Real.cos (w / 2) ^ 2 = 1 := by
  refine ⟨?_, ?_, Real.sin_sq_add_cos_sq _⟩
  · rw [← Real.sin_two_mul]; congr 1; ring
  · rw [← Real.cos_two_mul]; congr 1; ring

theorem lowpass_coeffs {c : ℝ} (h0 : 0 < c) (h1 : c < 1) :
    (1 + Real.sin (c * Real.pi) ≠ 0) ∧
    (-(Real.cos (c * Real.pi) / (1 + Real.sin (c * Real.pi)))) ^ 2 < (1 : ℝ) ^ 2 ∧
    (c ≠ 1 / 2 → -(Real.cos (c * Real.pi) / (1 + Real.sin (c * Real.pi))) ≠ 0) ∧
    ∀ w θ : ℝ, Real.sin (θ / 2) * Real.sin (c * Real.pi / 2) * Real.cos (w / 2) =
        Real.cos (θ / 2) * Real.cos (c * Real.pi / 2) * Real.sin (w / 2) →
      (1 + -(Real.cos (c * Real.pi) / (1 + Real.sin (c * Real.pi)))) * (Real.sin (θ / 2) * Real.cos (w / 2)) =
        (1 - -(Real.cos (c * Real.pi) / (1 + Real.sin (c * Real.pi)))) * (Real.cos (θ / 2) * Real.sin (w / 2)) := by
  have hpi := Real.pi_pos
  have hw0 : 0 < c * Real.pi := mul_pos h0 hpi
  have hw1 : c * Real.pi < Real.pi := by nlinarith
  have hsin : 0 < Real.sin (c * Real.pi) := Real.sin_pos_of_pos_of_lt_pi hw0 hw1
  have hne : 1 + Real.sin (c * Real.pi) ≠ 0 := by linarith
  refine ⟨hne, ?_, ?_, ?_⟩
  · rw [neg_sq, div_pow, one_pow, div_lt_one (by positivity)]
    nlinarith [Real.sin_sq_add_cos_sq (c * Real.pi)]
  · intro hc h
    rw [neg_eq_zero, div_eq_zero_iff] at h
    have hcos : Real.cos (c * Real.pi) = 0 := h.resolve_right hne
    rcases lt_or_gt_of_ne hc with h | h
    · have := Real.cos_pos_of_mem_Ioo (x := c * Real.pi) ⟨by linarith, by nlinarith⟩
      linarith
    · have := Real.cos_neg_of_pi_div_two_lt_of_lt (x := c * Real.pi) (by nlinarith) (by nlinarith)
      linarith
  · intro w θ h
    obtain ⟨k1, k2, k3⟩ := half_angle (c * Real.pi)
    have e1 : 1 + -(Real.cos (c * Real.pi) / (1 + Real.sin (c * Real.pi))) =
        2 * Real.sin (c * Real.pi / 2) * (Real.sin (c * Real.pi / 2) + Real.cos (c * Real.pi / 2)) /
          (1 + Real.sin (c * Real.pi)) := by
      field_simp
      rw [k1, k2]
      linear_combination -2 * k3
    have e2 : 1 - -(Real.cos (c * Real.pi) / (1 + Real.sin (c * Real.pi))) =
        2 * Real.cos (c * Real.pi / 2) * (Real.sin (c * Real.pi / 2) + Real.cos (c * Real.pi / 2)) /
          (1 + Real.sin (c * Real.pi)) := by
      field_simp
      rw [k1, k2]
      ring
    rw [e1, e2, div_mul_eq_mul_div, div_mul_eq_mul_div]
    congr 1
    linear_combination 2 * (Real.sin (c * Real.pi / 2) + Real.cos (c * Real.pi / 2)) * h

theorem highpass_coeffs {c : ℝ} (h0 : 0 < c) (h1 : c < 1) (hc : c ≠ 1 / 2) :
    (-1 + Real.sin (c * Real.pi) ≠ 0) ∧
    (1 : ℝ) ^ 2 < (Real.cos (c * Real.pi) / (-1 + Real.sin (c * Real.pi))) ^ 2 ∧
    ∀ w θ : ℝ, Real.sin (θ / 2) * Real.cos (c * Real.pi / 2) * Real.sin (w / 2) =
        -(Real.cos (θ / 2) * Real.sin (c * Real.pi / 2) * Real.cos (w / 2)) →
      (Real.cos (c * Real.pi) / (-1 + Real.sin (c * Real.pi)) + 1) * (Real.cos (θ / 2) * Real.cos (w / 2)) =
        -(Real.cos (c * Real.pi) / (-1 + Real.sin (c * Real.pi)) - 1) * (Real.sin (θ / 2) * Real.sin (w / 2)) := by
  have hpi := Real.pi_pos
  have hw0 : 0 < c * Real.pi := mul_pos h0 hpi
  have hw1 : c * Real.pi < Real.pi := by nlinarith
  have hsin : 0 < Real.sin (c * Real.pi) := Real.sin_pos_of_pos_of_lt_pi hw0 hw1
  have hcos : Real.cos (c * Real.pi) ≠ 0 := by
    rcases lt_or_gt_of_ne hc with h | h
    · exact (Real.cos_pos_of_mem_Ioo (x := c * Real.pi) ⟨by linarith, by nlinarith⟩).ne'
    · exact (Real.cos_neg_of_pi_div_two_lt_of_lt (x := c * Real.pi) (by nlinarith) (by nlinarith)).ne
  have hsq := Real.sin_sq_add_cos_sq (c * Real.pi)
  have hcp : 0 < Real.cos (c * Real.pi) ^ 2 := by positivity
  have hlt : Real.sin (c * Real.pi) < 1 := by nlinarith
  have hne : -1 + Real.sin (c * Real.pi) ≠ 0 := by linarith
  refine ⟨hne, ?_, ?_⟩
  · rw [div_pow, one_pow, one_lt_div (by positivity)]
    nlinarith
  · intro w θ h
    obtain ⟨k1, k2, k3⟩ := half_angle (c * Real.pi)
    have e1 : Real.cos (c * Real.pi) / (-1 + Real.sin (c * Real.pi)) + 1 =
        2 * Real.sin (c * Real.pi / 2) * (Real.cos (c * Real.pi / 2) - Real.sin (c * Real.pi / 2)) /
          (-1 + Real.sin (c * Real.pi)) := by
      field_simp
      rw [k1, k2]
      linear_combination 2 * k3
    have e2 : Real.cos (c * Real.pi) / (-1 + Real.sin (c * Real.pi)) - 1 =
        2 * Real.cos (c * Real.pi / 2) * (Real.cos (c * Real.pi / 2) - Real.sin (c * Real.pi / 2)) /
          (-1 + Real.sin (c * Real.pi)) := by
      field_simp
      rw [k1, k2]
      ring
    rw [e1, e2, ← neg_div, div_mul_eq_mul_div, div_mul_eq_mul_div]
    congr 1
    linear_combination 2 * (Real.cos (c * Real.pi / 2) - Real.sin (c * Real.pi / 2)) * h

/-- What the coefficients of the second order transforms are made of. -/
theorem band_angles {c1 c2 : ℝ} (h0 : 0 < c1) (h1 : c1 < c2) (h2 : c2 < 1) :
    let δ := (c1 * Real.pi - c2 * Real.pi) / 2
    let σ := (c1 * Real.pi + c2 * Real.pi) / 2
    0 < Real.cos δ ∧ Real.sin δ < 0 ∧ Real.cos σ ^ 2 < Real.cos δ ^ 2 ∧
    (c2 - c1 ≠ 1 / 2 → Real.cos δ + Real.sin δ ≠ 0) ∧
    Real.cos (c1 * Real.pi) = Real.cos σ * Real.cos δ - Real.sin σ * Real.sin δ ∧
    Real.cos (c2 * Real.pi) = Real.cos σ * Real.cos δ + Real.sin σ * Real.sin δ ∧
    Real.sin (c1 * Real.pi) = Real.sin σ * Real.cos δ + Real.cos σ * Real.sin δ ∧
    Real.sin (c2 * Real.pi) = Real.sin σ * Real.cos δ - Real.cos σ * Real.sin δ ∧
    Real.sin (c1 * Real.pi - c2 * Real.pi) = 2 * Real.sin δ * Real.cos δ ∧
    Real.sin δ ^ 2 + Real.cos δ ^ 2 = 1 := by
  intro δ σ
  have hpi := Real.pi_pos
  have e1 : c1 * Real.pi = σ + δ := by simp only [σ, δ]; ring
  have e2 : c2 * Real.pi = σ - δ := by simp only [σ, δ]; ring
  have hδ0 : δ < 0 := by simp only [δ]; nlinarith
  have hδ1 : -(Real.pi / 2) < δ := by simp only [δ]; nlinarith
  refine ⟨Real.cos_pos_of_mem_Ioo ⟨hδ1, by linarith⟩, Real.sin_neg_of_neg_of_neg_pi_lt hδ0 (by linarith), ?_, ?_, ?_,
    ?_, ?_, ?_, ?_, Real.sin_sq_add_cos_sq _⟩
  · have k1 : Real.cos δ - Real.cos σ = 2 * (Real.sin (c1 * Real.pi / 2) * Real.sin (c2 * Real.pi / 2)) := by
      have a : δ = c1 * Real.pi / 2 - c2 * Real.pi / 2 := by simp only [δ]; ring
      have b : σ = c1 * Real.pi / 2 + c2 * Real.pi / 2 := by simp only [σ]; ring
      rw [a, b, Real.cos_sub, Real.cos_add]; ring
    have k2 : Real.cos δ + Real.cos σ = 2 * (Real.cos (c1 * Real.pi / 2) * Real.cos (c2 * Real.pi / 2)) := by
      have a : δ = c1 * Real.pi / 2 - c2 * Real.pi / 2 := by simp only [δ]; ring
      have b : σ = c1 * Real.pi / 2 + c2 * Real.pi / 2 := by simp only [σ]; ring
      rw [a, b, Real.cos_sub, Real.cos_add]; ring
    have s1 : 0 < Real.sin (c1 * Real.pi / 2) := Real.sin_pos_of_pos_of_lt_pi (by nlinarith) (by nlinarith)
    have s2 : 0 < Real.sin (c2 * Real.pi / 2) := Real.sin_pos_of_pos_of_lt_pi (by nlinarith) (by nlinarith)
    have t1 : 0 < Real.cos (c1 * Real.pi / 2) := Real.cos_pos_of_mem_Ioo ⟨by nlinarith, by nlinarith⟩
    have t2 : 0 < Real.cos (c2 * Real.pi / 2) := Real.cos_pos_of_mem_Ioo ⟨by nlinarith, by nlinarith⟩
    have p1 : 0 < Real.cos δ - Real.cos σ := by rw [k1]; positivity
    have p2 : 0 < Real.cos δ + Real.cos σ := by rw [k2]; positivity
    nlinarith [mul_pos p1 p2]
  · intro hne h
    have k : Real.sin (δ + Real.pi / 4) = 0 := by
      rw [Real.sin_add, Real.sin_pi_div_four, Real.cos_pi_div_four]
      linear_combination (Real.sqrt 2 / 2) * h
    rw [Real.sin_eq_zero_iff_of_lt_of_lt (by linarith) (by linarith)] at k
    apply hne
    have : (c1 - c2) * Real.pi = (-(1 / 2)) * Real.pi := by simp only [δ] at k; linarith
    have := mul_right_cancel₀ hpi.ne' this
    linarith
  · rw [e1, Real.cos_add]
  · rw [e2, Real.cos_sub]
  · rw [e1, Real.sin_add]
  · rw [e2, Real.sin_sub]
  · rw [e1, e2, ← Real.sin_two_mul]; congr 1; ring

theorem bandpass_coeffs {c1 c2 : ℝ} (h0 : 0 < c1) (h1 : c1 < c2) (h2 : c2 < 1) (hw : c2 - c1 ≠ 1 / 2) :
    1 + Real.tan ((c1 * Real.pi - c2 * Real.pi) / 2) ≠ 0 ∧ 1 + Real.sin (c1 * Real.pi - c2 * Real.pi) ≠ 0 ∧
    ∃ a1 a2 : ℝ,
      a1 = -((Real.cos (c1 * Real.pi) + Real.cos (c2 * Real.pi) + Real.sin (c1 * Real.pi) - Real.sin (c2 * Real.pi)) /
        (1 + Real.sin (c1 * Real.pi - c2 * Real.pi))) ∧
      a2 = -1 + 2 / (1 + Real.tan ((c1 * Real.pi - c2 * Real.pi) / 2)) ∧
      (1 : ℝ) ^ 2 < a2 ^ 2 ∧ a1 ^ 2 < (a2 + 1) ^ 2 ∧
      ∀ w θ : ℝ, Real.sin (θ / 2) * (Real.sin ((c2 * Real.pi - c1 * Real.pi) / 2) * Real.sin w) =
          Real.cos (θ / 2) * (Real.cos ((c1 * Real.pi + c2 * Real.pi) / 2) -
            Real.cos ((c2 * Real.pi - c1 * Real.pi) / 2) * Real.cos w) →
        Real.cos (θ / 2) * ((a2 + 1) * Real.cos w + a1) = -Real.sin (θ / 2) * ((a2 - 1) * Real.sin w) := by
  obtain ⟨k1, k2, k3, k4, k5, k6, k7, k8, k9, k10⟩ := band_angles h0 h1 h2
  have hneg : (c2 * Real.pi - c1 * Real.pi) / 2 = -((c1 * Real.pi - c2 * Real.pi) / 2) := by ring
  rw [hneg, Real.sin_neg, Real.cos_neg]
  rw [k5, k6, k7, k8, k9, Real.tan_eq_sin_div_cos]
  have k4 := k4 hw
  generalize Real.cos ((c1 * Real.pi - c2 * Real.pi) / 2) = cd at *
  generalize Real.sin ((c1 * Real.pi - c2 * Real.pi) / 2) = sd at *
  generalize Real.cos ((c1 * Real.pi + c2 * Real.pi) / 2) = cs at *
  generalize Real.sin ((c1 * Real.pi + c2 * Real.pi) / 2) = ss at *
  have n1 : 1 + sd / cd = (cd + sd) / cd := by field_simp
  have n2 : 1 + 2 * sd * cd = (cd + sd) ^ 2 := by linear_combination -k10
  have n1' : (cd + sd) / cd ≠ 0 := div_ne_zero k4 k1.ne'
  have n2' : (cd + sd) ^ 2 ≠ 0 := pow_ne_zero _ k4
  rw [n1, n2]
  refine ⟨n1', n2', _, _, rfl, rfl, ?_⟩
  have e1 : -((cs * cd - ss * sd + (cs * cd + ss * sd) + (ss * cd + cs * sd) - (ss * cd - cs * sd)) / (cd + sd) ^ 2) =
      -(2 * cs) / (cd + sd) := by
    field_simp; ring
  have e2 : -1 + 2 / ((cd + sd) / cd) = (cd - sd) / (cd + sd) := by field_simp; ring
  rw [e1, e2]
  have hp : 0 < (cd + sd) ^ 2 := by positivity
  refine ⟨?_, ?_, ?_⟩
  · rw [div_pow, one_pow, one_lt_div hp]; nlinarith
  · have : (cd - sd) / (cd + sd) + 1 = 2 * cd / (cd + sd) := by field_simp; ring
    rw [this, div_pow, div_pow]
    apply div_lt_div_of_pos_right _ hp
    nlinarith
  · intro w θ h
    field_simp
    linear_combination 2 * h

theorem bandstop_coeffs {c1 c2 : ℝ} (h0 : 0 < c1) (h1 : c1 < c2) (h2 : c2 < 1) :
    -1 + Real.tan ((c1 * Real.pi - c2 * Real.pi) / 2) ≠ 0 ∧ -1 + Real.sin (c1 * Real.pi - c2 * Real.pi) ≠ 0 ∧
    ∃ a0 a1 : ℝ,
      a1 = (Real.cos (c1 * Real.pi) + Real.cos (c2 * Real.pi) - Real.sin (c1 * Real.pi) + Real.sin (c2 * Real.pi)) /
        (-1 + Real.sin (c1 * Real.pi - c2 * Real.pi)) ∧
      a0 = -1 - 2 / (-1 + Real.tan ((c1 * Real.pi - c2 * Real.pi) / 2)) ∧
      a0 ^ 2 < (1 : ℝ) ^ 2 ∧ a1 ^ 2 < (1 + a0) ^ 2 ∧ (c2 - c1 ≠ 1 / 2 → a0 ≠ 0) ∧
      ∀ w θ : ℝ, Real.sin (θ / 2) * (Real.cos ((c2 * Real.pi - c1 * Real.pi) / 2) * Real.cos w -
            Real.cos ((c1 * Real.pi + c2 * Real.pi) / 2)) =
          Real.cos (θ / 2) * (Real.sin ((c2 * Real.pi - c1 * Real.pi) / 2) * Real.sin w) →
        Real.sin (θ / 2) * ((1 + a0) * Real.cos w + a1) = Real.cos (θ / 2) * ((1 - a0) * Real.sin w) := by
  obtain ⟨k1, k2, k3, k4, k5, k6, k7, k8, k9, k10⟩ := band_angles h0 h1 h2
  have hneg : (c2 * Real.pi - c1 * Real.pi) / 2 = -((c1 * Real.pi - c2 * Real.pi) / 2) := by ring
  rw [hneg, Real.sin_neg, Real.cos_neg]
  rw [k5, k6, k7, k8, k9, Real.tan_eq_sin_div_cos]
  generalize Real.cos ((c1 * Real.pi - c2 * Real.pi) / 2) = cd at *
  generalize Real.sin ((c1 * Real.pi - c2 * Real.pi) / 2) = sd at *
  generalize Real.cos ((c1 * Real.pi + c2 * Real.pi) / 2) = cs at *
  generalize Real.sin ((c1 * Real.pi + c2 * Real.pi) / 2) = ss at *
  have hm : 0 < cd - sd := by linarith
  have n1 : -1 + sd / cd = -(cd - sd) / cd := by field_simp; ring
  have n2 : -1 + 2 * sd * cd = -(cd - sd) ^ 2 := by linear_combination k10
  have n1' : -(cd - sd) / cd ≠ 0 := div_ne_zero (neg_ne_zero.2 hm.ne') k1.ne'
  have n2' : -(cd - sd) ^ 2 ≠ 0 := neg_ne_zero.2 (pow_ne_zero _ hm.ne')
  rw [n1, n2]
  refine ⟨n1', n2', _, _, rfl, rfl, ?_⟩
  have e1 : (cs * cd - ss * sd + (cs * cd + ss * sd) - (ss * cd + cs * sd) + (ss * cd - cs * sd)) / -(cd - sd) ^ 2 =
      -(2 * cs) / (cd - sd) := by
    have := hm.ne'
    field_simp; ring
  have e2 : -1 - 2 / (-(cd - sd) / cd) = (cd + sd) / (cd - sd) := by
    have := hm.ne'
    field_simp; ring
  rw [e1, e2]
  have hp : 0 < (cd - sd) ^ 2 := by positivity
  refine ⟨?_, ?_, ?_, ?_⟩
  · rw [div_pow, one_pow, div_lt_one hp]; nlinarith
  · have : 1 + (cd + sd) / (cd - sd) = 2 * cd / (cd - sd) := by
      have := hm.ne'
      field_simp; ring
    rw [this, div_pow, div_pow]
    apply div_lt_div_of_pos_right _ hp
    nlinarith
  · intro hne
    exact div_ne_zero (k4 hne) hm.ne'
  · intro w θ h
    have := hm.ne'
    field_simp
    linear_combination 2 * h

end Verif
