import Verif.Model.FitLoss
import Mathlib.MeasureTheory.Integral.IntervalIntegral.FundThmCalculus
import Mathlib.Analysis.Calculus.Deriv.MeanValue
import Mathlib.Tactic

/-! # Lemmas on the loss function of the edge fit -/

set_option linter.unusedSimpArgs false
set_option linter.unusedVariables false

namespace Verif

theorem hasDerivAt_erf (x : ℝ) : HasDerivAt erf (2 / Real.sqrt Real.pi * Real.exp (-x ^ 2)) x := by
  have hc : Continuous fun t : ℝ => Real.exp (-t ^ 2) := by fun_prop
  have := intervalIntegral.integral_hasDerivAt_right (hc.intervalIntegrable 0 x)
    (hc.stronglyMeasurableAtFilter _ _) hc.continuousAt
  exact this.const_mul _

theorem erf_zero : erf 0 = 0 := by simp [erf]

theorem erf_strictMono : StrictMono erf := by
  refine strictMono_of_deriv_pos fun x => ?_
  rw [(hasDerivAt_erf x).deriv]
  have := Real.sqrt_pos.mpr Real.pi_pos
  positivity

theorem erf_continuous : Continuous erf := continuous_iff_continuousAt.mpr fun x => (hasDerivAt_erf x).continuousAt

theorem fitLoss_eq_sum (band : List ℝ) (pass left : Bool) (threshold p : ℝ) :
    fitLoss band (!left) (!pass) threshold p = ∑ i ∈ Finset.range band.length,
      fitErrorDerivative (edgeDistance left band.length i) (relativeHeight pass threshold (sig band i)) p := by
  have key : ∀ (f : ℕ → ℝ) (n : ℕ), (List.range n).foldl (fun s i => s + f i) 0 = ∑ i ∈ Finset.range n, f i := by
    intro f n
    induction n with
    | zero => simp
    | succ n ih => rw [List.range_succ, List.foldl_append, ih, Finset.sum_range_succ]; rfl
  simp only [fitLoss]
  rw [key]
  refine Finset.sum_congr rfl fun i hi => ?_
  have hi : i < band.length := Finset.mem_range.mp hi
  have hx : (if (!!left) = true then (i : ℝ) else ((band.length - i - 1 : ℕ) : ℝ)) = edgeDistance left band.length i := by
    cases left
    · simp only [edgeDistance, Bool.not_false, Bool.not_true, Bool.false_eq_true, if_false]
      rw [show band.length - i - 1 = band.length - (i + 1) by omega, Nat.cast_sub (by omega)]
      push_cast; ring
    · simp [edgeDistance]
  have hy : (if (!!pass) = true then (band.getD i 0 - threshold) / (1 - threshold) else (threshold - band.getD i 0) / threshold) =
      relativeHeight pass threshold (sig band i) := by
    cases pass <;> simp [relativeHeight, sig]
  rw [hx, hy]

theorem edgeDistance_nonneg {left : Bool} {n i : ℕ} (hi : i < n) : 0 ≤ edgeDistance left n i := by
  unfold edgeDistance
  split
  · positivity
  · have : (i : ℝ) + 1 ≤ n := by exact_mod_cast hi
    linarith

theorem fitErrorDerivative_continuousOn (x y : ℝ) : ContinuousOn (fitErrorDerivative x y) (Set.Ioi 0) := by
  intro p hp
  have hp : p ≠ 0 := ne_of_gt hp
  unfold fitErrorDerivative
  have := erf_continuous
  refine ContinuousAt.continuousWithinAt ?_
  have h1 : ContinuousAt (fun p : ℝ => 1 / p) p := ContinuousAt.div continuousAt_const continuousAt_id hp
  have h2 : ContinuousAt (fun p : ℝ => erf (1 / p * x)) p :=
    erf_continuous.continuousAt.comp (f := fun p : ℝ => 1 / p * x) (h1.mul continuousAt_const)
  have h3 : ContinuousAt (fun p : ℝ => Real.exp (-(1 / p) * (1 / p) * x * x)) p :=
    Real.continuous_exp.continuousAt.comp (f := fun p : ℝ => -(1 / p) * (1 / p) * x * x)
      (((h1.neg.mul h1).mul continuousAt_const).mul continuousAt_const)
  exact ((continuousAt_const.sub h2).mul continuousAt_const).mul h3

theorem fitLoss_continuousOn (band : List ℝ) (pass left : Bool) (threshold : ℝ) :
    ContinuousOn (fitLoss band (!left) (!pass) threshold) (Set.Ioi 0) := by
  have e : fitLoss band (!left) (!pass) threshold = fun p => ∑ i ∈ Finset.range band.length,
      fitErrorDerivative (edgeDistance left band.length i) (relativeHeight pass threshold (sig band i)) p :=
    funext fun p => fitLoss_eq_sum band pass left threshold p
  rw [e]
  exact continuousOn_finsetSum _ fun i _ => fitErrorDerivative_continuousOn _ _

/-- the derivative of one squared error -/
theorem hasDerivAt_error (x y : ℝ) {p : ℝ} (hp : 0 < p) :
    HasDerivAt (fun p => (y - erf (x / p)) ^ 2) (4 / (Real.sqrt Real.pi * p ^ 2) * fitErrorDerivative x y p) p := by
  have hs := Real.sqrt_pos.mpr Real.pi_pos
  have h1 : HasDerivAt (fun p : ℝ => x / p) (-x / p ^ 2) p := by
    have := (hasDerivAt_inv hp.ne').const_mul x
    simpa [div_eq_mul_inv, neg_mul, mul_neg] using this
  have h2 := (((hasDerivAt_erf (x / p)).comp p h1).const_sub y).pow 2
  refine h2.congr_deriv ?_
  have e1 : 1 / p * x = x / p := by ring
  have e2 : -(1 / p) * (1 / p) * x * x = -(x / p) ^ 2 := by ring
  simp only [fitErrorDerivative, Function.comp, e1, e2]
  field_simp
  ring

theorem hasDerivAt_squaredError (band : List ℝ) (pass left : Bool) (threshold : ℝ) {p : ℝ} (hp : 0 < p) :
    HasDerivAt (squaredError band pass left threshold)
      (4 / (Real.sqrt Real.pi * p ^ 2) * fitLoss band (!left) (!pass) threshold p) p := by
  rw [fitLoss_eq_sum, Finset.mul_sum]
  exact HasDerivAt.fun_sum fun i _ => hasDerivAt_error _ _ hp

/-- For a band with an edge of width `p₀` the loss is negative for smaller and positive for larger widths. -/
theorem fitLoss_sign {band : List ℝ} {pass left : Bool} {threshold p₀ p : ℝ} (h : ErfEdge band pass left threshold p₀) (h₀ : 0 < p₀)
    (hn : 2 ≤ band.length) (hp : 0 < p) :
    (p < p₀ → fitLoss band (!left) (!pass) threshold p < 0) ∧ (p₀ < p → 0 < fitLoss band (!left) (!pass) threshold p) := by
  have hterm : ∀ i, i < band.length → ∀ x, x = edgeDistance left band.length i →
      fitErrorDerivative (edgeDistance left band.length i) (relativeHeight pass threshold (sig band i)) p =
        (erf (x / p₀) - erf (x / p)) * x * Real.exp (-(1 / p) * (1 / p) * x * x) := by
    intro i hi x hx
    rw [h i hi, ← hx]
    simp only [fitErrorDerivative]
    rw [show 1 / p * x = x / p by ring]
  -- a bin away from the edge
  obtain ⟨k, hk, hkp⟩ : ∃ k, k < band.length ∧ 0 < edgeDistance left band.length k := by
    cases left
    · refine ⟨0, by omega, ?_⟩
      have : (2 : ℝ) ≤ band.length := by exact_mod_cast hn
      simp only [edgeDistance, Bool.false_eq_true, if_false, Nat.cast_zero]; linarith
    · exact ⟨1, by omega, by simp [edgeDistance]⟩
  have hsgn : ∀ x : ℝ, 0 ≤ x → ((p < p₀ → (erf (x / p₀) - erf (x / p)) * x ≤ 0 ∧ (0 < x → (erf (x / p₀) - erf (x / p)) * x < 0)) ∧
      (p₀ < p → 0 ≤ (erf (x / p₀) - erf (x / p)) * x ∧ (0 < x → 0 < (erf (x / p₀) - erf (x / p)) * x))) := by
    intro x hx
    have hpos : ∀ a b : ℝ, 0 < a → a < b → 0 < x → x / b < x / a := fun a b ha hab hx => div_lt_div_of_pos_left hx ha hab
    refine ⟨fun hlt => ?_, fun hlt => ?_⟩
    · have : 0 < x → (erf (x / p₀) - erf (x / p)) * x < 0 := fun hx' =>
        mul_neg_of_neg_of_pos (sub_neg.mpr (erf_strictMono (hpos p p₀ hp hlt hx'))) hx'
      refine ⟨?_, this⟩
      rcases eq_or_lt_of_le hx with e | e
      · rw [← e]; simp
      · exact (this e).le
    · have : 0 < x → 0 < (erf (x / p₀) - erf (x / p)) * x := fun hx' =>
        mul_pos (sub_pos.mpr (erf_strictMono (hpos p₀ p h₀ hlt hx'))) hx'
      refine ⟨?_, this⟩
      rcases eq_or_lt_of_le hx with e | e
      · rw [← e]; simp
      · exact (this e).le
  rw [fitLoss_eq_sum]
  constructor
  · intro hlt
    refine Finset.sum_neg' (fun i hi => ?_) ⟨k, Finset.mem_range.mpr hk, ?_⟩
    · rw [hterm i (Finset.mem_range.mp hi) _ rfl]
      exact mul_nonpos_of_nonpos_of_nonneg ((hsgn _ (edgeDistance_nonneg (Finset.mem_range.mp hi))).1 hlt).1 (Real.exp_pos _).le
    · rw [hterm k hk _ rfl]
      exact mul_neg_of_neg_of_pos (((hsgn _ hkp.le).1 hlt).2 hkp) (Real.exp_pos _)
  · intro hlt
    refine Finset.sum_pos' (fun i hi => ?_) ⟨k, Finset.mem_range.mpr hk, ?_⟩
    · rw [hterm i (Finset.mem_range.mp hi) _ rfl]
      exact mul_nonneg ((hsgn _ (edgeDistance_nonneg (Finset.mem_range.mp hi))).2 hlt).1 (Real.exp_pos _).le
    · rw [hterm k hk _ rfl]
      exact mul_pos (((hsgn _ hkp.le).2 hlt).2 hkp) (Real.exp_pos _)

end Verif
