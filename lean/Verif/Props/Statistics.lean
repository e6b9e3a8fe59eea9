import Verif.Model.Statistics
import Verif.Spec.Statistics
import Verif.Props.Numeric
import Mathlib.Algebra.Order.Chebyshev

/-!
# Properties C41–C44: statistics

`c : Kern` is arbitrary except for `c.Ok`: the register width is positive and the external reductions keep the guarantee
of the C++ standard.
-/

namespace Verif

/-- Admissible ways to run the reductions. -/
def Kern.Ok (c : Kern) : Prop := 0 < c.W ∧ IsReduction c.red₁ ∧ IsReduction c.red₂

theorem Kern.exists_ok : (⟨true, 4, fun op init l => l.foldl op init, fun op init l => l.foldl op init⟩ : Kern).Ok :=
  ⟨by norm_num, isReduction_foldl, isReduction_foldl⟩

variable {c : Kern}

theorem transformReduce_sum (hc : c.Ok) (f : ℝ → ℝ) (x : List ℝ) :
    transformReduce c.vec c.W c.red₁ c.red₂ f x 0 x.length 0 (plainOp (fun a b => a + b)) = .ok (x.map f).sum := by
  obtain ⟨t, hp, he⟩ := C10_transformReduce_any_op c.vec c.W hc.1 c.red₁ c.red₂ hc.2.1 hc.2.2 (fun a b : ℝ => a + b) f x 0
    x.length (by omega) 0
  rw [he]
  have : t.eval (fun a b : ℝ => a + b) = t.leaves.sum := eval_add t
  rw [this, hp.sum_eq]
  simp

/-- **C41** Sum -/
theorem C41_sum (hc : c.Ok) (x : List ℝ) : statSum c x = .ok x.sum := by
  have := transformReduce_sum hc id x
  unfold statSum reduce
  rw [this, List.map_id]

theorem length_ne_zero {x : List ℝ} (hx : x ≠ []) : (x.length : ℝ) ≠ 0 := by
  rw [Nat.cast_ne_zero]
  intro h
  exact hx (List.length_eq_zero_iff.1 h)

/-- **C41** Mean of a non-empty signal is its average; of an empty one it is zero. -/
theorem C41_mean (hc : c.Ok) (x : List ℝ) : (x ≠ [] → statMean c x = .ok (avg x)) ∧ statMean c [] = .ok 0 := by
  constructor
  · intro hx
    unfold statMean
    rw [if_pos hx, C41_sum hc, Out.ok_bind, fdiv_ok (length_ne_zero hx)]
    rfl
  · unfold statMean
    rw [if_neg (by simp)]
    rfl

theorem mean_ok (hc : c.Ok) {x : List ℝ} (hx : x ≠ []) : statMean c x = .ok (avg x) := (C41_mean hc x).1 hx

/-- **C41** SumSquare and Norm -/
theorem C41_sumSquare (hc : c.Ok) (x : List ℝ) : statSumSquare c x = .ok (x.map fun a => a ^ 2).sum := by
  unfold statSumSquare
  rw [transformReduce_sum hc]
  simp only [pow_two]

/-- **C41** Norm: the nonnegative root of the sum of squares -/
theorem C41_norm (hc : c.Ok) (x : List ℝ) :
    ∃ r, statNorm c x = .ok r ∧ 0 ≤ r ∧ r ^ 2 = (x.map fun a => a ^ 2).sum := by
  refine ⟨Real.sqrt (x.map fun a => a ^ 2).sum, ?_, Real.sqrt_nonneg _, Real.sq_sqrt ?_⟩
  · unfold statNorm
    rw [C41_sumSquare hc, Out.ok_bind, Out.pure_def]
  · apply List.sum_nonneg
    intro a ha
    obtain ⟨b, -, rfl⟩ := List.mem_map.1 ha
    positivity

/-- **C41** MeanSquare -/
theorem C41_meanSquare (hc : c.Ok) (x : List ℝ) (hx : x ≠ []) : statMeanSquare c x = .ok (avg (x.map fun a => a ^ 2)) := by
  unfold statMeanSquare
  rw [if_pos hx, C41_sumSquare hc, Out.ok_bind, fdiv_ok (length_ne_zero hx), avg, List.length_map]

theorem avg_nonneg {x : List ℝ} (h : ∀ a ∈ x, 0 ≤ a) : 0 ≤ avg x := by
  unfold avg
  exact div_nonneg (List.sum_nonneg h) (Nat.cast_nonneg _)

/-- **C41** RootMeanSquare -/
theorem C41_rootMeanSquare (hc : c.Ok) (x : List ℝ) (hx : x ≠ []) :
    ∃ r, statRootMeanSquare c x = .ok r ∧ 0 ≤ r ∧ r ^ 2 = avg (x.map fun a => a ^ 2) := by
  refine ⟨Real.sqrt (avg (x.map fun a => a ^ 2)), ?_, Real.sqrt_nonneg _, Real.sq_sqrt (avg_nonneg ?_)⟩
  · unfold statRootMeanSquare
    rw [C41_meanSquare hc x hx, Out.ok_bind, Out.pure_def]
  · intro a ha
    obtain ⟨b, -, rfl⟩ := List.mem_map.1 ha
    positivity

/-! ### moments -/

theorem sum_map_add_mul (x : List ℝ) (f g : ℝ → ℝ) (p q : ℝ) :
    (x.map fun a => p * f a + q * g a).sum = p * (x.map f).sum + q * (x.map g).sum := by
  induction x with
  | nil => simp
  | cons a x ih => simp only [List.map_cons, List.sum_cons, ih]; ring

theorem sum_map_const (x : List ℝ) (p : ℝ) : (x.map fun _ => p).sum = x.length * p := by
  rw [List.map_const', List.sum_replicate, nsmul_eq_mul]

theorem sum_eq_avg {x : List ℝ} (hx : x ≠ []) : x.sum = x.length * avg x := by
  unfold avg
  field_simp [length_ne_zero hx]

/-- the deviations from the mean add up to zero -/
theorem moment_one {x : List ℝ} (hx : x ≠ []) : moment x 1 = 0 := by
  unfold moment momentAbout avg
  have h := sum_map_add_mul x (fun a => a) (fun _ => 1) 1 (-avg x)
  simp only [one_mul, mul_one, List.map_id', sum_map_const] at h
  rw [show (x.map fun a => (a - x.sum / x.length) ^ 1) = x.map fun a => a + -avg x from by
    apply List.map_congr_left; intro a _; unfold avg; ring]
  rw [h, sum_eq_avg hx, mul_comm, neg_mul, mul_comm, add_neg_cancel, zero_div]

theorem momentTerm_eq (k : ℕ) (hk : k = 2 ∨ k = 4 ∨ Odd k) (mean a : ℝ) : momentTerm k mean a = (a - mean) ^ k := by
  unfold momentTerm
  simp only
  by_cases h2 : k = 2
  · rw [if_pos h2, h2]; ring
  rw [if_neg h2]
  by_cases h3 : k = 3
  · rw [if_pos h3, h3]; ring
  rw [if_neg h3]
  by_cases h4 : k = 4
  · rw [if_pos h4, h4]; ring
  rw [if_neg h4]
  obtain ⟨m, rfl⟩ : Odd k := by tauto
  have : ((2 * m + 1 : ℕ) : ℝ) - 1 = ((2 * m : ℕ) : ℝ) := by push_cast; ring
  rw [this, Real.rpow_natCast, pow_mul, sq_abs, ← pow_mul, pow_succ, mul_comm]

theorem momentTerm_large (k : ℕ) (h6 : 6 ≤ k) (mean a : ℝ) :
    momentTerm k mean a = (a - mean) * |a - mean| ^ (k - 1) := by
  unfold momentTerm
  simp only
  rw [if_neg (by omega), if_neg (by omega), if_neg (by omega)]
  have : (k : ℝ) - 1 = ((k - 1 : ℕ) : ℝ) := by rw [Nat.cast_sub (by omega)]; simp
  rw [this, Real.rpow_natCast]

theorem centralMomentAbout_ok (hc : c.Ok) {x : List ℝ} (hx : x ≠ []) {k : ℕ} (hk : 2 ≤ k) (m : ℝ) :
    centralMomentAbout c x k m = .ok (avg (x.map (momentTerm k m))) := by
  unfold centralMomentAbout
  rw [if_neg (by omega), if_neg (by omega), transformReduce_sum hc, Out.ok_bind, fdiv_ok (length_ne_zero hx), avg,
    List.length_map]

/-- moments about a given point, for the orders that are computed correctly -/
theorem centralMomentAbout_spec (hc : c.Ok) {x : List ℝ} (hx : x ≠ []) {k : ℕ} (hk : k = 2 ∨ k = 4 ∨ (Odd k ∧ k ≠ 1))
    (m : ℝ) : centralMomentAbout c x k m = .ok (momentAbout x m k) := by
  have h2 : 2 ≤ k := by
    rcases hk with rfl | rfl | ⟨⟨j, rfl⟩, h⟩ <;> omega
  rw [centralMomentAbout_ok hc hx h2, momentAbout]
  congr 3
  ext a
  exact momentTerm_eq k (by tauto) m a

/-- **C42**, partial: `CentralMoment(signal, k)` is the mean of the `k`-th powers of the deviations from the mean for
`k = 2`, `k = 4` and all odd `k`.  Missing: `k = 0` and even `k ≥ 6`, where it is not true (below). -/
theorem C42_centralMoment_partial (hc : c.Ok) (x : List ℝ) (hx : x ≠ []) (k : ℕ) (hk : k = 2 ∨ k = 4 ∨ Odd k) :
    centralMoment c x k = .ok (avg (x.map fun a => (a - avg x) ^ k)) := by
  unfold centralMoment
  rw [mean_ok hc hx, Out.ok_bind]
  by_cases h1 : k = 1
  · subst h1
    have := moment_one hx
    unfold moment momentAbout at this
    rw [this]
    rfl
  · rw [centralMomentAbout_spec hc hx (by tauto)]
    rfl

/-- **C42**, partial: the same about a point given by the caller, for `k = 2, 3, 4` and odd `k ≥ 3`. -/
theorem C42_about_partial (hc : c.Ok) (x : List ℝ) (hx : x ≠ []) (k : ℕ) (hk : k = 2 ∨ k = 4 ∨ (Odd k ∧ k ≠ 1)) (m : ℝ) :
    centralMomentAbout c x k m = .ok (avg (x.map fun a => (a - m) ^ k)) :=
  centralMomentAbout_spec hc hx hk m

/-- **C42** does not hold for `k = 0`: the library returns 0, the moment is 1.  About a given point, `k = 1` also gives
zero whatever the point. -/
theorem C42_order_zero_wrong (x : List ℝ) (hx : x ≠ []) (m : ℝ) :
    centralMomentAbout c x 0 m = .ok 0 ∧ avg (x.map fun a => (a - m) ^ 0) = 1 ∧ centralMomentAbout c x 1 m = .ok 0 ∧
      avg (x.map fun a => (a - m) ^ 1) = avg x - m := by
  refine ⟨rfl, ?_, rfl, ?_⟩
  · simp only [pow_zero, avg, sum_map_const, List.length_map]
    field_simp [length_ne_zero hx]
  · have h := sum_map_add_mul x (fun a => a) (fun _ => 1) 1 (-m)
    simp only [one_mul, mul_one, List.map_id', sum_map_const] at h
    rw [show (x.map fun a => (a - m) ^ 1) = x.map fun a => a + -m from by
      apply List.map_congr_left; intro a _; ring]
    unfold avg
    rw [h, List.length_map]
    field_simp [length_ne_zero hx]
    ring

theorem exists_lt_avg {x : List ℝ} (hx : ∃ a ∈ x, a ≠ avg x) : ∃ a ∈ x, a < avg x := by
  by_contra h
  push Not at h
  obtain ⟨b, hb, hne⟩ := hx
  have hx : x ≠ [] := by rintro rfl; simp at hb
  have h1 : (x.map fun _ => avg x).sum < (x.map fun a => a).sum :=
    List.sum_lt_sum _ _ (fun i hi => h i hi) ⟨b, hb, lt_of_le_of_ne (h b hb) (Ne.symm hne)⟩
  rw [sum_map_const, List.map_id', sum_eq_avg hx] at h1
  exact lt_irrefl _ h1

theorem avg_lt_avg {x : List ℝ} (f g : ℝ → ℝ) (h : ∀ a ∈ x, f a ≤ g a) (h' : ∃ a ∈ x, f a < g a) :
    avg (x.map f) < avg (x.map g) := by
  have hx : x ≠ [] := by
    obtain ⟨a, ha, -⟩ := h'
    rintro rfl
    simp at ha
  unfold avg
  rw [List.length_map, List.length_map]
  have : (0 : ℝ) < x.length := lt_of_le_of_ne (Nat.cast_nonneg _) (Ne.symm (length_ne_zero hx))
  exact div_lt_div_of_pos_right (List.sum_lt_sum _ _ h h') this

/-- **C42** does not hold for even `k ≥ 6`: deviations below the mean are counted with a negative sign, so the result is too
small for every signal that is not constant. -/
theorem C42_even_wrong (hc : c.Ok) (x : List ℝ) (hx : ∃ a ∈ x, a ≠ avg x) (k : ℕ) (hk : Even k) (h6 : 6 ≤ k) :
    ∃ r, centralMoment c x k = .ok r ∧ r < avg (x.map fun a => (a - avg x) ^ k) := by
  have hx0 : x ≠ [] := by
    obtain ⟨a, ha, -⟩ := hx
    rintro rfl
    simp at ha
  refine ⟨avg (x.map (momentTerm k (avg x))), ?_, ?_⟩
  · unfold centralMoment
    rw [mean_ok hc hx0, Out.ok_bind, centralMomentAbout_ok hc hx0 (by omega)]
  · have habs : ∀ d : ℝ, d ^ k = |d| * |d| ^ (k - 1) := by
      intro d
      rw [← pow_succ', show k - 1 + 1 = k by omega, hk.pow_abs]
    obtain ⟨b, hb, hlt⟩ := exists_lt_avg hx
    refine avg_lt_avg _ _ (fun a _ => ?_) ⟨b, hb, ?_⟩
    · rw [momentTerm_large k h6, habs]
      exact mul_le_mul_of_nonneg_right (le_abs_self _) (by positivity)
    · rw [momentTerm_large k h6, habs]
      have h1 : b - avg x < 0 := by linarith
      have h2 : 0 < |b - avg x| := abs_pos.2 h1.ne
      exact mul_lt_mul_of_pos_right (by linarith) (by positivity)

/-! ### variance -/

/-- **C41** Variance is the mean squared deviation from the mean, and never negative. -/
theorem C41_variance (hc : c.Ok) (x : List ℝ) (hx : x ≠ []) :
    variance c x = .ok (avg (x.map fun a => (a - avg x) ^ 2)) ∧ 0 ≤ avg (x.map fun a => (a - avg x) ^ 2) := by
  refine ⟨C42_centralMoment_partial hc x hx 2 (Or.inl rfl), avg_nonneg ?_⟩
  intro a ha
  obtain ⟨b, -, rfl⟩ := List.mem_map.1 ha
  positivity

theorem avg_sq_dev {x : List ℝ} (hx : x ≠ []) (m : ℝ) :
    avg (x.map fun a => (a - m) ^ 2) = avg (x.map fun a => a ^ 2) - 2 * m * avg x + m ^ 2 := by
  have e : (x.map fun a => (a - m) ^ 2).sum = (x.map fun a => a ^ 2).sum - 2 * m * x.sum + x.length * m ^ 2 := by
    have h1 := sum_map_add_mul x (fun a => a ^ 2) (fun a => a - m / 2) 1 (-2 * m)
    have h2 := sum_map_add_mul x (fun a => a) (fun _ => 1) 1 (-(m / 2))
    have e2 : (x.map fun a => a - m / 2).sum = x.sum - m / 2 * x.length := by
      rw [show (x.map fun a => a - m / 2) = x.map fun a => 1 * a + -(m / 2) * 1 from by
        apply List.map_congr_left; intro a _; ring, h2, List.map_id', sum_map_const]
      ring
    rw [show (x.map fun a => (a - m) ^ 2) = x.map fun a => 1 * a ^ 2 + -2 * m * (a - m / 2) from by
      apply List.map_congr_left; intro a _; ring, h1, e2]
    ring
  unfold avg
  rw [List.length_map, List.length_map, e]
  field_simp [length_ne_zero hx]

/-- **C41**: variance is the mean square minus the square of the mean. -/
theorem C41_variance_eq_meanSquare_sub (hc : c.Ok) (x : List ℝ) (hx : x ≠ []) :
    ∃ v ms m, variance c x = .ok v ∧ statMeanSquare c x = .ok ms ∧ statMean c x = .ok m ∧ v = ms - m ^ 2 := by
  refine ⟨_, _, _, (C41_variance hc x hx).1, C41_meanSquare hc x hx, mean_ok hc hx, ?_⟩
  rw [avg_sq_dev hx]
  ring

/-- **C41**: the variance is zero exactly for constant signals. -/
theorem C41_variance_zero_iff (hc : c.Ok) (x : List ℝ) (hx : x ≠ []) :
    variance c x = .ok 0 ↔ ∀ a ∈ x, a = avg x := by
  rw [(C41_variance hc x hx).1]
  constructor
  · intro h a ha
    by_contra hne
    have h' : avg (x.map fun _ => (0 : ℝ)) < avg (x.map fun a => (a - avg x) ^ 2) :=
      avg_lt_avg _ _ (fun b _ => by positivity) ⟨a, ha, by
        have : a - avg x ≠ 0 := sub_ne_zero.2 hne
        positivity⟩
    rw [avg, sum_map_const, mul_zero, zero_div] at h'
    injection h with h
    linarith
  · intro h
    congr 1
    rw [show (x.map fun a => (a - avg x) ^ 2) = x.map fun _ => 0 from by
      apply List.map_congr_left; intro a ha; rw [h a ha]; ring]
    rw [avg, sum_map_const, mul_zero, zero_div]

/-! ### affine changes -/

theorem affine_ne_nil {x : List ℝ} (hx : x ≠ []) (α β : ℝ) : affine α β x ≠ [] := by
  unfold affine
  simpa using hx

theorem avg_affine {x : List ℝ} (hx : x ≠ []) (α β : ℝ) : avg (affine α β x) = α * avg x + β := by
  unfold avg affine
  have h := sum_map_add_mul x (fun a => a) (fun _ => 1) α β
  simp only [mul_one, List.map_id', sum_map_const] at h
  rw [h, List.length_map]
  field_simp [length_ne_zero hx]

theorem avg_smul (x : List ℝ) (p : ℝ) (f : ℝ → ℝ) : avg (x.map fun a => p * f a) = p * avg (x.map f) := by
  unfold avg
  have h := sum_map_add_mul x f (fun _ => 0) p 0
  simp only [zero_mul, add_zero, mul_zero] at h
  rw [h, List.length_map, List.length_map]
  ring

theorem momentAbout_affine {x : List ℝ} (hx : x ≠ []) (α β : ℝ) (k : ℕ) :
    momentAbout (affine α β x) (avg (affine α β x)) k = α ^ k * momentAbout x (avg x) k := by
  unfold momentAbout
  rw [avg_affine hx, ← avg_smul]
  unfold affine
  rw [List.map_map]
  congr 1
  apply List.map_congr_left
  intro a _
  simp only [Function.comp_apply]
  rw [← mul_pow]
  congr 1
  ring

/-- **C41**: adding a constant does not change the variance and a factor enters squared. -/
theorem C41_variance_affine (hc : c.Ok) (x : List ℝ) (hx : x ≠ []) (α β : ℝ) :
    ∃ v, variance c x = .ok v ∧ variance c (affine α β x) = .ok (α ^ 2 * v) := by
  refine ⟨_, (C41_variance hc x hx).1, ?_⟩
  rw [(C41_variance hc _ (affine_ne_nil hx α β)).1]
  congr 1
  exact momentAbout_affine hx α β 2

/-- **C41** StandardDeviation: the nonnegative root of the variance; a factor enters with its absolute value. -/
theorem C41_standardDeviation (hc : c.Ok) (x : List ℝ) (hx : x ≠ []) (α β : ℝ) :
    ∃ s, standardDeviation c x = .ok s ∧ 0 ≤ s ∧ variance c x = .ok (s ^ 2) ∧
      standardDeviation c (affine α β x) = .ok (|α| * s) := by
  have hv := C41_variance hc x hx
  have hv' := (C41_variance hc _ (affine_ne_nil hx α β)).1
  refine ⟨Real.sqrt (avg (x.map fun a => (a - avg x) ^ 2)), ?_, Real.sqrt_nonneg _, ?_, ?_⟩
  · unfold standardDeviation
    rw [show centralMoment c x 2 = _ from hv.1, Out.ok_bind, Out.pure_def]
  · rw [Real.sq_sqrt hv.2, hv.1]
  · unfold standardDeviation
    rw [show centralMoment c (affine α β x) 2 = _ from hv', Out.ok_bind, Out.pure_def]
    have := momentAbout_affine hx α β 2
    unfold momentAbout at this
    rw [this, Real.sqrt_mul (by positivity), Real.sqrt_sq_eq_abs]

/-- **C41** StandardDeviation about a given point -/
theorem C41_standardDeviation_about (hc : c.Ok) (x : List ℝ) (hx : x ≠ []) (m : ℝ) :
    ∃ s, standardDeviationAbout c x m = .ok s ∧ 0 ≤ s ∧ s ^ 2 = avg (x.map fun a => (a - m) ^ 2) := by
  refine ⟨Real.sqrt (avg (x.map fun a => (a - m) ^ 2)), ?_, Real.sqrt_nonneg _, Real.sq_sqrt (avg_nonneg ?_)⟩
  · unfold standardDeviationAbout
    rw [C42_about_partial hc x hx 2 (Or.inl rfl), Out.ok_bind, Out.pure_def]
  · intro a ha
    obtain ⟨b, -, rfl⟩ := List.mem_map.1 ha
    positivity

/-- **C41** CorrectedVariance and CorrectedStandardDeviation: the sum of squared deviations divided by `n - 1`; fewer than two
samples are refused. -/
theorem C41_correctedVariance (hc : c.Ok) (x : List ℝ) :
    (2 ≤ x.length → ∃ v s, correctedVariance c x = .ok v ∧ v = (x.map fun a => (a - avg x) ^ 2).sum / ((x.length : ℝ) - 1) ∧
      correctedStandardDeviation c x = .ok s ∧ 0 ≤ s ∧ s ^ 2 = v) ∧
    (x.length < 2 → correctedVariance c x = .assertFail ∧ correctedStandardDeviation c x = .assertFail) := by
  constructor
  · intro h2
    have hx : x ≠ [] := by rintro rfl; simp at h2
    have hv := C41_variance hc x hx
    have hn : (x.length : ℝ) ≠ 0 := length_ne_zero hx
    have h2' : (2 : ℝ) ≤ x.length := by exact_mod_cast h2
    have hn1 : (x.length : ℝ) - 1 ≠ 0 := by linarith
    have e : avg (x.map fun a => (a - avg x) ^ 2) * x.length / ((x.length : ℝ) - 1) =
        (x.map fun a => (a - avg x) ^ 2).sum / ((x.length : ℝ) - 1) := by
      conv_lhs => rw [avg, List.length_map, div_mul_cancel₀ _ hn]
    refine ⟨_, Real.sqrt ((x.map fun a => (a - avg x) ^ 2).sum / ((x.length : ℝ) - 1)), ?_, rfl, ?_, Real.sqrt_nonneg _,
      Real.sq_sqrt ?_⟩
    · unfold correctedVariance
      rw [cassert_true h2, Out.ok_bind, show centralMoment c x 2 = _ from hv.1, Out.ok_bind, fdiv_ok hn1, e]
    · unfold correctedStandardDeviation
      rw [cassert_true h2, Out.ok_bind, show centralMoment c x 2 = _ from hv.1, Out.ok_bind, fdiv_ok hn1, Out.ok_bind, e]
      rfl
    · rw [← e]
      exact div_nonneg (mul_nonneg hv.2 (by positivity)) (by linarith)
  · intro h2
    unfold correctedVariance correctedStandardDeviation
    rw [cassert, if_neg (by omega)]
    exact ⟨rfl, rfl⟩

/-! ### skewness and kurtosis -/

theorem standardizedMoment_ok (hc : c.Ok) {x : List ℝ} (hx : x ≠ []) {k : ℕ} (hk : k = 4 ∨ (Odd k ∧ k ≠ 1))
    (hv : 0 < moment x 2) :
    standardizedMoment c x k = .ok (moment x k / moment x 2 ^ ((k : ℝ) / 2)) := by
  unfold standardizedMoment standardizedMomentAbout
  rw [mean_ok hc hx, Out.ok_bind, centralMomentAbout_spec hc hx (Or.inl rfl), Out.ok_bind,
    centralMomentAbout_spec hc hx (by tauto), Out.ok_bind, fdiv_ok]
  · rfl
  · exact (Real.rpow_pos_of_pos hv _).ne'

theorem moment_affine {x : List ℝ} (hx : x ≠ []) (α β : ℝ) (k : ℕ) :
    moment (affine α β x) k = α ^ k * moment x k := momentAbout_affine hx α β k

/-- **C41** Skewness: third central moment over the cube of the standard deviation; unchanged when the signal is scaled by
a positive factor and shifted, and negated by a negative factor. -/
theorem C41_skewness (hc : c.Ok) (x : List ℝ) (hx : ∃ a ∈ x, a ≠ avg x) (α β : ℝ) :
    ∃ s σ, standardDeviation c x = .ok σ ∧ 0 < σ ∧ skewness c x = .ok s ∧
      s * σ ^ 3 = avg (x.map fun a => (a - avg x) ^ 3) ∧
      (0 < α → skewness c (affine α β x) = .ok s) ∧ (α < 0 → skewness c (affine α β x) = .ok (-s)) := by
  have hx0 : x ≠ [] := by
    obtain ⟨a, ha, -⟩ := hx
    rintro rfl
    simp at ha
  have hv : 0 < moment x 2 := by
    refine lt_of_le_of_ne (C41_variance hc x hx0).2 (Ne.symm fun h => ?_)
    obtain ⟨a, ha, hne⟩ := hx
    exact hne ((C41_variance_zero_iff hc x hx0).1 (by rw [(C41_variance hc x hx0).1]; exact congrArg _ h) a ha)
  have key : ∀ y : ℝ, 0 < y → y ^ (((3 : ℕ) : ℝ) / 2) = Real.sqrt y ^ 3 := by
    intro y hy
    rw [Real.sqrt_eq_rpow, ← Real.rpow_natCast, ← Real.rpow_mul hy.le]
    congr 1
    norm_num
  have hσ : 0 < Real.sqrt (moment x 2) := Real.sqrt_pos.2 hv
  refine ⟨moment x 3 / moment x 2 ^ (((3 : ℕ) : ℝ) / 2), Real.sqrt (moment x 2), ?_, hσ, ?_, ?_, ?_⟩
  · unfold standardDeviation
    rw [show centralMoment c x 2 = _ from (C41_variance hc x hx0).1, Out.ok_bind]
    rfl
  · exact standardizedMoment_ok hc hx0 (Or.inr ⟨by decide, by decide⟩) hv
  · rw [key _ hv, div_mul_cancel₀ _ (by positivity)]
    rfl
  · have hgen : α ≠ 0 → skewness c (affine α β x) =
        .ok ((α ^ 3 * moment x 3) / (Real.sqrt (α ^ 2 * moment x 2)) ^ 3) := by
      intro hα
      have hv' : 0 < moment (affine α β x) 2 := by
        rw [moment_affine hx0]
        positivity
      rw [show skewness c (affine α β x) = _ from
        standardizedMoment_ok hc (affine_ne_nil hx0 α β) (Or.inr ⟨by decide, by decide⟩) hv', key _ hv',
        moment_affine hx0, moment_affine hx0]
    constructor
    · intro hα
      rw [hgen hα.ne', key _ hv, Real.sqrt_mul (by positivity), Real.sqrt_sq_eq_abs, abs_of_pos hα, mul_pow]
      congr 1
      field_simp
    · intro hα
      rw [hgen hα.ne, key _ hv, Real.sqrt_mul (by positivity), Real.sqrt_sq_eq_abs, abs_of_neg hα, mul_pow]
      congr 1
      have : α ≠ 0 := hα.ne
      field_simp

/-- **C41** Kurtosis: fourth central moment over the squared variance; at least one; unchanged when the signal is scaled
and shifted. -/
theorem C41_kurtosis (hc : c.Ok) (x : List ℝ) (hx : ∃ a ∈ x, a ≠ avg x) (α β : ℝ) (hα : α ≠ 0) :
    ∃ k v, variance c x = .ok v ∧ 0 < v ∧ kurtosis c x = .ok k ∧
      k * v ^ 2 = avg (x.map fun a => (a - avg x) ^ 4) ∧ 1 ≤ k ∧ kurtosis c (affine α β x) = .ok k := by
  have hx0 : x ≠ [] := by
    obtain ⟨a, ha, -⟩ := hx
    rintro rfl
    simp at ha
  have hv : 0 < moment x 2 := by
    refine lt_of_le_of_ne (C41_variance hc x hx0).2 (Ne.symm fun h => ?_)
    obtain ⟨a, ha, hne⟩ := hx
    exact hne ((C41_variance_zero_iff hc x hx0).1 (by rw [(C41_variance hc x hx0).1]; exact congrArg _ h) a ha)
  have key : ∀ y : ℝ, 0 < y → y ^ (((4 : ℕ) : ℝ) / 2) = y ^ 2 := by
    intro y hy
    rw [← Real.rpow_natCast]
    congr 1
    norm_num
  have h4 : moment x 2 ^ 2 ≤ moment x 4 := by
    have h := (C41_variance hc (x.map fun a => (a - avg x) ^ 2) (by simpa using hx0)).2
    rw [avg_sq_dev (by simpa using hx0)] at h
    have e1 : avg (x.map fun a => (a - avg x) ^ 2) = moment x 2 := rfl
    have e2 : avg ((x.map fun a => (a - avg x) ^ 2).map fun a => a ^ 2) = moment x 4 := by
      rw [List.map_map]
      unfold moment momentAbout
      congr 1
      apply List.map_congr_left
      intro a _
      simp only [Function.comp_apply]
      ring
    rw [e1, e2] at h
    linarith
  refine ⟨moment x 4 / moment x 2 ^ (((4 : ℕ) : ℝ) / 2), moment x 2, (C41_variance hc x hx0).1, hv, ?_, ?_, ?_, ?_⟩
  · exact standardizedMoment_ok hc hx0 (Or.inl rfl) hv
  · rw [key _ hv, div_mul_cancel₀ _ (by positivity)]
    rfl
  · rw [key _ hv, le_div_iff₀ (by positivity), one_mul]
    exact h4
  · have hv' : 0 < moment (affine α β x) 2 := by
      rw [moment_affine hx0]
      positivity
    rw [show kurtosis c (affine α β x) = _ from standardizedMoment_ok hc (affine_ne_nil hx0 α β) (Or.inl rfl) hv',
      key _ hv', key _ hv, moment_affine hx0, moment_affine hx0]
    congr 1
    field_simp

theorem moment_two_pos (hc : c.Ok) {x : List ℝ} (hx : ∃ a ∈ x, a ≠ avg x) : x ≠ [] ∧ 0 < moment x 2 := by
  have hx0 : x ≠ [] := by
    obtain ⟨a, ha, -⟩ := hx
    rintro rfl
    simp at ha
  refine ⟨hx0, lt_of_le_of_ne (C41_variance hc x hx0).2 (Ne.symm fun h => ?_)⟩
  obtain ⟨a, ha, hne⟩ := hx
  exact hne ((C41_variance_zero_iff hc x hx0).1 (by rw [(C41_variance hc x hx0).1]; exact congrArg _ h) a ha)

theorem correctedSkewness_ok (hc : c.Ok) {x : List ℝ} (hx : x ≠ []) (hv : 0 < moment x 2) (h3 : 3 ≤ x.length) :
    correctedSkewness c x = .ok ((x.length * x.length / ((x.length - 2) * (x.length - 1)) * moment x 3) /
      (Real.sqrt (x.length / (x.length - 1) * moment x 2)) ^ 3) := by
  have h3' : (3 : ℝ) ≤ x.length := by exact_mod_cast h3
  have hn1 : (0 : ℝ) < x.length - 1 := by linarith
  have hn2 : (0 : ℝ) < x.length - 2 := by linarith
  have hp : 0 < (x.length : ℝ) / (x.length - 1) * moment x 2 := mul_pos (div_pos (by linarith) hn1) hv
  unfold correctedSkewness
  simp only []
  rw [cassert_true h3, Out.ok_bind, mean_ok hc hx, Out.ok_bind, centralMomentAbout_spec hc hx (Or.inr (Or.inr ⟨by decide, by decide⟩)),
    Out.ok_bind, centralMomentAbout_spec hc hx (Or.inl rfl), Out.ok_bind, fdiv_ok (by positivity), Out.ok_bind,
    fdiv_ok (by positivity), Out.ok_bind, fdiv_ok]
  · rw [Real.sqrt_eq_rpow, ← Real.rpow_natCast (_ ^ (1 / 2 : ℝ)) 3, ← Real.rpow_mul hp.le]
    norm_num
    rfl
  · exact (Real.rpow_pos_of_pos hp _).ne'

/-- **C41** CorrectedSkewness: `n / ((n - 1) (n - 2))` times the sum of the cubed deviations, over the cube of the corrected
standard deviation; unchanged when the signal is scaled by a positive factor and shifted, negated when the factor is negative;
fewer than three samples are refused. -/
theorem C41_correctedSkewness (hc : c.Ok) (x : List ℝ) :
    (3 ≤ x.length → (∃ a ∈ x, a ≠ avg x) → ∃ g s : ℝ, correctedSkewness c x = .ok g ∧
      correctedStandardDeviation c x = .ok s ∧ 0 < s ∧
      g * s ^ 3 = x.length / ((x.length - 1) * (x.length - 2)) * (x.map fun a => (a - avg x) ^ 3).sum ∧
      ∀ α β : ℝ, (0 < α → correctedSkewness c (affine α β x) = .ok g) ∧
        (α < 0 → correctedSkewness c (affine α β x) = .ok (-g))) ∧
    (x.length < 3 → correctedSkewness c x = .assertFail) := by
  constructor
  · intro h3 hx
    obtain ⟨hx0, hv⟩ := moment_two_pos hc hx
    have h3' : (3 : ℝ) ≤ x.length := by exact_mod_cast h3
    have hn1 : (0 : ℝ) < x.length - 1 := by linarith
    have hn2 : (0 : ℝ) < x.length - 2 := by linarith
    have hn0 : (0 : ℝ) < x.length := by linarith
    have hp : 0 < (x.length : ℝ) / (x.length - 1) * moment x 2 := mul_pos (div_pos (by linarith) hn1) hv
    refine ⟨_, Real.sqrt (x.length / (x.length - 1) * moment x 2), correctedSkewness_ok hc hx0 hv h3, ?_, Real.sqrt_pos.2 hp,
      ?_, ?_⟩
    · unfold correctedStandardDeviation
      rw [cassert_true (by omega), Out.ok_bind, show centralMoment c x 2 = _ from (C41_variance hc x hx0).1, Out.ok_bind,
        fdiv_ok hn1.ne', Out.ok_bind]
      show Out.ok _ = Out.ok _
      congr 2
      show moment x 2 * _ / _ = _
      field_simp
    · rw [div_mul_cancel₀ _ (pow_ne_zero _ (Real.sqrt_pos.2 hp).ne')]
      have : (x.map fun a => (a - avg x) ^ 3).sum = x.length * moment x 3 := by
        unfold moment momentAbout
        conv_rhs => rw [avg, List.length_map, mul_div_cancel₀ _ hn0.ne']
      rw [this]
      field_simp
    · intro α β
      have hgen : α ≠ 0 → correctedSkewness c (affine α β x) =
          .ok ((x.length * x.length / ((x.length - 2) * (x.length - 1)) * (α ^ 3 * moment x 3)) /
            (|α| * Real.sqrt (x.length / (x.length - 1) * moment x 2)) ^ 3) := by
        intro hα
        have hv' : 0 < moment (affine α β x) 2 := by
          rw [moment_affine hx0]
          positivity
        have hl : (affine α β x).length = x.length := by simp [affine]
        rw [correctedSkewness_ok hc (affine_ne_nil hx0 α β) hv' (by rw [hl]; exact h3), moment_affine hx0, moment_affine hx0, hl,
          show (x.length : ℝ) / (x.length - 1) * (α ^ 2 * moment x 2) = α ^ 2 * (x.length / (x.length - 1) * moment x 2) by ring,
          Real.sqrt_mul (by positivity), Real.sqrt_sq_eq_abs]
      have hs := (Real.sqrt_pos.2 hp).ne'
      generalize Real.sqrt (x.length / (x.length - 1) * moment x 2) = s at *
      constructor
      · intro hα
        rw [hgen hα.ne', abs_of_pos hα]
        congr 1
        field_simp
      · intro hα
        have : α ≠ 0 := hα.ne
        rw [hgen hα.ne, abs_of_neg hα]
        congr 1
        field_simp
  · intro h
    unfold correctedSkewness
    simp only []
    rw [cassert, if_neg (by omega)]
    rfl

/-- **C41** CorrectedKurtosis is defined for four or more samples that are not all equal, and is unchanged when the signal is
scaled and shifted; fewer than four samples are refused. -/
theorem C41_correctedKurtosis (hc : c.Ok) (x : List ℝ) :
    (4 ≤ x.length → (∃ a ∈ x, a ≠ avg x) → ∃ g : ℝ, correctedKurtosis c x = .ok g ∧
      ∀ α β : ℝ, α ≠ 0 → correctedKurtosis c (affine α β x) = .ok g) ∧
    (x.length < 4 → correctedKurtosis c x = .assertFail) := by
  constructor
  · intro h4 hx
    obtain ⟨hx0, hv⟩ := moment_two_pos hc hx
    have h4' : (4 : ℝ) ≤ x.length := by exact_mod_cast h4
    have hgen : ∀ y : List ℝ, y.length = x.length → y ≠ [] → 0 < moment y 2 → correctedKurtosis c y = .ok
        ((x.length * x.length / ((x.length - 1) * (x.length - 1) * (x.length - 1) * (x.length * x.length - 3 * x.length + 3)) *
          ((x.length * (x.length - 1) * (x.length - 1) + (6 * x.length - 9)) *
            ((x.length - 1) / (x.length * x.length * x.length) *
              ((x.length * x.length - 3 * x.length + 3) * moment y 4 + (6 * x.length - 9) * (moment y 2 * moment y 2))) -
            x.length * (6 * x.length - 9) * ((x.length - 1) / x.length * moment y 2) *
              ((x.length - 1) / x.length * moment y 2))) / (x.length / (x.length - 1) * moment y 2) ^ 2) := by
      intro y hl hy0 hvy
      unfold correctedKurtosis
      simp only [hl]
      generalize (x.length : ℝ) = n at *
      have hn1 : (0 : ℝ) < n - 1 := by linarith
      have hn0 : (0 : ℝ) < n := by linarith
      have hn2 : (0 : ℝ) < n * n - 3 * n + 3 := by nlinarith
      have hp : 0 < n / (n - 1) * moment y 2 := mul_pos (div_pos (by linarith) hn1) hvy
      rw [cassert_true h4, Out.ok_bind, mean_ok hc hy0, Out.ok_bind, centralMomentAbout_spec hc hy0 (Or.inr (Or.inl rfl)),
        Out.ok_bind, centralMomentAbout_spec hc hy0 (Or.inl rfl), Out.ok_bind, fdiv_ok (by positivity), Out.ok_bind,
        fdiv_ok (by positivity), Out.ok_bind, fdiv_ok (by positivity), Out.ok_bind, fdiv_ok (by positivity), Out.ok_bind, fdiv_ok]
      · congr 2
        rw [← Real.rpow_natCast]
        norm_num
        rfl
      · exact (Real.rpow_pos_of_pos hp _).ne'
    refine ⟨_, hgen x rfl hx0 hv, ?_⟩
    intro α β hα
    have hv' : 0 < moment (affine α β x) 2 := by
      rw [moment_affine hx0]
      positivity
    rw [hgen _ (by simp [affine]) (affine_ne_nil hx0 α β) hv', moment_affine hx0, moment_affine hx0]
    generalize (x.length : ℝ) = n at *
    have hn1 : (0 : ℝ) < n - 1 := by linarith
    have hn0 : (0 : ℝ) < n := by linarith
    have hn2 : (0 : ℝ) < n * n - 3 * n + 3 := by nlinarith
    generalize moment x 2 = p at *
    generalize moment x 4 = q at *
    congr 1
    rw [div_eq_div_iff (by positivity) (by positivity)]
    ring
  · intro h
    unfold correctedKurtosis
    simp only []
    rw [cassert, if_neg (by omega)]
    rfl

/-! ### extremes -/

theorem foldl_max_spec (l : List ℝ) (x : ℝ) :
    (l.foldl (fun a b => max a b) x = x ∨ l.foldl (fun a b => max a b) x ∈ l) ∧ x ≤ l.foldl (fun a b => max a b) x ∧
      ∀ a ∈ l, a ≤ l.foldl (fun a b => max a b) x := by
  induction l generalizing x with
  | nil => simp
  | cons b l ih =>
    obtain ⟨h1, h2, h3⟩ := ih (max x b)
    simp only [List.foldl_cons]
    refine ⟨?_, le_trans (le_max_left _ _) h2, ?_⟩
    · rcases h1 with h | h
      · rw [h]
        rcases max_choice x b with hm | hm
        · exact Or.inl hm
        · right; rw [hm]; simp
      · right; simp [h]
    · intro a ha
      rcases List.mem_cons.1 ha with rfl | ha
      · exact le_trans (le_max_right _ _) h2
      · exact h3 a ha

theorem foldl_min_spec (l : List ℝ) (x : ℝ) :
    (l.foldl (fun a b => min a b) x = x ∨ l.foldl (fun a b => min a b) x ∈ l) ∧ l.foldl (fun a b => min a b) x ≤ x ∧
      ∀ a ∈ l, l.foldl (fun a b => min a b) x ≤ a := by
  induction l generalizing x with
  | nil => simp
  | cons b l ih =>
    obtain ⟨h1, h2, h3⟩ := ih (min x b)
    simp only [List.foldl_cons]
    refine ⟨?_, le_trans h2 (min_le_left _ _), ?_⟩
    · rcases h1 with h | h
      · rw [h]
        rcases min_choice x b with hm | hm
        · exact Or.inl hm
        · right; rw [hm]; simp
      · right; simp [h]
    · intro a ha
      rcases List.mem_cons.1 ha with rfl | ha
      · exact le_trans h2 (min_le_right _ _)
      · exact h3 a ha

/-- **C44**: `Max` returns an element of the signal that no other exceeds; an empty signal fails the assertion. -/
theorem C44_max (hc : c.Ok) (x : List ℝ) :
    (x ≠ [] → ∃ m, statMax c x = .ok m ∧ m ∈ x ∧ ∀ a ∈ x, a ≤ m) ∧ statMax c [] = .assertFail := by
  constructor
  · intro hx
    obtain ⟨b, l, rfl⟩ := List.exists_cons_of_ne_nil hx
    obtain ⟨t, hp, he⟩ := C09_reduce_any_op c.vec c.W hc.1 c.red₁ c.red₂ hc.2.1 hc.2.2 (fun a b : ℝ => max a b) (b :: l) 0
      (b :: l).length (by omega) b
    simp only [List.drop_zero, List.take_length] at hp
    rw [tree_eval_comm _ (fun a b c => max_assoc a b c) (fun a b => max_comm a b) t b (b :: l) hp] at he
    obtain ⟨h1, h2, h3⟩ := foldl_max_spec (b :: l) b
    refine ⟨_, ?_, ?_, h3⟩
    · unfold statMax
      rw [cassert_true hx, Out.ok_bind, show rd (b :: l) 0 = .ok b from rfl, Out.ok_bind, he]
    · rcases h1 with h | h
      · rw [h]; simp
      · exact h
  · unfold statMax
    rw [cassert, if_neg (by simp)]
    rfl

/-- **C44**: `Min` returns an element of the signal that exceeds no other; an empty signal fails the assertion. -/
theorem C44_min (hc : c.Ok) (x : List ℝ) :
    (x ≠ [] → ∃ m, statMin c x = .ok m ∧ m ∈ x ∧ ∀ a ∈ x, m ≤ a) ∧ statMin c [] = .assertFail := by
  constructor
  · intro hx
    obtain ⟨b, l, rfl⟩ := List.exists_cons_of_ne_nil hx
    obtain ⟨t, hp, he⟩ := C09_reduce_any_op c.vec c.W hc.1 c.red₁ c.red₂ hc.2.1 hc.2.2 (fun a b : ℝ => min a b) (b :: l) 0
      (b :: l).length (by omega) b
    simp only [List.drop_zero, List.take_length] at hp
    rw [tree_eval_comm _ (fun a b c => min_assoc a b c) (fun a b => min_comm a b) t b (b :: l) hp] at he
    obtain ⟨h1, h2, h3⟩ := foldl_min_spec (b :: l) b
    refine ⟨_, ?_, ?_, h3⟩
    · unfold statMin
      rw [cassert_true hx, Out.ok_bind, show rd (b :: l) 0 = .ok b from rfl, Out.ok_bind, he]
    · rcases h1 with h | h
      · rw [h]; simp
      · exact h
  · unfold statMin
    rw [cassert, if_neg (by simp)]
    rfl

/-! ### covariance and correlation -/

theorem innerProduct_sum (hc : c.Ok) (prod : ℝ → ℝ → ℝ) (a b : List ℝ) (h : a.length = b.length) :
    innerProduct c.vec c.W c.red₁ c.red₂ prod a b 0 a.length 0 0 (plainOp (fun acc x => acc + x)) =
      .ok (List.zipWith prod a b).sum := by
  obtain ⟨t, hp, he⟩ := C10_innerProduct_any_op c.vec c.W hc.1 c.red₁ c.red₂ hc.2.1 hc.2.2 (fun a b : ℝ => a + b) prod a b 0
    a.length 0 (by omega) (by omega) (0 : ℝ)
  rw [he]
  have : t.eval (fun a b : ℝ => a + b) = t.leaves.sum := eval_add t
  rw [this, hp.sum_eq]
  simp only [List.drop_zero, List.take_length, List.sum_cons, zero_add]
  rw [h, List.take_length]

/-- **C41** Covariance: the mean product of the deviations; different lengths are refused. -/
theorem C41_covariance (hc : c.Ok) (a b : List ℝ) :
    (a.length = b.length → a ≠ [] →
      covariance c a b = .ok (avg (List.zipWith (fun x y => (x - avg a) * (y - avg b)) a b))) ∧
    (a.length ≠ b.length → covariance c a b = .assertFail) := by
  constructor
  · intro h ha
    have hb : b ≠ [] := by
      rintro rfl
      exact ha (List.length_eq_zero_iff.1 h)
    unfold covariance covarianceAbout
    rw [mean_ok hc ha, Out.ok_bind, mean_ok hc hb, Out.ok_bind, cassert_true h, Out.ok_bind, innerProduct_sum hc _ a b h,
      Out.ok_bind, fdiv_ok (length_ne_zero ha)]
    simp only [avg, List.length_zipWith, h, min_self]
  · intro h
    have hm : ∀ x : List ℝ, ∃ m, statMean c x = .ok m := by
      intro x
      by_cases hx : x = []
      · subst hx
        exact ⟨0, (C41_mean hc []).2⟩
      · exact ⟨_, mean_ok hc hx⟩
    obtain ⟨ma, ea⟩ := hm a
    obtain ⟨mb, eb⟩ := hm b
    unfold covariance covarianceAbout
    rw [ea, Out.ok_bind, eb, Out.ok_bind, cassert, if_neg h]
    rfl

theorem zipWith_swap (f : ℝ → ℝ → ℝ) (a b : List ℝ) : List.zipWith f a b = List.zipWith (fun x y => f y x) b a := by
  induction a generalizing b with
  | nil => simp
  | cons x a ih => cases b with
    | nil => simp
    | cons y b => simp [ih]

theorem cov_comm (a b : List ℝ) : cov a b = cov b a := by
  unfold cov
  rw [zipWith_swap]
  simp only [mul_comm]

theorem cov_self (a : List ℝ) : cov a a = moment a 2 := by
  unfold cov moment momentAbout
  rw [List.zipWith_self]
  simp only [pow_two]

/-- **C41**: covariance is symmetric, is the variance for equal arguments, and is the mean of the products minus the product
of the means. -/
theorem C41_covariance_laws (hc : c.Ok) (a b : List ℝ) (h : a.length = b.length) (ha : a ≠ []) :
    covariance c a b = covariance c b a ∧ covariance c a a = variance c a ∧
    covariance c a b = .ok (avg (List.zipWith (· * ·) a b) - avg a * avg b) := by
  have hb : b ≠ [] := by
    rintro rfl
    exact ha (List.length_eq_zero_iff.1 h)
  refine ⟨?_, ?_, ?_⟩
  · rw [(C41_covariance hc a b).1 h ha, (C41_covariance hc b a).1 h.symm hb]
    exact congrArg _ (cov_comm a b)
  · rw [(C41_covariance hc a a).1 rfl ha, (C41_variance hc a ha).1]
    exact congrArg _ (cov_self a)
  · rw [(C41_covariance hc a b).1 h ha]
    congr 1
    have key : ∀ (p q : ℝ) (a b : List ℝ), a.length = b.length →
        (List.zipWith (fun x y => (x - p) * (y - q)) a b).sum =
          (List.zipWith (· * ·) a b).sum - p * b.sum - q * a.sum + a.length * (p * q) := by
      intro p q a
      induction a with
      | nil => intro b hb; cases b <;> simp_all
      | cons x a ih =>
        intro b hb
        cases b with
        | nil => simp at hb
        | cons y b =>
          simp only [List.zipWith_cons_cons, List.sum_cons, List.length_cons]
          rw [ih b (by simpa using hb)]
          push_cast
          ring
    unfold avg
    rw [key _ _ a b h]
    simp only [List.length_zipWith, h, min_self]
    field_simp [length_ne_zero hb]
    ring

/-- **C41** CorrectedCovariance -/
theorem C41_correctedCovariance (hc : c.Ok) (a b : List ℝ) (h : a.length = b.length) (h2 : 2 ≤ a.length) :
    correctedCovariance c a b =
      .ok ((List.zipWith (fun x y => (x - avg a) * (y - avg b)) a b).sum / ((a.length : ℝ) - 1)) := by
  have ha : a ≠ [] := by rintro rfl; simp at h2
  have h2' : (2 : ℝ) ≤ a.length := by exact_mod_cast h2
  have hn1 : (a.length : ℝ) - 1 ≠ 0 := by linarith
  unfold correctedCovariance
  rw [cassert_true h, Out.ok_bind, cassert_true h2, Out.ok_bind, fdiv_ok hn1, Out.ok_bind, (C41_covariance hc a b).1 h ha,
    Out.ok_bind, Out.pure_def]
  congr 1
  conv_lhs => rw [avg]
  simp only [List.length_zipWith, ← h, min_self]
  field_simp [length_ne_zero ha]

/-- Cauchy-Schwarz -/
theorem cov_sq_le (a b : List ℝ) (h : a.length = b.length) (ha : a ≠ []) :
    cov a b ^ 2 ≤ moment a 2 * moment b 2 := by
  have hb : b ≠ [] := by
    rintro rfl
    exact ha (List.length_eq_zero_iff.1 h)
  have expand : ∀ (p q t : ℝ) (a b : List ℝ), a.length = b.length →
      0 ≤ (a.map fun x => (x - p) ^ 2).sum * (t * t) + 2 * (List.zipWith (fun x y => (x - p) * (y - q)) a b).sum * t +
        (b.map fun y => (y - q) ^ 2).sum := by
    intro p q t a
    induction a with
    | nil => intro b hb; cases b <;> simp_all
    | cons x a ih =>
      intro b hb
      cases b with
      | nil => simp at hb
      | cons y b =>
        have := ih b (by simpa using hb)
        simp only [List.zipWith_cons_cons, List.map_cons, List.sum_cons]
        nlinarith [sq_nonneg ((x - p) * t + (y - q))]
  have hd := discrim_le_zero (fun t => expand (avg a) (avg b) t a b h)
  unfold discrim at hd
  have hn : (0 : ℝ) < a.length := lt_of_le_of_ne (Nat.cast_nonneg _) (Ne.symm (length_ne_zero ha))
  unfold cov moment momentAbout
  conv_lhs => rw [avg]
  conv_rhs => rw [avg]; arg 2; rw [avg]
  simp only [List.length_zipWith, List.length_map, ← h, min_self]
  rw [div_pow, div_mul_div_comm, ← pow_two]
  exact div_le_div_of_nonneg_right (by linarith) (by positivity)

/-- **C43**: for equally long signals that are not constant, the correlation exists, lies in [-1, 1], is symmetric, and is 1
for a signal and itself.  For a constant signal there is a division by zero. -/
theorem C43_correlation (hc : c.Ok) (a b : List ℝ) (h : a.length = b.length) (ha : ∃ x ∈ a, x ≠ avg a)
    (hb : ∃ y ∈ b, y ≠ avg b) :
    ∃ r, correlation c a b = .ok r ∧ -1 ≤ r ∧ r ≤ 1 ∧ correlation c b a = .ok r ∧ correlation c a a = .ok 1 := by
  have pos : ∀ x : List ℝ, (∃ y ∈ x, y ≠ avg x) → x ≠ [] ∧ 0 < moment x 2 := by
    intro x hx
    have hx0 : x ≠ [] := by
      obtain ⟨a, ha, -⟩ := hx
      rintro rfl
      simp at ha
    refine ⟨hx0, lt_of_le_of_ne (C41_variance hc x hx0).2 (Ne.symm fun h => ?_)⟩
    obtain ⟨a, ha, hne⟩ := hx
    exact hne ((C41_variance_zero_iff hc x hx0).1 (by rw [(C41_variance hc x hx0).1]; exact congrArg _ h) a ha)
  obtain ⟨ha0, hva⟩ := pos a ha
  obtain ⟨hb0, hvb⟩ := pos b hb
  have hsd : ∀ x : List ℝ, x ≠ [] → standardDeviation c x = .ok (Real.sqrt (moment x 2)) := by
    intro x hx
    unfold standardDeviation
    rw [show centralMoment c x 2 = _ from (C41_variance hc x hx).1, Out.ok_bind]
    rfl
  have hcor : ∀ x y : List ℝ, x.length = y.length → x ≠ [] → y ≠ [] → 0 < moment x 2 → 0 < moment y 2 →
      correlation c x y = .ok (cov x y / (Real.sqrt (moment x 2) * Real.sqrt (moment y 2))) := by
    intro x y hxy hx hy hvx hvy
    unfold correlation
    rw [cassert_true hxy, Out.ok_bind, (C41_covariance hc x y).1 hxy hx, Out.ok_bind, hsd x hx, Out.ok_bind, hsd y hy,
      Out.ok_bind, fdiv_ok]
    · rfl
    · exact (mul_pos (Real.sqrt_pos.2 hvx) (Real.sqrt_pos.2 hvy)).ne'
  have hden : 0 < Real.sqrt (moment a 2) * Real.sqrt (moment b 2) := mul_pos (Real.sqrt_pos.2 hva) (Real.sqrt_pos.2 hvb)
  have habs : |cov a b| ≤ Real.sqrt (moment a 2) * Real.sqrt (moment b 2) := by
    rw [← Real.sqrt_mul hva.le]
    exact Real.abs_le_sqrt (cov_sq_le a b h ha0)
  refine ⟨_, hcor a b h ha0 hb0 hva hvb, ?_, ?_, ?_, ?_⟩
  · rw [le_div_iff₀ hden]
    linarith [neg_abs_le (cov a b)]
  · rw [div_le_iff₀ hden]
    linarith [le_abs_self (cov a b)]
  · rw [hcor b a h.symm hb0 ha0 hvb hva, cov_comm b a, mul_comm]
  · rw [hcor a a rfl ha0 ha0 hva hva, cov_self, Real.mul_self_sqrt hva.le, div_self hva.ne']

/-- **C43**: the correlation with a constant signal divides by zero; different lengths are refused. -/
theorem C43_degenerate (hc : c.Ok) (a b : List ℝ) :
    (a.length = b.length → a ≠ [] → (∀ x ∈ a, x = avg a) → correlation c a b = .ub) ∧
    (a.length ≠ b.length → correlation c a b = .assertFail) := by
  constructor
  · intro h ha hconst
    have hb : b ≠ [] := by
      rintro rfl
      exact ha (List.length_eq_zero_iff.1 h)
    have hz : avg (a.map fun x => (x - avg a) ^ 2) = 0 := by
      have h0 := (C41_variance_zero_iff hc a ha).2 hconst
      rw [(C41_variance hc a ha).1] at h0
      injection h0
    unfold correlation standardDeviation
    rw [cassert_true h, Out.ok_bind, (C41_covariance hc a b).1 h ha, Out.ok_bind,
      show centralMoment c a 2 = _ from (C41_variance hc a ha).1, Out.ok_bind, Out.pure_def, Out.ok_bind,
      show centralMoment c b 2 = _ from (C41_variance hc b hb).1, Out.ok_bind, Out.pure_def, Out.ok_bind, hz, fdiv_zero]
    simp
  · intro h
    unfold correlation
    rw [cassert, if_neg h]
    rfl

/-- **C43**: perfectly linearly related signals have correlation 1 or -1. -/
theorem C43_linear (hc : c.Ok) (a : List ℝ) (ha : ∃ x ∈ a, x ≠ avg a) (α β : ℝ) :
    (0 < α → correlation c a (affine α β a) = .ok 1) ∧ (α < 0 → correlation c a (affine α β a) = .ok (-1)) := by
  have ha0 : a ≠ [] := by
    obtain ⟨x, hx, -⟩ := ha
    rintro rfl
    simp at hx
  have hva : 0 < moment a 2 := by
    refine lt_of_le_of_ne (C41_variance hc a ha0).2 (Ne.symm fun h => ?_)
    obtain ⟨x, hx, hne⟩ := ha
    exact hne ((C41_variance_zero_iff hc a ha0).1 (by rw [(C41_variance hc a ha0).1]; exact congrArg _ h) x hx)
  have hl : a.length = (affine α β a).length := by simp [affine]
  have hcov : cov a (affine α β a) = α * moment a 2 := by
    unfold cov moment momentAbout
    rw [avg_affine ha0, ← avg_smul]
    congr 1
    unfold affine
    rw [List.zipWith_map_right, List.zipWith_self]
    apply List.map_congr_left
    intro x _
    ring
  have hgen : α ≠ 0 → correlation c a (affine α β a) = .ok (α / |α|) := by
    intro hα
    have hv' : moment (affine α β a) 2 = α ^ 2 * moment a 2 := moment_affine ha0 α β 2
    unfold correlation standardDeviation
    rw [cassert_true hl, Out.ok_bind, (C41_covariance hc a _).1 hl ha0, Out.ok_bind,
      show centralMoment c a 2 = .ok (moment a 2) from (C41_variance hc a ha0).1, Out.ok_bind, Out.pure_def, Out.ok_bind,
      show centralMoment c (affine α β a) 2 = .ok (moment (affine α β a) 2) from
        (C41_variance hc _ (affine_ne_nil ha0 α β)).1,
      Out.ok_bind, Out.pure_def, Out.ok_bind, hv', Real.sqrt_mul (by positivity), Real.sqrt_sq_eq_abs]
    have hs : 0 < Real.sqrt (moment a 2) := Real.sqrt_pos.2 hva
    have hab : |α| ≠ 0 := abs_ne_zero.2 hα
    rw [fdiv_ok (by positivity)]
    congr 1
    have e : avg (List.zipWith (fun x y => (x - avg a) * (y - avg (affine α β a))) a (affine α β a)) =
        α * moment a 2 := hcov
    rw [e]
    have hsq : Real.sqrt (moment a 2) * Real.sqrt (moment a 2) = moment a 2 := Real.mul_self_sqrt hva.le
    rw [div_eq_div_iff (by positivity) hab]
    linear_combination (α * |α|) * (-hsq)
  constructor
  · intro hα
    rw [hgen hα.ne', abs_of_pos hα, div_self hα.ne']
  · intro hα
    rw [hgen hα.ne, abs_of_neg hα, div_neg, div_self hα.ne]

-- a non-constant signal
example : ∃ a ∈ [(1 : ℝ), 2, 6], a ≠ avg [1, 2, 6] := ⟨1, by simp, by norm_num [avg]⟩
example (hc : c.Ok) : centralMoment c [1, 2, 6] 3 = .ok 6 := by
  rw [C42_centralMoment_partial hc _ (by simp) 3 (by decide)]
  norm_num [avg]

end Verif
