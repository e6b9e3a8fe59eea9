import Verif.Spec.FloatWindows
import Mathlib.Analysis.SpecialFunctions.Trigonometric.Sinc

/-!
# Specification: what the design of a windowed low pass in floating point relies on
-/

namespace Verif

variable {F : Type} [Zero F] [Add F] [Sub F] [Mul F] [Fma F] [Div F] [FloatFun F]

/-- `pi` and `std::sin` are accurate: `pi` has a relative error of `2 u`; the sine of a number that is not near the underflow
threshold is wrong by at most `2 u` of that number. -/
structure SineOps.Ok (A : FloatArithFun F) (pi : F) (sin : F → F) : Prop where
  pi : A.Near pi Real.pi (2 * A.u * Real.pi)
  sin : ∀ a, A.finite a → A.tiny ≤ A.u * |A.val a| → A.Near (sin a) (Real.sin (A.val a)) (2 * A.u * |A.val a|)

/-- The taps of the ideal low pass with cutoff `fc` (1 is the Nyquist frequency), centred at `n / 2`, times the window. -/
noncomputable def windowedTap (A : FloatArithFun F) (n : ℕ) (fc : ℝ) (w : ℕ → F) (i : ℕ) : ℝ :=
  A.val (w i) * Real.sinc (Real.pi * fc * ((i : ℝ) - (n / 2 : ℕ)))

/-- their sum, the gain at frequency zero before normalisation -/
noncomputable def windowedSum (A : FloatArithFun F) (n : ℕ) (fc : ℝ) (w : ℕ → F) : ℝ := ∑ i ∈ Finset.range n, windowedTap A n fc w i

/-- `|w₀| + … + |wₙ₋₁|` -/
noncomputable def windowMagnitude (A : FloatArithFun F) (n : ℕ) (w : ℕ → F) : ℝ := ∑ i ∈ Finset.range n, |A.val (w i)|

/-- The format suits a low pass of `n` taps with cutoff `fc`: integers up to `n` are exact, nothing overflows, underflow is negligible
and the sum of the taps is not drowned by rounding. -/
structure SuitsLowpass (A : FloatArithFun F) (n : ℕ) (fc : ℝ) (w : ℕ → F) : Prop where
  u : A.u ≤ 1 / 1000
  integers : ∀ k, k ≤ n → A.finite (FloatFun.ofSize k : F) ∧ A.val (FloatFun.ofSize k) = k
  cutoff_pos : 0 < fc
  cutoff_le : fc ≤ 1
  underflow : A.tiny ≤ A.u * fc
  long : n * A.u ≤ 1 / 10
  huge : 10 * n + 1000 ≤ A.huge
  sum : windowedSum A n fc w ≠ 0
  conditioned : (8 * n + 200) * A.u * windowMagnitude A n w ≤ |windowedSum A n fc w|
  underflow_sum : n * A.tiny ≤ A.u * windowMagnitude A n w
  range : 4 * (windowMagnitude A n w + 1) * (1 / |windowedSum A n fc w| + 1) ≤ A.huge

end Verif
