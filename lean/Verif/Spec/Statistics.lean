import Mathlib.Data.Real.Basic

/-!
# Specification of the statistics
-/

namespace Verif

/-- arithmetic mean of a non-empty list of numbers -/
noncomputable def avg (x : List ℝ) : ℝ := x.sum / x.length

/-- mean of the `k`-th powers of the deviations from `m` -/
noncomputable def momentAbout (x : List ℝ) (m : ℝ) (k : ℕ) : ℝ := avg (x.map fun a => (a - m) ^ k)

/-- `k`-th central moment -/
noncomputable def moment (x : List ℝ) (k : ℕ) : ℝ := momentAbout x (avg x) k

/-- mean of the products of the deviations -/
noncomputable def cov (x y : List ℝ) : ℝ := avg (List.zipWith (fun a b => (a - avg x) * (b - avg y)) x y)

/-- the signal `α x + β` -/
noncomputable def affine (α β : ℝ) (x : List ℝ) : List ℝ := x.map fun a => α * a + β

end Verif
