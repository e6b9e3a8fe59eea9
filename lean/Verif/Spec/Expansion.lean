import Mathlib.Algebra.Polynomial.Basic
import Mathlib.Algebra.Polynomial.Eval.Defs
import Mathlib.Data.Real.Basic

/-! # Specification of the expansion of a factored polynomial -/

namespace Verif
open Polynomial

/-- The monic polynomial whose roots are the numbers `reals` and, for every `(a, b)` of `pairs`, the conjugate pair `a ± b i`. -/
noncomputable def expanded (reals : List ℝ) (pairs : List (ℝ × ℝ)) : ℝ[X] :=
  (reals.map fun r => X - C r).prod * (pairs.map fun z => X ^ 2 - C (2 * z.1) * X + C (z.1 ^ 2 + z.2 ^ 2)).prod

/-- The same with the terms of every coefficient added up in magnitude. -/
noncomputable def expandedMagnitude (reals : List ℝ) (pairs : List (ℝ × ℝ)) : ℝ[X] :=
  (reals.map fun r => X + C |r|).prod * (pairs.map fun z => X ^ 2 + C (2 * |z.1|) * X + C (z.1 ^ 2 + z.2 ^ 2)).prod

end Verif
