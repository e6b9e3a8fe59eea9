import Verif.Model.SpacesFloat
import Mathlib.Analysis.SpecialFunctions.Trigonometric.Basic

/-!
# Specification: what the generators in floating point rely on
-/

namespace Verif

variable {F : Type} [Zero F] [Add F] [Sub F] [Mul F] [Fma F] [Div F] [FloatFun F]

/-- `a` is a number within `E` of `x` -/
def FloatArithFun.Near (A : FloatArithFun F) (a : F) (x E : ℝ) : Prop := A.finite a ∧ |A.val a - x| ≤ E

/-- The constants and functions of the windows are accurate: literals of magnitude 1/1000 to 1 and `pi` have a relative error of
`2 u` (a literal is rounded to `double`, then to the type), `std::cos` has an absolute error of `uc`, `std::abs` is exact. -/
structure WindowOps.Ok (A : FloatArithFun F) (O : WindowOps F) (uc : ℝ) : Prop where
  pi : A.Near O.pi Real.pi (2 * A.u * Real.pi)
  lit : ∀ q : ℚ, 1 / 1000 ≤ |q| → |q| ≤ 1 → A.Near (O.lit q) q (2 * A.u * |(q : ℝ)|)
  cos : ∀ a, A.finite a → A.Near (O.cos a) (Real.cos (A.val a)) uc
  abs : ∀ a, A.finite a → A.Near (O.abs a) |A.val a| 0
  cos_nonneg : 0 ≤ uc
  cos_small : uc ≤ 1 / 100

/-- The format suits a signal of `n` samples: rounding is fine enough, the size can be represented, and underflow is negligible.
Single precision meets this for every `n` up to `2^100`. -/
structure Suits (A : FloatArithFun F) (n : ℕ) : Prop where
  u : A.u ≤ 1 / 1000
  huge : 1000 + n ≤ A.huge
  tiny : (3 * n + 2) * A.tiny ≤ A.u / 10

end Verif
