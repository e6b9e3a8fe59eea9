import Verif.Model.Convolution
import Mathlib.Analysis.Real.Sqrt
import Mathlib.Algebra.Order.BigOperators.Group.List
import Mathlib.Algebra.Order.BigOperators.Group.Finset

/-!
# Specification of rounded (floating point) arithmetic

What IEEE 754 guarantees for one operation, in any binary format and any rounding mode, and nothing more.
`val` is the number an element stands for; `finite` excludes the infinities and NaNs.
* `u` bounds the relative error of one rounding (`2^-24` for `float`, `2^-53` for `double`, rounding to nearest);
* `tiny` bounds the absolute error caused by underflow of a product (`2^-150`, `2^-1075`; sums never underflow);
* `huge` is the magnitude up to which a result does not overflow.
-/

namespace Verif

structure FloatArith (F : Type*) [Zero F] [Add F] [Sub F] [Mul F] [Fma F] where
  val : F → ℝ
  finite : F → Prop
  u : ℝ
  tiny : ℝ
  huge : ℝ
  u_nonneg : 0 ≤ u
  tiny_nonneg : 0 ≤ tiny
  zero_finite : finite 0
  val_zero : val 0 = 0
  add : ∀ a b, finite a → finite b → |val a + val b| ≤ huge →
    finite (a + b) ∧ |val (a + b) - (val a + val b)| ≤ u * |val a + val b|
  sub : ∀ a b, finite a → finite b → |val a - val b| ≤ huge →
    finite (a - b) ∧ |val (a - b) - (val a - val b)| ≤ u * |val a - val b|
  mul : ∀ a b, finite a → finite b → |val a * val b| ≤ huge →
    finite (a * b) ∧ |val (a * b) - val a * val b| ≤ u * |val a * val b| + tiny
  /-- rounding never changes the sign -/
  add_sign : ∀ a b, finite a → finite b → |val a + val b| ≤ huge → 0 ≤ val a + val b → 0 ≤ val (a + b)
  mul_sign : ∀ a b, finite a → finite b → |val a * val b| ≤ huge → 0 ≤ val a * val b → 0 ≤ val (a * b)
  /-- a multiply-add rounds either twice or once -/
  lane : ∀ a b c, finite a → finite b → finite c → Fma.lane a b c = a * b + c ∨
    (|val a * val b + val c| ≤ huge → finite (Fma.lane a b c) ∧
      |val (Fma.lane a b c) - (val a * val b + val c)| ≤ u * |val a * val b + val c| + tiny)
  scalar : ∀ a b c, finite a → finite b → finite c → Fma.scalar a b c = a * b + c ∨
    (|val a * val b + val c| ≤ huge → finite (Fma.scalar a b c) ∧
      |val (Fma.scalar a b c) - (val a * val b + val c)| ≤ u * |val a * val b + val c| + tiny)

/-- The functions the statistics need beyond arithmetic: `T(size_t)` and `std::sqrt`. -/
class FloatFun (F : Type*) where
  ofSize : ℕ → F
  sqrt : F → F

/-- ... and what IEEE 754 guarantees for them and for division. -/
structure FloatArithFun (F : Type*) [Zero F] [Add F] [Sub F] [Mul F] [Fma F] [Div F] [FloatFun F] extends
    FloatArith F where
  div : ∀ a b, finite a → finite b → val b ≠ 0 → |val a / val b| ≤ huge →
    finite (a / b) ∧ |val (a / b) - val a / val b| ≤ u * |val a / val b| + tiny
  div_sign : ∀ a b, finite a → finite b → val b ≠ 0 → |val a / val b| ≤ huge → 0 ≤ val a / val b → 0 ≤ val (a / b)
  ofSize : ∀ n : ℕ, (n : ℝ) ≤ huge → finite (FloatFun.ofSize n) ∧ |val (FloatFun.ofSize n) - n| ≤ u * n
  sqrt : ∀ a, finite a → 0 ≤ val a →
    finite (FloatFun.sqrt a) ∧ |val (FloatFun.sqrt a) - Real.sqrt (val a)| ≤ u * Real.sqrt (val a) + tiny

end Verif
