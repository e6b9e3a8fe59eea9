import Verif.Spec.FloatArith
import Verif.Model.PocketFloat
import Mathlib.Analysis.SpecialFunctions.Trigonometric.Basic
import Mathlib.Data.Nat.Factors

/-!
# Specification for floating point transforms

IEEE 754 negation is exact; otherwise as in `FloatArith`.
-/

namespace Verif

structure FloatArithNeg (F : Type) [Zero F] [Add F] [Sub F] [Mul F] [Fma F] [Neg F] extends FloatArith F where
  neg : ∀ a, finite a → finite (-a) ∧ val (-a) = -val a

variable {F : Type} [Zero F] [Add F] [Sub F] [Mul F] [Fma F] [Neg F]

/-- `c` is a finite number within `h` rounding errors of the exact value `e` (of magnitude at most 1). -/
def FloatArithNeg.Accurate (A : FloatArithNeg F) (h : ℝ) (c : F) (e : ℝ) : Prop :=
  A.finite c ∧ |A.val c - e| ≤ h * A.u

namespace PocketF

/-- the exact value of a floating point complex number -/
noncomputable def cval (A : FloatArithNeg F) (a : Cx F) : ℂ := ⟨A.val a.re, A.val a.im⟩

/-- both components are finite -/
def FinC (A : FloatArithNeg F) (a : Cx F) : Prop := A.finite a.re ∧ A.finite a.im

/-- The literals are within `h` rounding errors of the exact numbers. -/
structure LitsOk (A : FloatArithNeg F) (h : ℝ) (L : Lits F) : Prop where
  cos : ∀ n j, (n = 3 ∨ n = 5 ∨ n = 7 ∨ n = 11) → 0 < j → 2 * j < n →
    A.Accurate h (L.cos n j) (Real.cos (2 * Real.pi * j / n))
  sin : ∀ n j, (n = 3 ∨ n = 5 ∨ n = 7 ∨ n = 11) → 0 < j → 2 * j < n →
    A.Accurate h (L.sin n j) (Real.sin (2 * Real.pi * j / n))
  hsqt2 : A.Accurate h L.hsqt2 (1 / Real.sqrt 2)

/-- Every entry `idx` of the table is within `h` rounding errors of `exp (2 π i idx / n)`. -/
def TableOk (A : FloatArithNeg F) (h : ℝ) (n : ℕ) (tw : ℕ → Cx F) : Prop :=
  ∀ idx, idx ≤ n → A.Accurate h (tw idx).re (Real.cos (2 * Real.pi * idx / n)) ∧
    A.Accurate h (tw idx).im (Real.sin (2 * Real.pi * idx / n))

/-- The sum of the prime factors of `n`, counted with multiplicity. -/
def primeSum (n : ℕ) : ℕ := n.primeFactorsList.sum

/-- What the twiddle table relies on: correctly rounded conversions, the constant `π / (4 n)` to within two rounding
errors, and `sin` and `cos` within `hl` rounding errors in the first octant. -/
structure TwOpsOk {G : Type} [Zero G] [Add G] [Sub G] [Mul G] [Fma G] [Neg G] (B : FloatArithNeg G)
    (A : FloatArithNeg F) (T : TwOps G F) (hl : ℝ) (n : ℕ) : Prop where
  ofSize : ∀ m, m ≤ n → B.finite (T.ofSize m) ∧ |B.val (T.ofSize m) - m| ≤ B.u * m
  ang : B.finite (T.ang n) ∧ |B.val (T.ang n) - Real.pi / (4 * n)| ≤ 2 * B.u * (Real.pi / (4 * n))
  cos : ∀ a, B.finite a → |B.val a| ≤ 1 → B.finite (T.cos a) ∧ |B.val (T.cos a) - Real.cos (B.val a)| ≤ hl * B.u
  sin : ∀ a, B.finite a → |B.val a| ≤ 1 → B.finite (T.sin a) ∧ |B.val (T.sin a) - Real.sin (B.val a)| ≤ hl * B.u
  one : B.finite T.one ∧ B.val T.one = 1
  down : ∀ a, B.finite a → |B.val a| ≤ 2 →
    A.finite (T.down a) ∧ |A.val (T.down a) - B.val a| ≤ A.u * |B.val a| + A.tiny

/-- the limits of the high precision format -/
structure HighOk {G : Type} [Zero G] [Add G] [Sub G] [Mul G] [Fma G] [Neg G] (B : FloatArithNeg G) (hl : ℝ) : Prop where
  hl1 : 1 ≤ hl
  u : 100 * (hl + 5) * B.u ≤ 1
  tiny : B.tiny ≤ B.u
  huge : 4 ≤ B.huge

end PocketF

end Verif
