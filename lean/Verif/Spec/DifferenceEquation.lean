import Verif.Spec.Convolution

/-! # Specification of recursive (IIR) filtering -/

namespace Verif

/-- `y` is the response of the recursive filter with coefficient lists `b` (numerator) and `a` (denominator),
both in ascending powers of `z`, to the input `x` with zero initial conditions.  With `M`, `N` the degrees:
`a N * y n + a (N-1) * y (n-1) + … = b M * x n + b (M-1) * x (n-1) + …` for every `n`. -/
def IsResponse {K : Type*} [Semiring K] (b a x y : List K) : Prop :=
  y.length = x.length ∧ ∀ n : ℕ, n < x.length →
    ∑ k ∈ Finset.range a.length, sig a (a.length - 1 - k) * sigI y ((n : ℤ) - k) =
    ∑ k ∈ Finset.range b.length, sig b (b.length - 1 - k) * sigI x ((n : ℤ) - k)

/-- One second order section: numerator of three, (monic) denominator of two coefficients. -/
structure SectionCoeffs (K : Type*) where
  num : List K
  den : List K

/-- Sections applied one after the other. -/
def IsCascadeResponse {K : Type*} [Semiring K] : List (SectionCoeffs K) → List K → List K → Prop
  | [], x, y => y = x
  | s :: ss, x, y => ∃ m, IsResponse s.num (s.den ++ [1]) x m ∧ IsCascadeResponse ss m y

end Verif
