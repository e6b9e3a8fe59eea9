import Verif.Spec.Convolution
import Mathlib.Data.Complex.Basic

/-! # Specification of polynomials -/

namespace Verif

/-- The value of the polynomial with the coefficients `c` (constant term first). -/
def polyAt {R : Type*} [CommSemiring R] (c : List R) (x : R) : R := ∑ i ∈ Finset.range c.length, sig c i * x ^ i

/-- `1 + x + ... + x^(n-1)` -/
def geometric (n : ℕ) (x : ℝ) : ℝ := ∑ i ∈ Finset.range n, x ^ i

/-- The value of the monic polynomial whose roots are the real numbers `reals` and, for every `(a, b)` of `pairs`, the conjugate pair
`a ± b i`. -/
noncomputable def rootsAt (reals : List ℝ) (pairs : List (ℝ × ℝ)) (x : ℝ) : ℝ :=
  (reals.map fun r => x - r).prod * (pairs.map fun z => (x - z.1) ^ 2 + z.2 ^ 2).prod

/-- ... and the size of the terms that are added up in computing it: a root that is a real number contributes its distance from `x`,
a pair `(|x| + |a|)² + b²`. -/
noncomputable def rootsMagnitude (reals : List ℝ) (pairs : List (ℝ × ℝ)) (x : ℝ) : ℝ :=
  (reals.map fun r => |x - r|).prod * (pairs.map fun z => (|x| + |z.1|) ^ 2 + z.2 ^ 2).prod

/-- The same with one added to every factor: what can be reached before anything overflows. -/
noncomputable def rootsCeiling (reals : List ℝ) (pairs : List (ℝ × ℝ)) (x : ℝ) : ℝ :=
  (reals.map fun r => 1 + |x - r|).prod * (pairs.map fun z => 1 + ((|x| + |z.1|) ^ 2 + z.2 ^ 2)).prod

end Verif
