import Mathlib.Algebra.BigOperators.Intervals
import Mathlib.Algebra.BigOperators.Ring.Finset

/-! # Specification of discrete convolution -/

namespace Verif

/-- A finite signal, extended by zeros. -/
def sig {R : Type*} [Zero R] (u : List R) (i : ℕ) : R := u.getD i 0

/-- A finite signal starting at time zero, extended by zeros to all (also negative) times. -/
def sigI {R : Type*} [Zero R] (u : List R) (i : ℤ) : R := if 0 ≤ i then sig u i.toNat else 0

/-- Sample `n` of the convolution of two finite signals: `∑ i ≤ n, u i * v (n - i)`. -/
def convAt {R : Type*} [Semiring R] (u v : List R) (n : ℕ) : R :=
  ∑ i ∈ Finset.range (n + 1), sig u i * sig v (n - i)

end Verif
