import Verif.Model.OverlapAddFloat
import Verif.Model.Polynomials

/-!
# Model of the evaluation of polynomials over floating point numbers  (include/dspbb/Math/Polynomials.hpp)

`polyEval`, `mulBy1stOrder`, `mulBy2ndOrder` and `expandReals` (Model/Polynomials.lean) are written over any type and are used unchanged.  Compiler contraction of `a * b + c` is not
modelled.
-/

namespace Verif.PocketF

variable {F : Type} [Zero F] [Add F] [Sub F] [Mul F]

/-- `std::complex<T> + T` (Polynomials.hpp:134) as the addition of a complex number: adding a zero imaginary part changes nothing. -/
def ofReal (c : F) : Cx F := ⟨c, 0⟩

/-- Polynomials.hpp:298-302, the factor of a pair of conjugate roots `a ± b i`; `two` is `T(2)`. -/
def pairFactor (two x a b : F) : F := x * x - two * a * x + a * a + b * b

/-- Polynomials.hpp:293-305 `FactoredPolynomial::eval` at a real number.  `red` stands for `std::transform_reduce`, which may apply the
operation in any order; `one` is `T(1)`. -/
def factoredEval (red : (F → F → F) → F → List F → F) (one two : F) (reals : List F) (pairs : List (Cx F)) (x : F) : F :=
  let rp := red (· * ·) one (reals.map fun root => x - root)
  let cp := red (· * ·) one (pairs.map fun root => pairFactor two x root.re root.im)
  rp * cp

/-- Polynomials.hpp:357-361; `mtwo` is the literal `-2.0f`. -/
def expandPairs (mtwo : F) : List (Cx F) → List F → Out (List F)
  | [], c => pure c
  | z :: zs, c => do
    let c ← mulBy2ndOrder c (z.re * z.re + z.im * z.im) (mtwo * z.re)
    expandPairs mtwo zs c

/-- Polynomials.hpp:349-363 `ExpandPolynomial`, given the real roots and the pairs of the factored polynomial; `one` is `T(1)`. -/
def expandPolynomial [Neg F] (one mtwo : F) (reals : List F) (pairs : List (Cx F)) : Out (List F) := do
  let c ← wr (List.replicate (reals.length + 2 * pairs.length + 1) 0) 0 one
  let c ← expandReals reals c
  expandPairs mtwo pairs c

end Verif.PocketF
