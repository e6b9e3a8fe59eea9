import Verif.Spec.FloatFFT
import Verif.Model.PocketRealFloat

/-!
# Specification for floating point transforms of real data
-/

namespace Verif
variable {F : Type} [Zero F] [Add F] [Sub F] [Mul F] [Fma F] [Neg F]

namespace PocketF

/-- The literals are within `h` rounding errors of the exact numbers; 2 is exact. -/
structure RLitsOk (A : FloatArithNeg F) (h : ℝ) (L : RLits F) : Prop where
  lits : LitsOk A h L.toLits
  two : A.finite L.two ∧ A.val L.two = 2
  sqrt2 : A.finite L.sqrt2 ∧ |A.val L.sqrt2 - Real.sqrt 2| ≤ 2 * h * A.u

/-- The half-complex layout of the spectrum `D` of a real signal: `re D 0, re D 1, im D 1, re D 2, im D 2, ...` -/
noncomputable def halfComplex (D : ℕ → ℂ) (i : ℕ) : ℝ :=
  if i = 0 then (D 0).re else if i % 2 = 1 then (D ((i + 1) / 2)).re else (D (i / 2)).im

/-- The `n` samples of the real signal whose spectrum has the half-complex layout `v` (without the factor `1/n`):
bins 0 and `n/2` are real and occur once, every other bin occurs together with its complex conjugate. -/
noncomputable def halfComplexInverse (n : ℕ) (v : ℕ → ℝ) (j : ℕ) : ℝ :=
  v 0 + 2 * ∑ k ∈ Finset.range ((n - 1) / 2),
      (v (2 * k + 1) * Real.cos (2 * Real.pi * (j * (k + 1)) / n) - v (2 * k + 2) * Real.sin (2 * Real.pi * (j * (k + 1)) / n))
    + if n % 2 = 0 then v (n - 1) * (-1) ^ j else 0

/-- No prime factor of `n` exceeds 5. -/
def Smooth5 (n : ℕ) : Prop := ∀ p, p.Prime → p ∣ n → p ≤ 5

end PocketF
end Verif
