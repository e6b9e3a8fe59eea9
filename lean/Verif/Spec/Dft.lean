import Verif.Spec.Convolution
import Mathlib.Analysis.SpecialFunctions.Complex.Circle

/-! # Specification of the discrete Fourier transform -/

namespace Verif
open Complex

/-- `exp (2 π i m / n)` -/
noncomputable def rootOfUnity (n : ℕ) (m : ℤ) : ℂ := exp (2 * Real.pi * I * m / n)

/-- Bin `k` of the discrete Fourier transform of `x`: `∑ j, x j * exp (-2 π i j k / n)`. -/
noncomputable def dftAt (x : List ℂ) (k : ℤ) : ℂ :=
  ∑ j ∈ Finset.range x.length, sig x j * rootOfUnity x.length (-((j : ℤ) * k))

end Verif
