import Verif.Spec.Convolution
import Mathlib.Analysis.Complex.Basic

/-! # Specification of polynomials and systems given by their roots -/

namespace Verif

/-- The list of all roots described by a list of real roots and a list of representatives of conjugate pairs. -/
noncomputable def rootsOf (reals : List ℝ) (pairs : List ℂ) : List ℂ :=
  reals.map Complex.ofReal ++ pairs ++ pairs.map (starRingEnd ℂ)

/-- The value at `x` of the monic polynomial with the given roots. -/
noncomputable def rootProduct (roots : List ℂ) (x : ℂ) : ℂ := (roots.map fun r => x - r).prod

/-- The value at `x` of the system `gain * ∏ (x - zero) / ∏ (x - pole)`. -/
noncomputable def systemValue (gain : ℝ) (zeros poles : List ℂ) (x : ℂ) : ℂ :=
  gain * rootProduct zeros x / rootProduct poles x

/-- The list is closed under complex conjugation, with multiplicities. -/
def ConjugateClosed (roots : List ℂ) : Prop := (roots.map (starRingEnd ℂ)).Perm roots

end Verif
