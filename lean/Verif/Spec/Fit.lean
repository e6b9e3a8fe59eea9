import Verif.Spec.Convolution
import Mathlib.Analysis.SpecialFunctions.Gaussian.GaussianIntegral

/-!
# What fitting a band edge means

The edge of a band of a frequency response is modelled by the error function: at distance `x` from the edge, in a band of relative height
one, the response is `erf(x / p)`, and `p` is the width to be found.
-/

namespace Verif

/-- the error function -/
noncomputable def erf (x : ℝ) : ℝ := 2 / Real.sqrt Real.pi * ∫ t in (0 : ℝ)..x, Real.exp (-t ^ 2)

/-- distance of bin `i` of a band of `n` bins from its left or right end -/
def edgeDistance (left : Bool) (n i : ℕ) : ℝ := if left then (i : ℝ) else (n : ℝ) - 1 - i

/-- the response relative to the threshold (0) and the ideal response of the band (1): 1 in pass bands, 0 in stop bands -/
noncomputable def relativeHeight (pass : Bool) (threshold y : ℝ) : ℝ :=
  if pass then (y - threshold) / (1 - threshold) else (threshold - y) / threshold

/-- the sum of the squared errors of the edge of width `p` -/
noncomputable def squaredError (band : List ℝ) (pass left : Bool) (threshold p : ℝ) : ℝ :=
  ∑ i ∈ Finset.range band.length, (relativeHeight pass threshold (sig band i) - erf (edgeDistance left band.length i / p)) ^ 2

/-- the band has an edge of exactly this shape -/
def ErfEdge (band : List ℝ) (pass left : Bool) (threshold p : ℝ) : Prop :=
  ∀ i, i < band.length → relativeHeight pass threshold (sig band i) = erf (edgeDistance left band.length i / p)

end Verif
