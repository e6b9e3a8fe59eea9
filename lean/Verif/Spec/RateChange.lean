import Verif.Spec.Resample
import Verif.Spec.Dft

/-! # Specification of spectra, for the effect of rate changes on them -/

namespace Verif
open Complex

/-- The spectrum of a finite signal at `w` radians per sample: `∑ j, x j * exp (-i w j)`. -/
noncomputable def spectrum (x : List ℂ) (w : ℝ) : ℂ := ∑ j ∈ Finset.range x.length, sig x j * exp (-(w * j) * I)

/-- The response of real taps at `w` radians per sample: `∑ j, h j * exp (-i w j)`. -/
noncomputable def tapsResponse (h : List ℝ) (w : ℝ) : ℂ := ∑ j ∈ Finset.range h.length, ((sig h j : ℝ) : ℂ) * exp (-(w * j) * I)

/-- The `k`-th of the `P` frequencies (in radians per sample of a `P` times higher rate) that a sinusoid of `w` radians per sample
occupies after zeros are stuffed: the frequency itself for `k = 0`, its images for `0 < k < P`. -/
noncomputable def imageOf (P : ℕ) (w : ℝ) (k : ℕ) : ℝ := (w + 2 * Real.pi * k) / P

/-- The samples of a sinusoid. -/
noncomputable def sinusoid (A w φ : ℝ) (L : ℕ) : List ℝ := (List.range L).map fun n : ℕ => A * Real.cos (w * n + φ)

end Verif
