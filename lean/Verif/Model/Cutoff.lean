import Verif.Model.Rational
import Mathlib.Data.Real.Basic

/-!
# Model of the cutoff helpers of interpolation and resampling  (include/dspbb/Filtering/Resample.hpp)

`rnd` rounds a real number to `double`; the theorems use only what IEEE 754 guarantees about it.  The divisions by zero
of 42 and 61-62 (no phases, rate 0), which give infinities, are excluded in the theorems.
-/

namespace Verif

/-- Resample.hpp:41-43 `InterpolFilterCutoff` -/
noncomputable def interpolFilterCutoff (rnd : ℝ → ℝ) (numPhases : ℕ) : ℝ := rnd (1 / rnd numPhases)

/-- Resample.hpp:60-64 `ResampleFilterCutoff`; `double(sampleRates)` is Rational.hpp:198-202 -/
noncomputable def resampleFilterCutoff (rnd : ℝ → ℝ) (sampleRates : Rational) (numPhases : ℕ) : ℝ :=
  let base := rnd (1 / rnd numPhases)
  let rate := min 1 (rnd (1 / sampleRates.toFloat (fun k => rnd k) (fun a b => rnd (a / b))))
  rnd (base * rate)

end Verif
