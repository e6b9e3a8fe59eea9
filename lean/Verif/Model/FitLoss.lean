import Verif.Model.Measure
import Verif.Spec.Fit

/-!
# Model of the loss function of the edge fit  (include/dspbb/Filtering/MeasureFilter.hpp:112-128)

`std::erf` and `std::exp` are the exact functions.  For `p = 0` C++ computes with infinities and NaNs; the values here are meaningless
then and no theorem is about them.
-/

namespace Verif

/-- MeasureFilter.hpp:112-116 `FitErrorDerivative` -/
noncomputable def fitErrorDerivative (x y p : ℝ) : ℝ :=
  let q := 1 / p
  (y - erf (q * x)) * x * Real.exp (-q * q * x * x)

/-- MeasureFilter.hpp:118-128 `FitLoss` -/
noncomputable def fitLoss (y : List ℝ) (invertX invertY : Bool) (baseY p : ℝ) : ℝ :=
  let count := y.length
  (List.range y.length).foldl (fun (sum : ℝ) (i : ℕ) =>
    let xi : ℝ := if !invertX then (i : ℝ) else ((count - i - 1 : ℕ) : ℝ)
    let yi : ℝ := if !invertY then (y.getD i 0 - baseY) / (1 - baseY) else (baseY - y.getD i 0) / baseY
    sum + fitErrorDerivative xi yi p) 0

end Verif
