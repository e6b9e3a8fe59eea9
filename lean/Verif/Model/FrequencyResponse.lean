import Verif.Model.FFT
import Verif.Model.Spaces
import Verif.Model.Systems
import Mathlib.Analysis.SpecialFunctions.Complex.Arg

/-!
# Model of the measurement of frequency responses

include/dspbb/Filtering/MeasureFilter.hpp:438-505.
-/

namespace Verif
open Complex

/-- MeasureFilter.hpp:439-443 `impl::FrequencyResponseFftSize` -/
def frequencyResponseFftSize (impulseSize desiredGridSize : Nat) : Nat :=
  max impulseSize (usub (2 * desiredGridSize) 1)

/-- MeasureFilter.hpp:446-464 `FrequencyResponse(impulse, gridSizeHint)`.  An allocation beyond the address space throws. -/
noncomputable def frequencyResponseImpulse (impulse : List ℝ) (gridSizeHint : Nat) : Out (List ℝ × List ℝ) := do
  let gridSize := if gridSizeHint > 0 then gridSizeHint else impulse.length * 10
  let paddedSize := frequencyResponseFftSize impulse.length gridSize
  if paddedSize ≥ 2 ^ 63 then .throws else
    let padded := impulse ++ List.replicate (paddedSize - impulse.length) 0
    let spectrum ← fftHalf padded
    let amplitude := spectrum.map fun z => ‖z‖
    let spectrum := spectrum.map fun z => open Classical in if z = 0 then 1 else z
    let phase := spectrum.map fun z => arg z
    pure (amplitude, phase)

/-- MeasureFilter.hpp:472-492 `impl::FrequencyResponse(sys, gridSizeHint)`; `eval` is `sys(point)`, `order` is `sys.order()`. -/
noncomputable def frequencyResponseSystem (e : Exec) (order : Nat) (eval : ℂ → Out ℂ) (gridSizeHint : Nat) : Out (List ℝ × List ℝ) := do
  let gridSize := if gridSizeHint > 0 then gridSizeHint else (1 + order) * 20
  let amplitude ← linSpaceNew e 0 Real.pi gridSize true
  let phase := List.replicate gridSize (0 : ℝ)
  forN gridSize (fun i (s : List ℝ × List ℝ) => do
    let freq ← rd s.1 (i : Int)
    let point := exp ((freq : ℂ) * I)
    let response ← eval point
    let amplitude ← wr s.1 (i : Int) ‖response‖
    let phase ← wr s.2 (i : Int) (arg response)
    pure (amplitude, phase)) (amplitude, phase)

/-- MeasureFilter.hpp:495-498 -/
noncomputable def frequencyResponseZpk (e : Exec) (zpk : Zpk) (gridSizeHint : Nat) : Out (List ℝ × List ℝ) :=
  frequencyResponseSystem e zpk.order (fun z => pure (zpk.eval z)) gridSizeHint

/-- MeasureFilter.hpp:500-503 -/
noncomputable def frequencyResponseBiquad (e : Exec) (biquad : List (Biquad ℝ)) (gridSizeHint : Nat) : Out (List ℝ × List ℝ) :=
  frequencyResponseSystem e (biquadsOrder biquad) (fun z => evalBiquads biquad z) gridSizeHint

/-- MeasureFilter.hpp:505-508 -/
noncomputable def frequencyResponseTf (e : Exec) (tf : TransferFn ℝ) (gridSizeHint : Nat) : Out (List ℝ × List ℝ) :=
  frequencyResponseSystem e tf.order (fun z => pure (tf.eval z)) gridSizeHint

end Verif
