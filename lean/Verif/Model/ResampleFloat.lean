import Verif.Model.Resample
import Verif.Spec.FloatArith

/-!
# Resampling in floating point

`Model/Resample.lean` models `Resample` over a field.  Here the same code runs on a type that only has the operations of a floating point
type: nothing is assumed about them.  The weights are converted by `T(size_t)`, `FloatFun.ofSize`.  A division by a zero sum of weights is
not undefined for floating point types, so there is no check.
-/

namespace Verif

section
variable {F : Type} [Zero F] [Add F] [Mul F] [Div F] [FloatFun F]

/-- Resample.hpp:301-302, the value written: the weighted mean of the two neighbours. -/
def weightedMean (first second : F) (w1 w2 : Nat) : F :=
  (first * FloatFun.ofSize w1 + second * FloatFun.ofSize w2) / (FloatFun.ofSize w1 + FloatFun.ofSize w2)

/-- Resample.hpp:295-303, one iteration; the state is the output buffer and `outputIndex`. -/
def resampleStepFloat (dot : List F → List F → Out F) (input : List F) (polyphase : PolyphaseView F)
    (sampleRates : Rational) (k : Nat) (s : List F × Rational) : Out (List F × Rational) := do
  let d ← Rational.denominator int64Debug sampleRates
  let inputIndex ← changeSampleRate d sampleRates.num s.2
  let loc ← inputIndex2Sample inputIndex polyphase.numPhases
  let ph1 ← polyphase.phase loc.1.phaseIndex
  let firstSampleVal ← dotProductSample dot input ph1 loc.1.inputIndex
  let ph2 ← polyphase.phase loc.2.phaseIndex
  let secondSampleVal ← dotProductSample dot input ph2 loc.2.inputIndex
  let out ← wr s.1 (k : Int) (weightedMean firstSampleVal secondSampleVal loc.1.weight loc.2.weight)
  let next ← Rational.addInt int64Debug s.2 1
  pure (out, next)

/-- Resample.hpp:282-306 `Resample(output, input, polyphase, sampleRates, startPoint)`. -/
def resampleFloat (dot : List F → List F → Out F) (output input : List F) (polyphase : PolyphaseView F)
    (sampleRates startPoint : Rational) : Out (List F × ResampleSuspensionPoint) := do
  let b ← Rational.ge int64Debug sampleRates (Rational.ofInt 0)
  cassert (b = true)
  let b ← Rational.ge int64Debug startPoint (Rational.ofInt 0)
  cassert (b = true)
  cassert (0 < polyphase.numPhases)
  let maxLength ← resampleLengthFull input.length polyphase.sizeOriginal polyphase.numPhases sampleRates
  let last ← Rational.addInt int64Debug startPoint (output.length : Int)
  let b ← Rational.le int64Debug last maxLength
  cassert (b = true)
  let s ← forN output.length (resampleStepFloat dot input polyphase sampleRates) (output, startPoint)
  let sp ← findResampleSuspensionPoint s.2 polyphase.sizeOriginal polyphase.numPhases sampleRates
  pure (s.1, sp)

end
end Verif
