import Verif.Model.Polyphase
import Verif.Model.Rational
import Verif.Model.Interval
import Verif.Model.Convolution

/-!
# Model of interpolation and resampling  (include/dspbb/Filtering/Resample.hpp)

`dot` stands for `DotProduct` (Math/DotProduct.hpp, modelled in Verif/Model/Numeric.lean).
Sizes are naturals; `ptrdiff_t` values are integers.  `Rational<int64_t>` arithmetic is the overflow-checked
model of Verif/Model/Rational.lean with assertions enabled.
-/

namespace Verif

/-- Resample.hpp:17-20 -/
structure InterpolSuspensionPoint where
  firstInputSample : Nat
  startPoint : Nat
  deriving DecidableEq, Repr

/-- Resample.hpp:23-26 -/
structure ResampleSuspensionPoint where
  firstInputSample : Nat
  startPoint : Rational
  deriving DecidableEq, Repr

/-- Resample.hpp:29-38 `InterpolLength(.., CONV_FULL)` -/
def interpolLengthFull (inputSize filterSize numPhases : Nat) : Nat :=
  convLengthFull (inputSize * numPhases) filterSize
/-- Resample.hpp:29-38 `InterpolLength(.., CONV_CENTRAL)` -/
def interpolLengthCentral (inputSize filterSize numPhases : Nat) : Nat :=
  convLengthCentral (inputSize * numPhases) filterSize

/-- Resample.hpp:46-57 `ResampleLength(.., CONV_FULL)` -/
def resampleLengthFull (inputSize filterSize numPhases : Nat) (sampleRates : Rational) : Out Rational := do
  let n := convLengthFull (numPhases * inputSize) filterSize
  let q ← Rational.intDiv int64Debug (n : Int) sampleRates
  Rational.divInt int64Debug q (numPhases : Int)
/-- Resample.hpp:46-57 `ResampleLength(.., CONV_CENTRAL)` -/
def resampleLengthCentral (inputSize filterSize numPhases : Nat) (sampleRates : Rational) : Out Rational := do
  let n := convLengthCentral (numPhases * inputSize) filterSize
  let q ← Rational.intDiv int64Debug (n : Int) sampleRates
  Rational.divInt int64Debug q (numPhases : Int)

/-- Resample.hpp:67-71 `ResampleDelay` -/
def resampleDelay (filterSize numPhases : Nat) (sampleRates : Rational) : Out Rational := do
  let r ← Rational.make int64Debug ((filterSize : Int) - 1) (2 * (numPhases : Int))
  Rational.div int64Debug r sampleRates

/-- Resample.hpp:79-89 `FindInterpolSuspensionPoint`; `firstOutputSample / numPhases` divides by zero for no
phases. -/
def findInterpolSuspensionPoint (nextOutputSample filterSize numPhases : Nat) : Out InterpolSuspensionPoint :=
  let firstOutputSample : Int := (nextOutputSample : Int) - ((filterSize : Int) - 1)
  if firstOutputSample < 0 then .ok ⟨0, nextOutputSample⟩
  else if numPhases = 0 then .ub
  else
    let firstInputSample := firstOutputSample.toNat / numPhases
    let startPoint := toSize (firstOutputSample - (numPhases * firstInputSample : Nat) + ((filterSize : Int) - 1))
    .ok ⟨firstInputSample, startPoint⟩

/-- Resample.hpp:91-95 `ChangeSampleRate` -/
def changeSampleRate (sourceRate targetRate : Int) (sample : Rational) : Out Rational := do
  let r ← Rational.make int64Debug targetRate sourceRate
  Rational.mul int64Debug sample r

/-- Resample.hpp:97-114 `FindResampleSuspensionPoint` -/
def findResampleSuspensionPoint (nextOutputSample : Rational) (filterSize numPhases : Nat) (sampleRates : Rational) :
    Out ResampleSuspensionPoint := do
  let d ← Rational.denominator int64Debug sampleRates
  let nextInputSample ← changeSampleRate d sampleRates.num nextOutputSample
  let convolutionOffset ← Rational.make int64Debug ((filterSize : Int) - 1) (numPhases : Int)
  let firstInputSample ← Rational.sub int64Debug nextInputSample convolutionOffset
  let nonpos ← Rational.le int64Debug firstInputSample (Rational.ofInt 0)
  if nonpos then pure ⟨0, nextOutputSample⟩
  else do
    let whole ← Rational.floor int64Debug firstInputSample
    let fr ← Rational.frac int64Debug firstInputSample
    let inputStartPoint ← Rational.add int64Debug fr convolutionOffset
    let d ← Rational.denominator int64Debug sampleRates
    let outputStartPoint ← changeSampleRate sampleRates.num d inputStartPoint
    pure ⟨toSize whole, outputStartPoint⟩

/-- Resample.hpp:116-120 -/
structure PhaseSample where
  inputIndex : Nat
  phaseIndex : Nat
  weight : Nat
  deriving DecidableEq, Repr

/-- Resample.hpp:122-139 `InputIndex2Sample` -/
def inputIndex2Sample (inputIndex : Rational) (numPhases : Nat) : Out (PhaseSample × PhaseSample) := do
  let indexFrac ← Rational.frac int64Debug inputIndex
  let m ← Rational.mulInt int64Debug indexFrac (numPhases : Int)
  let fp ← Rational.floor int64Debug m
  let firstPhase := toSize fp
  (if numPhases = 0 then .ub else do
    let secondPhase := (firstPhase + 1) % numPhases
    let m ← Rational.mulInt int64Debug indexFrac (numPhases : Int)
    let t ← Rational.frac int64Debug m
    let secondWeight := toSize t.num
    let den ← Rational.denominator int64Debug t
    let diff ← int64Debug.sub den t.num
    let firstWeight := toSize diff
    let fi ← Rational.floor int64Debug inputIndex
    let firstIndex := toSize fi
    let secondIndex := if secondPhase = 0 then firstIndex + 1 else firstIndex
    pure (⟨firstIndex, firstPhase, firstWeight⟩, ⟨secondIndex, secondPhase, secondWeight⟩))

section
variable {R : Type} [Add R] [Mul R] [Zero R]

/-- Resample.hpp:141-154 `DotProductSample` -/
def dotProductSample (dot : List R → List R → Out R) (input filter : List R) (inputReverseFirst : Nat) : Out R := do
  let desiredFirst : Int := (inputReverseFirst : Int) - (filter.length : Int) + 1
  let desiredLast : Int := (inputReverseFirst : Int) + 1
  let possibleFirst : Int := max 0 desiredFirst
  let possibleLast : Int := min (input.length : Int) desiredLast
  let count : Int := possibleLast - possibleFirst
  cassert (0 ≤ count)
  let offset : Int := possibleFirst - desiredFirst
  let inputView ← subsignal input (toSize possibleFirst) (toSize count)
  let filterView ← subsignal filter (toSize offset) (toSize count)
  dot inputView filterView

/-- Resample.hpp:168-177 `Decimate(output, input, rate)`; a zero rate divides by zero. -/
def decimate (output input : List R) (rate : Nat) : Out (List R) :=
  if rate = 0 then .ub else do
    cassert (output.length = (input.length + rate - 1) / rate)
    forN output.length (fun k out => do
      let x ← rd input ((k * rate : Nat) : Int)
      wr out (k : Int) x) output

/-- Resample.hpp:180-187 -/
def decimateAlloc (input : List R) (rate : Nat) : Out (List R) :=
  if rate = 0 then .ub else
    decimate (List.replicate ((input.length + rate - 1) / rate) 0) input rate

/-- Resample.hpp:193-206 `Expand(output, input, rate)`.  State: buffer and write position.  Note that a
sample is written per input even if `rate` is zero. -/
def expand (output input : List R) (rate : Nat) : Out (List R) := do
  cassert (output.length = input.length * rate)
  let s ← forN input.length (fun k (s : List R × Nat) => do
    let x ← rd input (k : Int)
    let out ← wr s.1 (s.2 : Int) x
    forN (rate - 1) (fun _ (s : List R × Nat) => do
      let out ← wr s.1 (s.2 : Int) 0
      pure (out, s.2 + 1)) (out, s.2 + 1)) (output, 0)
  pure s.1

/-- Resample.hpp:208-215 -/
def expandAlloc (input : List R) (rate : Nat) : Out (List R) :=
  expand (List.replicate (input.length * rate) 0) input rate

/-- Resample.hpp:236-257, one iteration: output sample `hrOutputIdx`, stored at `hrOutputIdx - hrOffset`. -/
def interpolateStep (dot : List R → List R → Out R) (lrInput : List R) (polyphase : PolyphaseView R)
    (lrPhaseSize : Int) (hrOffset : Nat) (k : Nat) (hrOutput : List R) : Out (List R) := do
  let rate : Int := polyphase.numPhases
  let hrFilterSize : Int := polyphase.sizeOriginal
  let hrOutputIdx : Int := (hrOffset + k : Nat)
  let hrInputIdx : Int := 1 - hrFilterSize + hrOutputIdx
  let lrInputIdx : Int := (hrInputIdx + hrFilterSize - 1).tdiv rate - lrPhaseSize + 1
  let polyphaseIdx : Int := (hrInputIdx + hrFilterSize - 1).tmod rate
  let phase ← polyphase.phase (toSize polyphaseIdx)
  let inputSpan : Interval Int := ⟨0, (lrInput.length : Int)⟩
  let lrInputInterval : Interval Int := ⟨lrInputIdx, lrInputIdx + lrPhaseSize⟩
  let lrPhaseInterval : Interval Int := ⟨lrInputInterval.last - (phase.length : Int), lrInputInterval.last⟩
  let lrInputProductInterval := inputSpan.intersection (lrInputInterval.intersection lrPhaseInterval)
  let lrPhaseProductInterval := lrInputProductInterval.unshift lrInputIdx
  if 0 < lrInputProductInterval.size then do
    let lrInputView ← subsignal lrInput (toSize lrInputProductInterval.first)
      (toSize (lrInputProductInterval.last - lrInputProductInterval.first))
    let lrPhaseView ← subsignal phase (toSize (lrPhaseProductInterval.first - lrPhaseSize + (phase.length : Int)))
      (toSize (lrPhaseProductInterval.last - lrPhaseProductInterval.first))
    let value ← dot lrInputView lrPhaseView
    wr hrOutput (k : Int) value
  else pure hrOutput

/-- Resample.hpp:223-260 `Interpolate(hrOutput, lrInput, polyphase, hrOffset)`. -/
def interpolate (dot : List R → List R → Out R) (hrOutput lrInput : List R) (polyphase : PolyphaseView R)
    (hrOffset : Nat) : Out (List R × InterpolSuspensionPoint) := do
  let lrPhaseSize ← polyphase.sizePerPhase
  let hrOutputMaxSize := interpolLengthFull lrInput.length polyphase.sizeOriginal polyphase.numPhases
  cassert (hrOffset + hrOutput.length ≤ hrOutputMaxSize)
  let out ← forN hrOutput.length (interpolateStep dot lrInput polyphase lrPhaseSize hrOffset) hrOutput
  let sp ← findInterpolSuspensionPoint (hrOffset + hrOutput.length) polyphase.sizeOriginal polyphase.numPhases
  pure (out, sp)

/-- Resample.hpp:263-274, allocating version (the suspension point is dropped). -/
def interpolateAlloc (dot : List R → List R → Out R) (lrInput : List R) (polyphase : PolyphaseView R)
    (hrOffset hrLength : Nat) : Out (List R) := do
  let r ← interpolate dot (List.replicate hrLength 0) lrInput polyphase hrOffset
  pure r.1

end

section
variable {R : Type} [Field R] [DecidableEq R]

/-- Resample.hpp:295-303, one iteration; the state is the output buffer and `outputIndex`.  Division of the
weighted sum by the sum of the weights; a zero sum is reported as `ub`. -/
def resampleStep (dot : List R → List R → Out R) (input : List R) (polyphase : PolyphaseView R)
    (sampleRates : Rational) (k : Nat) (s : List R × Rational) : Out (List R × Rational) := do
  let d ← Rational.denominator int64Debug sampleRates
  let inputIndex ← changeSampleRate d sampleRates.num s.2
  let loc ← inputIndex2Sample inputIndex polyphase.numPhases
  let ph1 ← polyphase.phase loc.1.phaseIndex
  let firstSampleVal ← dotProductSample dot input ph1 loc.1.inputIndex
  let ph2 ← polyphase.phase loc.2.phaseIndex
  let secondSampleVal ← dotProductSample dot input ph2 loc.2.inputIndex
  (if (loc.1.weight : R) + (loc.2.weight : R) = 0 then .ub else do
    let out ← wr s.1 (k : Int) ((firstSampleVal * (loc.1.weight : R) + secondSampleVal * (loc.2.weight : R)) /
      ((loc.1.weight : R) + (loc.2.weight : R)))
    let next ← Rational.addInt int64Debug s.2 1
    pure (out, next))

/-- Resample.hpp:282-306 `Resample(output, input, polyphase, sampleRates, startPoint)`. -/
def resample (dot : List R → List R → Out R) (output input : List R) (polyphase : PolyphaseView R)
    (sampleRates startPoint : Rational) : Out (List R × ResampleSuspensionPoint) := do
  let b ← Rational.ge int64Debug sampleRates (Rational.ofInt 0)
  cassert (b = true)
  let b ← Rational.ge int64Debug startPoint (Rational.ofInt 0)
  cassert (b = true)
  cassert (0 < polyphase.numPhases)
  let maxLength ← resampleLengthFull input.length polyphase.sizeOriginal polyphase.numPhases sampleRates
  let last ← Rational.addInt int64Debug startPoint (output.length : Int)
  let b ← Rational.le int64Debug last maxLength
  cassert (b = true)
  let s ← forN output.length (resampleStep dot input polyphase sampleRates) (output, startPoint)
  let sp ← findResampleSuspensionPoint s.2 polyphase.sizeOriginal polyphase.numPhases sampleRates
  pure (s.1, sp)

/-- Resample.hpp:309-324, allocating version. -/
def resampleAlloc (dot : List R → List R → Out R) (input : List R) (polyphase : PolyphaseView R)
    (sampleRates startPoint : Rational) (outputLength : Nat) : Out (List R) := do
  let r ← resample dot (List.replicate outputLength 0) input polyphase sampleRates startPoint
  pure r.1

/-- Resample.hpp:327-341, `CONV_CENTRAL`; `min(..) - 1` is computed in `size_t` and converted to `int64_t`,
so for empty operands it is `-1`. -/
def resampleCentral (dot : List R → List R → Out R) (input : List R) (polyphase : PolyphaseView R)
    (sampleRates : Rational) : Out (List R) := do
  let startPointIn ← Rational.make int64Debug
    (((min polyphase.sizeOriginal (input.length * polyphase.numPhases) : Nat) : Int) - 1) (polyphase.numPhases : Int)
  let len ← resampleLengthCentral input.length polyphase.sizeOriginal polyphase.numPhases sampleRates
  let outputLength ← Rational.floor int64Debug len
  let start ← Rational.div int64Debug startPointIn sampleRates
  resampleAlloc dot input polyphase sampleRates start (toSize outputLength)

/-- Resample.hpp:344-354, `CONV_FULL`. -/
def resampleFull (dot : List R → List R → Out R) (input : List R) (polyphase : PolyphaseView R)
    (sampleRates : Rational) : Out (List R) := do
  let len ← resampleLengthFull input.length polyphase.sizeOriginal polyphase.numPhases sampleRates
  let outputLength ← Rational.floor int64Debug len
  resampleAlloc dot input polyphase sampleRates (Rational.ofInt 0) (toSize outputLength)

end
end Verif
