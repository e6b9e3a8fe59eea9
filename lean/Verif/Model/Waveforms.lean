import Verif.Model.Spaces
import Mathlib.Analysis.SpecialFunctions.Trigonometric.Basic

/-!
# Model of the waveform generators  (include/dspbb/Generators/Waveforms.hpp)

Exact real arithmetic.  `double(sampleRate) = 0` gives no numbers (`.ub`).
-/

namespace Verif

/-- `modf(x, &i)` as used at Waveforms.hpp:48, 58: the fractional part, with the sign of `x` -/
noncomputable def modfFrac (x : ℝ) : ℝ := open Classical in if 0 ≤ x then x - ⌊x⌋ else x - ⌈x⌉

/-- `std::numeric_limits<double>::denorm_min()` -/
noncomputable def denormMin : ℝ := 1 / 2 ^ 1074

/-- Waveforms.hpp:17-28 `GenericWave` -/
noncomputable def genericWave (mem : List ℝ) (output : Span) (sampleRate : Nat) (frequency phase : ℝ)
    (waveFunc : ℝ → Out ℝ) : Out (List ℝ) :=
  forN output.size (fun idx mem => do
    let time ← fdiv (idx : ℝ) (sampleRate : ℝ)
    let totalPhase := 2 * Real.pi * time * frequency + phase
    let v ← waveFunc totalPhase
    wr mem ((output.pos + idx : Nat) : Int) v) mem

/-- Waveforms.hpp:30-43 `GenericChirp` -/
noncomputable def genericChirp (mem : List ℝ) (output : Span) (sampleRate : Nat) (startFrequency endFrequency phase : ℝ)
    (waveFunc : ℝ → Out ℝ) : Out (List ℝ) :=
  let length : ℝ := (output.size : ℝ) / (sampleRate : ℝ)
  forN output.size (fun idx mem => do
    let time ← fdiv (idx : ℝ) (sampleRate : ℝ)
    let slope ← fdiv (time * time / 2 * (endFrequency - startFrequency)) length
    let totalPhase := 2 * Real.pi * (time * startFrequency + slope) + phase
    let v ← waveFunc totalPhase
    wr mem ((output.pos + idx : Nat) : Int) v) mem

/-- Waveforms.hpp:45-53 `Sawtooth` -/
noncomputable def sawtooth (tilt phase : ℝ) : Out ℝ := do
  let pi2 := 2 * Real.pi
  let unitPhase := modfFrac (phase / pi2)
  let length := open Classical in if unitPhase > tilt then 1 - tilt else tilt + denormMin
  let distance := |unitPhase - tilt|
  let q ← fdiv distance length
  let value := 1 - q
  pure (2 * value - 1)

/-- Waveforms.hpp:55-60 `Pwm` -/
noncomputable def pwm (fill phase : ℝ) : Out ℝ := do
  let pi2 := 2 * Real.pi
  let unitPhase := modfFrac (phase / pi2)
  (open Classical in if unitPhase < fill ∨ fill ≥ 1 then Out.ok 1 else .ok 0)

/-- Waveforms.hpp:68-71 `SineWave` -/
noncomputable def sineWave (mem : List ℝ) (output : Span) (sampleRate : Nat) (frequency phase : ℝ) : Out (List ℝ) :=
  genericWave mem output sampleRate frequency phase (fun x => pure (Real.sin x))

/-- Waveforms.hpp:81-84 `SawtoothWave` -/
noncomputable def sawtoothWave (mem : List ℝ) (output : Span) (sampleRate : Nat) (frequency phase tilt : ℝ) : Out (List ℝ) :=
  genericWave mem output sampleRate frequency phase (sawtooth tilt)

/-- Waveforms.hpp:94-97 `PwmWave` -/
noncomputable def pwmWave (mem : List ℝ) (output : Span) (sampleRate : Nat) (frequency phase fill : ℝ) : Out (List ℝ) :=
  genericWave mem output sampleRate frequency phase (pwm fill)

/-- Waveforms.hpp:107-113 `SquareWave` -/
noncomputable def squareWave (e : Exec) (mem : List ℝ) (output : Span) (sampleRate : Nat) (frequency phase : ℝ) :
    Out (List ℝ) := do
  let mem ← genericWave mem output sampleRate frequency phase (pwm 0.5)
  let mem ← compoundVS e.asserts e.vec e.W .mul mem output 2
  compoundVS e.asserts e.vec e.W .sub mem output 1

/-- Waveforms.hpp:127-130 `SineChirp` -/
noncomputable def sineChirp (mem : List ℝ) (output : Span) (sampleRate : Nat) (startFrequency endFrequency phase : ℝ) :
    Out (List ℝ) :=
  genericChirp mem output sampleRate startFrequency endFrequency phase (fun x => pure (Real.sin x))

/-- Waveforms.hpp:140-143 `SawtoothChirp` -/
noncomputable def sawtoothChirp (mem : List ℝ) (output : Span) (sampleRate : Nat)
    (startFrequency endFrequency phase tilt : ℝ) : Out (List ℝ) :=
  genericChirp mem output sampleRate startFrequency endFrequency phase (sawtooth tilt)

/-- Waveforms.hpp:153-156 `PwmChirp` -/
noncomputable def pwmChirp (mem : List ℝ) (output : Span) (sampleRate : Nat)
    (startFrequency endFrequency phase fill : ℝ) : Out (List ℝ) :=
  genericChirp mem output sampleRate startFrequency endFrequency phase (pwm fill)

/-- Waveforms.hpp:166-172 `SquareChirp` -/
noncomputable def squareChirp (e : Exec) (mem : List ℝ) (output : Span) (sampleRate : Nat)
    (startFrequency endFrequency phase : ℝ) : Out (List ℝ) := do
  let mem ← genericChirp mem output sampleRate startFrequency endFrequency phase (pwm 0.5)
  let mem ← compoundVS e.asserts e.vec e.W .mul mem output 2
  compoundVS e.asserts e.vec e.W .sub mem output 1

end Verif
