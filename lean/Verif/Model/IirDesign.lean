import Verif.Model.RootTransforms
import Verif.Model.Floating
import Mathlib.Analysis.SpecialFunctions.Complex.Log
import Mathlib.Analysis.SpecialFunctions.Pow.Complex
import Mathlib.Analysis.SpecialFunctions.Trigonometric.Basic

/-!
# Model of IIR filter design

* include/dspbb/LTISystems/DiscretizationTransforms.hpp
* include/dspbb/Filtering/IIR/Butterworth.hpp, Chebyshev.hpp
* include/dspbb/Filtering/IIR/BandTransforms.hpp
* include/dspbb/Filtering/IIR.hpp

Simplifications: scalars are exact real and complex numbers, the functions of `<cmath>` and `<complex>` are the exact
functions with the principal branches that the C++ standard prescribes.  Where the code divides by a quantity that may
be zero for legal arguments the model uses `fdiv`, which has no result for a zero divisor (in C++ the result is
infinite or not a number); the remaining divisions are those of `ℝ` and `ℂ`, and the theorems assume that the
divisor does not vanish.
-/

namespace Verif

/-- `std::sqrt` on `std::complex`: the principal square root. -/
noncomputable def csqrt (z : ℂ) : ℂ := z ^ (1 / 2 : ℂ)

/-- `std::acos` on `std::complex`: the principal value `-i log (z + i sqrt (1 - z²))`. -/
noncomputable def cacos (z : ℂ) : ℂ := -Complex.I * Complex.log (z + Complex.I * csqrt (1 - z * z))

/-- `std::polar` -/
noncomputable def polar (r θ : ℝ) : ℂ := ⟨r * Real.cos θ, r * Real.sin θ⟩

/-! ### analog prototypes -/

/-- Butterworth.hpp:11-23 `Butterworth` -/
noncomputable def butterworth (order : ℕ) : Out Zpk := do
  let poles ← FactoredPoly.empty.resize (order % 2) (order / 2) (-1) 0
  let poles ← forN (order / 2) (fun index (poles : FactoredPoly) => do
    let phase := Real.pi * (1 / 2 + (index : ℝ) / (order : ℝ) + (1 / 2) / (order : ℝ))
    poles.setPair index (polar 1 phase)) poles
  pure ⟨1, FactoredPoly.empty, poles⟩

/-- Chebyshev.hpp:12-17 `Chebyshev1Pole` -/
noncomputable def chebyshev1Pole (index order : ℕ) (epsilon : ℝ) : ℂ :=
  let theta : ℂ := 1 / (order : ℂ) * cacos (Complex.I / (epsilon : ℂ)) + (index : ℂ) / (order : ℂ) * (Real.pi : ℂ)
  Complex.I * Complex.cos theta

/-- Chebyshev.hpp:34-52 `Chebyshev1`; `1u << (order - 1)` is defined only for `1 ≤ order ≤ 32`. -/
noncomputable def chebyshev1 (order : ℕ) (ripple : ℝ) : Out Zpk := do
  let q ← fdiv 1 ((1 - ripple) ^ 2)
  let epsilon := Real.sqrt (q - 1)
  let shifted ← (if 1 ≤ order ∧ order ≤ 32 then .ok ((2 : ℝ) ^ (order - 1)) else .ub)
  let gain ← fdiv 1 (shifted * epsilon)
  let poles ← FactoredPoly.empty.resize (order % 2) (order / 2) 0 0
  let poles ← forN (order / 2) (fun index (poles : FactoredPoly) =>
    poles.setPair index (chebyshev1Pole index order epsilon)) poles
  let poles ← forN (order % 2) (fun i (poles : FactoredPoly) =>
    poles.setReal i (chebyshev1Pole (order / 2) order epsilon).re) poles
  pure ⟨gain, FactoredPoly.empty, poles⟩

/-- Chebyshev.hpp:19-22 `Chebyshev2Pole` -/
noncomputable def chebyshev2Pole (index order : ℕ) (epsilon : ℝ) : ℂ :=
  1 / chebyshev1Pole index order epsilon

/-- Chebyshev.hpp:24-29 `Chebyshev2Zero` -/
noncomputable def chebyshev2Zero (index order : ℕ) : ℂ :=
  1 / (-Complex.I * ((Real.cos (Real.pi / 2 * ((2 * index + 1 : ℕ) : ℝ) / (order : ℝ)) : ℝ) : ℂ))

/-- Chebyshev.hpp:55-87 `Chebyshev2`.  With `epsilon = 0` the argument of `std::acos` in every pole is not a number. -/
noncomputable def chebyshev2 (order : ℕ) (ripple : ℝ) : Out Zpk := do
  let epsilon ← fdiv ripple (Real.sqrt (1 - ripple * ripple))
  let _ ← (open Classical in if 0 < order ∧ epsilon = 0 then (.ub : Out Unit) else .ok ())
  let gain := if order % 2 = 0 then ripple else epsilon * (order : ℝ)
  let poles ← FactoredPoly.empty.resize (order % 2) (order / 2) 0 0
  let zeros ← FactoredPoly.empty.resize 0 (order / 2) 0 0
  let poles ← forN (order / 2) (fun index (poles : FactoredPoly) =>
    poles.setPair index (chebyshev2Pole index order epsilon)) poles
  let poles ← forN (order % 2) (fun i (poles : FactoredPoly) =>
    poles.setReal i (chebyshev2Pole (order / 2) order epsilon).re) poles
  let zeros ← forN (order / 2) (fun index (zeros : FactoredPoly) =>
    zeros.setPair index (chebyshev2Zero index order)) zeros
  pure ⟨gain, zeros, poles⟩

/-! ### discretization -/

/-- DiscretizationTransforms.hpp:21, the factor `k` -/
noncomputable def bilinearFactor (sampleRate : ℝ) : Option ℝ → Out ℝ
  | some w => fdiv w (Real.tan (w / sampleRate / 2))
  | none => .ok (2 * sampleRate)

/-- DiscretizationTransforms.hpp:19-40 `BilinearTransform` from continuous to discrete systems -/
noncomputable def bilinearTransform (continuous : Zpk) (sampleRate : ℝ) (prewarp : Option ℝ) : Out Zpk := do
  let k ← bilinearFactor sampleRate prewarp
  let transform : ℂ → List ℂ := fun p => [((k : ℂ) + p) / ((k : ℂ) - p)]
  let numRoots := max continuous.zeros.numRoots continuous.poles.numRoots
  let newZeros ← transformRoots 1 continuous.zeros transform numRoots [-1]
  let newPoles ← transformRoots 1 continuous.poles transform numRoots [-1]
  let newGain := continuous.eval k
  pure ⟨newGain, newZeros, newPoles⟩

/-- IIR.hpp:23-28 `DiscretizePrototype` -/
noncomputable def discretizePrototype (sys : Zpk) : Out Zpk := do
  let sampleRate ← fdiv 2 Real.pi
  bilinearTransform sys sampleRate (some 1)

/-! ### band transforms -/

/-- BandTransforms.hpp:23-52 `MapZDomain`, first order -/
noncomputable def mapZDomain1 (system : Zpk) (s a0 a1 : ℝ) : Out Zpk := do
  let pads : List ℂ := [((-(a1 / a0) : ℝ) : ℂ)]
  let transform : ℂ → List ℂ := fun p =>
    [(-((a1 : ℂ) * p) + (a0 : ℂ) * (s : ℂ)) / ((a0 : ℂ) * p - (a1 : ℂ) * (s : ℂ))]
  let cgain : ℂ → ℝ := fun p =>
    (((a1 : ℂ) * (s : ℂ) - p * (a0 : ℂ)) * ((a1 : ℂ) * (s : ℂ) - (starRingEnd ℂ) p * (a0 : ℂ))).re
  let rgain : ℝ → ℝ := fun p => a1 * s - p * a0
  let normGainExponent := usub system.poles.numRoots system.zeros.numRoots
  let normGain : ℝ := if normGainExponent ≠ 0 then a0 ^ normGainExponent else 1
  let numRoots := max system.zeros.numRoots system.poles.numRoots
  let newZeros ← transformRoots 1 system.zeros transform numRoots pads
  let newPoles ← transformRoots 1 system.poles transform numRoots pads
  let newGain := normGain * system.gain * transformGain system.zeros rgain cgain /
    transformGain system.poles rgain cgain
  pure ⟨newGain, newZeros, newPoles⟩

/-- BandTransforms.hpp:54-87 `MapZDomain`, second order -/
noncomputable def mapZDomain2 (system : Zpk) (s a0 a1 a2 : ℝ) : Out Zpk := do
  let det : ℂ := ((a1 * a1 - 4 * a0 * a2 : ℝ) : ℂ)
  let z1 : ℂ := (-(a1 : ℂ) - csqrt det) / ((2 * a0 : ℝ) : ℂ)
  let z2 : ℂ := (-(a1 : ℂ) + csqrt det) / ((2 * a0 : ℝ) : ℂ)
  let transform : ℂ → List ℂ := fun p =>
    let det : ℂ := ((a1 : ℂ) * p - (a1 : ℂ) * (s : ℂ)) * ((a1 : ℂ) * p - (a1 : ℂ) * (s : ℂ)) +
      4 * ((a2 : ℂ) * p - (a0 : ℂ) * (s : ℂ)) * (-((a0 : ℂ) * p) + (a2 : ℂ) * (s : ℂ))
    let z1 : ℂ := -(((a1 : ℂ) * p - (a1 : ℂ) * (s : ℂ) + csqrt det) / (2 * (a0 : ℂ) * p - 2 * (a2 : ℂ) * (s : ℂ)))
    let z2 : ℂ := -(((a1 : ℂ) * p - (a1 : ℂ) * (s : ℂ) - csqrt det) / (2 * (a0 : ℂ) * p - 2 * (a2 : ℂ) * (s : ℂ)))
    [z1, z2]
  let cgain : ℂ → ℝ := fun p =>
    (((a2 : ℂ) * (s : ℂ) - p * (a0 : ℂ)) * ((a2 : ℂ) * (s : ℂ) - (starRingEnd ℂ) p * (a0 : ℂ))).re
  let rgain : ℝ → ℝ := fun p => a2 * s - p * a0
  let normGainExponent := usub system.poles.numRoots system.zeros.numRoots
  let normGain : ℝ := if normGainExponent ≠ 0 then a0 ^ normGainExponent else 1
  let numRoots := max system.zeros.numRoots system.poles.numRoots
  let newZeros ← transformRoots 2 system.zeros transform numRoots [z1, z2]
  let newPoles ← transformRoots 2 system.poles transform numRoots [z1, z2]
  let newGain := normGain * system.gain * transformGain system.zeros rgain cgain /
    transformGain system.poles rgain cgain
  pure ⟨newGain, newZeros, newPoles⟩

/-- BandTransforms.hpp:91-100 `Halfband2Lowpass` -/
noncomputable def halfband2Lowpass (system : Zpk) (cutoff : ℝ) : Out Zpk := do
  let w := cutoff * Real.pi
  let q ← fdiv (Real.cos w) (1 + Real.sin w)
  mapZDomain1 system 1 (-q) 1

/-- BandTransforms.hpp:102-111 `Halfband2Highpass` -/
noncomputable def halfband2Highpass (system : Zpk) (cutoff : ℝ) : Out Zpk := do
  let w := cutoff * Real.pi
  let a1 ← fdiv (Real.cos w) (-1 + Real.sin w)
  mapZDomain1 system (-1) 1 a1

/-- BandTransforms.hpp:113-124 `Halfband2Bandpass` -/
noncomputable def halfband2Bandpass (system : Zpk) (to1 to2 : ℝ) : Out Zpk := do
  let w1 := to1 * Real.pi
  let w2 := to2 * Real.pi
  let q2 ← fdiv 2 (1 + Real.tan ((w1 - w2) / 2))
  let q1 ← fdiv (Real.cos w1 + Real.cos w2 + Real.sin w1 - Real.sin w2) (1 + Real.sin (w1 - w2))
  mapZDomain2 system (-1) 1 (-q1) (-1 + q2)

/-- BandTransforms.hpp:126-137 `Halfband2Bandstop` -/
noncomputable def halfband2Bandstop (system : Zpk) (to1 to2 : ℝ) : Out Zpk := do
  let w1 := to1 * Real.pi
  let w2 := to2 * Real.pi
  let a1 ← fdiv (Real.cos w1 + Real.cos w2 - Real.sin w1 + Real.sin w2) (-1 + Real.sin (w1 - w2))
  let q0 ← fdiv 2 (-1 + Real.tan ((w1 - w2) / 2))
  mapZDomain2 system 1 (-1 - q0) a1 1

/-! ### `DesignFilter` -/

/-- IIR.hpp:57-61, 91-95, 125-129 `DesignFilter` for lowpass filters; `prototype order` is the analog prototype. -/
noncomputable def designLowpass (prototype : ℕ → Out Zpk) (order : ℕ) (cutoff : ℝ) : Out Zpk := do
  let halfband ← discretizePrototype (← prototype order)
  halfband2Lowpass halfband cutoff

/-- IIR.hpp:63-68, 97-102, 131-136 `DesignFilter` for highpass filters -/
noncomputable def designHighpass (prototype : ℕ → Out Zpk) (order : ℕ) (cutoff : ℝ) : Out Zpk := do
  let halfband ← discretizePrototype (← prototype order)
  halfband2Highpass halfband cutoff

/-- IIR.hpp:70-76, 104-110, 138-144 `DesignFilter` for bandpass filters -/
noncomputable def designBandpass (prototype : ℕ → Out Zpk) (order : ℕ) (lower upper : ℝ) : Out Zpk := do
  cassert (order % 2 = 0)
  let halfband ← discretizePrototype (← prototype (order / 2))
  halfband2Bandpass halfband lower upper

/-- IIR.hpp:78-84, 112-118, 146-152 `DesignFilter` for bandstop filters -/
noncomputable def designBandstop (prototype : ℕ → Out Zpk) (order : ℕ) (lower upper : ℝ) : Out Zpk := do
  cassert (order % 2 = 0)
  let halfband ← discretizePrototype (← prototype (order / 2))
  halfband2Bandstop halfband lower upper

end Verif
