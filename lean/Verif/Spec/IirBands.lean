import Mathlib.Analysis.SpecialFunctions.Trigonometric.Basic

/-!
# Specification for C84: what the four band types let pass

Frequencies `w` are in radians per sample, `0 ≤ w ≤ π`; cutoff frequencies are relative to the Nyquist frequency as in the library.
-/

namespace Verif

/-- The band type of a filter with its cutoff frequencies. -/
inductive BandShape
  | lowpass (c : ℝ)
  | highpass (c : ℝ)
  | bandpass (lower upper : ℝ)
  | bandstop (lower upper : ℝ)

namespace BandShape

/-- The cutoffs the library can design for: strictly between zero and the Nyquist frequency and in order.  A high pass at half the
Nyquist frequency and a band pass of that width are excluded: the library divides by zero (`C61_highpass_half`, `C61_bandpass_half`). -/
def Valid : BandShape → Prop
  | lowpass c => 0 < c ∧ c < 1
  | highpass c => 0 < c ∧ c < 1 ∧ c ≠ 1 / 2
  | bandpass c1 c2 => 0 < c1 ∧ c1 < c2 ∧ c2 < 1 ∧ c2 - c1 ≠ 1 / 2
  | bandstop c1 c2 => 0 < c1 ∧ c1 < c2 ∧ c2 < 1

/-- The order of the digital filter for a prototype of order `n`. -/
def order : BandShape → ℕ → ℕ
  | lowpass _, n => n
  | highpass _, n => n
  | bandpass _ _, n => 2 * n
  | bandstop _ _, n => 2 * n

/-- The frequency `w` is inside the pass band (cutoffs included). -/
def Passes : BandShape → ℝ → Prop
  | lowpass c, w => w ≤ c * Real.pi
  | highpass c, w => c * Real.pi ≤ w
  | bandpass c1 c2, w => c1 * Real.pi ≤ w ∧ w ≤ c2 * Real.pi
  | bandstop c1 c2, w => w ≤ c1 * Real.pi ∨ c2 * Real.pi ≤ w

/-- The frequency `w` is a cutoff frequency. -/
def IsEdge : BandShape → ℝ → Prop
  | lowpass c, w => w = c * Real.pi
  | highpass c, w => w = c * Real.pi
  | bandpass c1 c2, w => w = c1 * Real.pi ∨ w = c2 * Real.pi
  | bandstop c1 c2, w => w = c1 * Real.pi ∨ w = c2 * Real.pi

/-- The frequencies that the filter rejects altogether: the analog frequency corresponding to them is infinite. -/
def Rejects : BandShape → ℝ → Prop
  | lowpass _, w => w = Real.pi
  | highpass _, w => w = 0
  | bandpass _ _, w => w = 0 ∨ w = Real.pi
  | bandstop c1 c2, w => Real.cos ((c2 * Real.pi - c1 * Real.pi) / 2) * Real.cos w = Real.cos ((c1 * Real.pi + c2 * Real.pi) / 2)

/-- The analog frequency whose prototype response the filter has at `w`, as a quotient: the numerator, ... -/
noncomputable def analogNum : BandShape → ℝ → ℝ
  | lowpass c, w => Real.sin (w / 2) * Real.cos (c * Real.pi / 2)
  | highpass c, w => -(Real.cos (w / 2) * Real.sin (c * Real.pi / 2))
  | bandpass c1 c2, w => Real.cos ((c1 * Real.pi + c2 * Real.pi) / 2) - Real.cos ((c2 * Real.pi - c1 * Real.pi) / 2) * Real.cos w
  | bandstop c1 c2, w => Real.sin ((c2 * Real.pi - c1 * Real.pi) / 2) * Real.sin w

/-- ... and the denominator -/
noncomputable def analogDen : BandShape → ℝ → ℝ
  | lowpass c, w => Real.cos (w / 2) * Real.sin (c * Real.pi / 2)
  | highpass c, w => Real.sin (w / 2) * Real.cos (c * Real.pi / 2)
  | bandpass c1 c2, w => Real.sin ((c2 * Real.pi - c1 * Real.pi) / 2) * Real.sin w
  | bandstop c1 c2, w => Real.cos ((c2 * Real.pi - c1 * Real.pi) / 2) * Real.cos w - Real.cos ((c1 * Real.pi + c2 * Real.pi) / 2)

/-- The analog frequency corresponding to `w`; the cutoffs correspond to `±1`. -/
noncomputable def analog (b : BandShape) (w : ℝ) : ℝ := b.analogNum w / b.analogDen w

end BandShape
end Verif
