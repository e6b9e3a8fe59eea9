import Verif.Model.Signal
import Verif.Spec.Spaces
import Mathlib.Analysis.SpecialFunctions.Trigonometric.Basic
import Mathlib.Analysis.SpecialFunctions.Complex.Circle
import Mathlib.Algebra.BigOperators.Intervals

/-!
# Specification vocabulary of FIR design
-/

namespace Verif
open Complex

/-- the elements of the signal `s` are `h 0, h 1, …` -/
def Reads {K : Type} (mem : List K) (s : Span) (h : ℕ → K) : Prop :=
  ∀ i, i < s.size → mem[s.pos + i]? = some (h i)

/-- Frequency response of the filter with taps `h 0 … h (n-1)` at `w` radians per sample. -/
noncomputable def firResponse (n : ℕ) (h : ℕ → ℝ) (w : ℝ) : ℂ :=
  ∑ i ∈ Finset.range n, (h i : ℂ) * Complex.exp (-(w * i : ℝ) * I)

/-- The taps of the ideal Hilbert transformer relative to its centre, up to the common factor `2 / (π k)`: twice the sine of
`π k / 2`. -/
def quadrature (k : ℤ) : ℝ := if k % 4 = 1 then 2 else if k % 4 = 3 then -2 else 0

/-- Frequency response with the delay of half the length, `(n-1)/2` samples, taken out. -/
noncomputable def centredResponse (n : ℕ) (h : ℕ → ℝ) (w : ℝ) : ℂ :=
  Complex.exp ((w * (((n : ℝ) - 1) / 2) : ℝ) * I) * firResponse n h w

/-- the first `n` values change sign when read backwards -/
def Antisymmetric (n : ℕ) (h : ℕ → ℝ) : Prop := ∀ i, i < n → h (n - 1 - i) = -h i

/-- `window` fills any signal it is given with the window `w n` of its length `n`, and touches nothing else. -/
def FillsWindow (window : List ℝ → Span → Out (List ℝ)) (w : ℕ → ℕ → ℝ) : Prop :=
  ∀ mem (out : Span), out.Within mem → ∃ m, window mem out = .ok m ∧ Writes mem m out (w out.size)

end Verif
