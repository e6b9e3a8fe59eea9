import Verif.Model.Spaces
import Verif.Model.Statistics
import Verif.Model.Convolution
import Mathlib.Analysis.SpecialFunctions.Trigonometric.Basic
import Mathlib.Topology.Algebra.InfiniteSum.Basic
import Mathlib.Analysis.Normed.Ring.Lemmas
import Mathlib.Analysis.SpecialFunctions.Pow.Real

/-!
# Model of the window functions  (include/dspbb/Filtering/Windowing.hpp)

Every function overwrites a `Span` of one memory of exact real numbers; the allocating forms call these on a fresh signal
(Windowing.hpp:210-277).  The element type is real; for complex signals the library computes with the real parts.
-/

namespace Verif

/-- Windowing.hpp:19-22 `CoherentGain` -/
noncomputable def coherentGain (c : Kern) (window : List ℝ) : Out ℝ := do
  let s ← statSum c window
  fdiv s (window.length : ℝ)

/-- Windowing.hpp:29-32 `EnergyGain` -/
noncomputable def energyGain (c : Kern) (window : List ℝ) : Out ℝ := do
  let s ← statSumSquare c window
  fdiv s (window.length : ℝ)

/-- Windowing.hpp:43-52 -/
noncomputable def hammingWindow (e : Exec) (mem : List ℝ) (out : Span) : Out (List ℝ) := do
  let mem ← linSpace e mem out 0 (2 * Real.pi) true
  let mem ← functionInto e Real.cos mem out out
  let mem ← compoundVS e.asserts e.vec e.W .mul mem out (-0.46)
  compoundVS e.asserts e.vec e.W .add mem out 0.54

/-- Windowing.hpp:54-80 -/
noncomputable def flatTopWindow (e : Exec) (mem : List ℝ) (out : Span) : Out (List ℝ) := do
  let c0 : ℝ := 0.21557895
  let c1 : ℝ := -0.41663158
  let c2 : ℝ := 0.277263158
  let c3 : ℝ := -0.083578947
  let c4 : ℝ := 0.006947368
  let N : ℝ := out.size
  let preSize1 ← fdiv (2 * Real.pi) (N - 1)
  let preSize2 ← fdiv (4 * Real.pi) (N - 1)
  let preSize3 ← fdiv (6 * Real.pi) (N - 1)
  let preSize4 ← fdiv (8 * Real.pi) (N - 1)
  let mem ← linSpace e mem out 0 ((usub out.size 1 : Nat) : ℝ) true
  forEach (fun kreal => pure (c0 + c1 * Real.cos (preSize1 * kreal) + c2 * Real.cos (preSize2 * kreal)
    + c3 * Real.cos (preSize3 * kreal) + c4 * Real.cos (preSize4 * kreal))) mem out

/-- Windowing.hpp:82-87 -/
noncomputable def rectangularWindow (mem : List ℝ) (out : Span) : Out (List ℝ) :=
  forN out.size (fun i mem => wr mem ((out.pos + i : Nat) : Int) 1) mem

/-- Windowing.hpp:89-98 -/
noncomputable def triangularWindow (e : Exec) (mem : List ℝ) (out : Span) : Out (List ℝ) := do
  let mem ← linSpace e mem out 0 2 true
  let mem ← compoundVS e.asserts e.vec e.W .sub mem out 1
  let mem ← functionInto e (fun x => |x|) mem out out
  let mem ← compoundVS e.asserts e.vec e.W .mul mem out (-1)
  compoundVS e.asserts e.vec e.W .add mem out 1

/-- Windowing.hpp:100-109 -/
noncomputable def blackmanWindow (e : Exec) (mem : List ℝ) (out : Span) : Out (List ℝ) := do
  let mem ← linSpace e mem out 0 (2 * Real.pi) true
  forEach (fun kreal => pure (0.42 - 0.5 * Real.cos kreal + 0.08 * Real.cos (2 * kreal))) mem out

/-- Windowing.hpp:111-120 -/
noncomputable def blackmanHarrisWindow (e : Exec) (mem : List ℝ) (out : Span) : Out (List ℝ) := do
  let mem ← linSpace e mem out 0 (2 * Real.pi) true
  forEach (fun kreal => pure (0.35875 - 0.48829 * Real.cos kreal + 0.14128 * Real.cos (2 * kreal)
    + (-0.01168) * Real.cos (3 * kreal))) mem out

/-- Windowing.hpp:122-133 -/
noncomputable def gaussianWindow (e : Exec) (mem : List ℝ) (out : Span) (sigma : ℝ) : Out (List ℝ) := do
  let N : ℝ := out.size
  let M ← fdiv (N - 1) 2
  let mem ← linSpace e mem out (-M) M true
  let q ← fdiv 1 (sigma * M)
  let mem ← compoundVS e.asserts e.vec e.W .mul mem out q
  let mem ← arithVV e.asserts e.vec e.W .mul mem out out out
  let mem ← compoundVS e.asserts e.vec e.W .mul mem out (-0.5)
  functionInto e Real.exp mem out out

/-- The modified Bessel function of the first kind and order zero, by its power series. -/
noncomputable def besselI0 (x : ℝ) : ℝ := ∑' k : ℕ, ((x / 2) ^ k / (k.factorial : ℝ)) ^ 2

/-- `std::cyl_bessel_i(0, x)`: a negative argument is a domain error, reported by an exception. -/
noncomputable def cylBesselI0 (x : ℝ) : Out ℝ := open Classical in if x < 0 then .throws else .ok (besselI0 x)

/-- Windowing.hpp:135-146 -/
noncomputable def kaiserWindow (e : Exec) (mem : List ℝ) (out : Span) (alpha : ℝ) : Out (List ℝ) := do
  let mem ← linSpace e mem out (-1) 1 true
  forEach (fun kreal => do
    let piAlpha := Real.pi * alpha
    let arg := Real.sqrt (max 0 (1 - kreal * kreal))
    let num ← cylBesselI0 (piAlpha * arg)
    let den ← cylBesselI0 piAlpha
    fdiv num den) mem out

/-- Windowing.hpp:148-157 -/
noncomputable def lanczosWindow (e : Exec) (mem : List ℝ) (out : Span) : Out (List ℝ) := do
  let mem ← linSpace e mem out (-Real.pi) Real.pi true
  forEach (fun kreal => open Classical in if kreal ≠ 0 then fdiv (Real.sin kreal) kreal else pure 1) mem out

/-- Windowing.hpp:210-277: the allocating form of a window function. -/
noncomputable def windowNew (window : List ℝ → Span → Out (List ℝ)) (length : Nat) : Out (List ℝ) :=
  window (List.replicate length 0) ⟨0, length⟩

end Verif
