import Verif.Model.Windowing
import Verif.Model.FFT
import Verif.Model.Descs
import Mathlib.Algebra.BigOperators.Intervals

/-!
# Model of the FIR design functions

include/dspbb/Filtering/FIR/BandTransforms.hpp, FIR/Windowed.hpp, FIR/LeastSquares.hpp, FIR.hpp.

Signals are `Span`s of one memory of exact real numbers, so that results may be written over their arguments.
-/

namespace Verif

/-! ### FIR/BandTransforms.hpp -/

/-- BandTransforms.hpp:14-23 `MirrorResponse`.  State: memory and the alternating sign. -/
noncomputable def mirrorResponse (mem : List ℝ) (mirrored filter : Span) : Out (List ℝ) := do
  cassert (mirrored.size = filter.size)
  let s ← forN filter.size (fun i (s : List ℝ × ℝ) => do
    let x ← rd s.1 ((filter.pos + i : Nat) : Int)
    let m ← wr s.1 ((mirrored.pos + i : Nat) : Int) (s.2 * x)
    pure (m, s.2 * (-1))) (mem, 1)
  pure s.1

/-- BandTransforms.hpp:25-32 `ComplementaryResponse` -/
noncomputable def complementaryResponse (e : Exec) (mem : List ℝ) (complementary filter : Span) : Out (List ℝ) := do
  cassert (filter.size % 2 = 1)
  let mem ← arithVS e.asserts e.vec e.W .mul mem complementary filter (-1)
  let x ← rd mem ((complementary.pos + complementary.size / 2 : Nat) : Int)
  wr mem ((complementary.pos + complementary.size / 2 : Nat) : Int) (x + 1)

/-- BandTransforms.hpp:34-47 `ShiftResponse` -/
noncomputable def shiftResponse (e : Exec) (mem : List ℝ) (moved filter : Span) (normalizedFrequency : ℝ) : Out (List ℝ) := do
  cassert (moved.size = filter.size)
  let offset : ℝ := ((filter.size / 2 : Nat) : ℝ)
  let scale := Real.pi * normalizedFrequency
  let size := filter.size
  let mem ← forN (size / 2) (fun i mem => do
    let x := ((i : ℝ) - offset) * scale
    let c := Real.cos x
    let a ← rd mem ((filter.pos + i : Nat) : Int)
    let mem ← wr mem ((moved.pos + i : Nat) : Int) (c * a)
    let b ← rd mem ((filter.pos + (size - i - 1) : Nat) : Int)
    wr mem ((moved.pos + (size - i - 1) : Nat) : Int) (c * b)) mem
  compoundVS e.asserts e.vec e.W .mul mem moved 2

/-- BandTransforms.hpp:52 -/
abbrev hilbertKernelSize : Nat := 32

/-- BandTransforms.hpp:54-60 `impl::kernel` -/
def hilbertKernel : List ℝ :=
  [2, 0, -2, 0, 2, 0, -2, 0,
   2, 0, -2, 0, 2, 0, -2, 0,
   2, 0, -2, 0, 2, 0, -2, 0,
   2, 0, -2, 0, 2, 0, -2, 0]

/-- `view.subsignal(offset)`, SignalView.hpp:132-136 -/
def Span.subFrom (s : Span) (offset : Nat) : Out Span := do
  cassert (offset ≤ s.size)
  pure ⟨s.pos + offset, s.size - offset⟩

/-- `view.subsignal(offset, count)`, SignalView.hpp:138-143 (for sizes that do not wrap around) -/
def Span.sub (s : Span) (offset count : Nat) : Out Span := do
  cassert (offset ≤ s.size)
  cassert (offset + count ≤ s.size)
  pure ⟨s.pos + offset, count⟩

/-- BandTransforms.hpp:64-100 `HalfbandToHilbertOdd`.  The constant kernel is placed behind the memory. -/
noncomputable def halfbandToHilbertOdd (e : Exec) (mem : List ℝ) (out halfband : Span) : Out (List ℝ) := do
  cassert (halfband.size % 2 = 1)
  cassert (out.size = halfband.size)
  let kernelCenter := hilbertKernelSize / 2 - 1
  let maxSizeSingleStep := hilbertKernelSize - 1
  let kernel : Span := ⟨mem.length, hilbertKernelSize⟩
  let m := mem ++ hilbertKernel
  let filterSize := halfband.size
  let m ← (if halfband.size ≤ maxSizeSingleStep then do
    let offset := usub kernelCenter (filterSize / 2)
    let kernelRegion ← kernel.sub offset filterSize
    arithVV e.asserts e.vec e.W .mul m out halfband kernelRegion
  else do
    let tap := (filterSize / 2 - kernelCenter) % hilbertKernelSize
    let k ← kernel.subFrom (hilbertKernelSize - tap)
    let m ← arithVV e.asserts e.vec e.W .mul m ⟨out.pos, tap⟩ ⟨halfband.pos, tap⟩ k
    let s ← whileN filterSize (fun (s : List ℝ × Nat) => decide (s.2 + hilbertKernelSize < filterSize)) (fun s => do
      let m ← arithVV e.asserts e.vec e.W .mul s.1 ⟨out.pos + s.2, hilbertKernelSize⟩ ⟨halfband.pos + s.2, hilbertKernelSize⟩ kernel
      pure (m, s.2 + hilbertKernelSize)) (m, tap)
    let lastChunkSize := usub filterSize s.2
    let k ← kernel.sub 0 lastChunkSize
    arithVV e.asserts e.vec e.W .mul s.1 ⟨out.pos + s.2, lastChunkSize⟩ ⟨halfband.pos + s.2, lastChunkSize⟩ k)
  pure (m.take mem.length)

/-- Resample.hpp:168-177 `Decimate(output, input, rate)` on views of one memory -/
def decimateInto (mem : List ℝ) (output input : Span) (rate : Nat) : Out (List ℝ) := do
  (if rate = 0 then .ub else pure ())
  cassert (output.size = (input.size + rate - 1) / rate)
  forN output.size (fun k mem => do
    let x ← rd mem ((input.pos + k * rate : Nat) : Int)
    wr mem ((output.pos + k : Nat) : Int) x) mem

/-- BandTransforms.hpp:102-148 `HalfbandToHilbertEven`.  The constant kernel and the scratch array (whose initial contents are
indeterminate: `garbage`) are placed behind the memory. -/
noncomputable def halfbandToHilbertEven (e : Exec) (garbage mem : List ℝ) (out halfband : Span) : Out (List ℝ) := do
  cassert (out.size % 2 = 0)
  cassert (usub (out.size * 2) 1 = halfband.size)
  let kernelCenter := hilbertKernelSize / 2 - 1
  let maxSizeSingleStep := hilbertKernelSize - 1
  let kernel : Span := ⟨mem.length, hilbertKernelSize⟩
  let scratch : Span := ⟨mem.length + hilbertKernelSize, hilbertKernelSize⟩
  let m := mem ++ hilbertKernel ++ garbage
  let filterSize := halfband.size
  let m ← (if halfband.size ≤ maxSizeSingleStep then do
    let offset := usub kernelCenter (filterSize / 2)
    let kernelRegion ← kernel.sub offset filterSize
    let scratchRegion ← scratch.sub 0 filterSize
    let m ← arithVV e.asserts e.vec e.W .mul m scratchRegion halfband kernelRegion
    decimateInto m out scratchRegion 2
  else do
    let tap := (filterSize / 2 - kernelCenter) % hilbertKernelSize
    let r ← scratch.sub 0 tap
    let k ← kernel.subFrom (hilbertKernelSize - tap)
    let m ← arithVV e.asserts e.vec e.W .mul m r ⟨halfband.pos, tap⟩ k
    let m ← decimateInto m ⟨out.pos, (tap + 1) / 2⟩ r 2
    let s ← whileN filterSize (fun (s : List ℝ × Nat) => decide (s.2 + hilbertKernelSize < filterSize)) (fun s => do
      let m ← arithVV e.asserts e.vec e.W .mul s.1 scratch ⟨halfband.pos + s.2, hilbertKernelSize⟩ kernel
      let m ← decimateInto m ⟨out.pos + (s.2 + 1) / 2, (hilbertKernelSize + 1) / 2⟩ scratch 2
      pure (m, s.2 + hilbertKernelSize)) (m, tap)
    let lastChunkSize := usub filterSize s.2
    let r ← scratch.sub 0 lastChunkSize
    let k ← kernel.sub 0 lastChunkSize
    let m ← arithVV e.asserts e.vec e.W .mul s.1 r ⟨halfband.pos + s.2, lastChunkSize⟩ k
    decimateInto m ⟨out.pos + (s.2 + 1) / 2, (lastChunkSize + 1) / 2⟩ r 2)
  pure (m.take mem.length)

/-! ### FIR/Windowed.hpp -/

/-- the elements of a signal -/
def Span.contents {K : Type} (s : Span) (mem : List K) : List K := (mem.drop s.pos).take s.size

/-- Windowed.hpp:13-29 `KernelWindowedLowpass` with a window function -/
noncomputable def kernelWindowedLowpass (e : Exec) (c : Kern) (mem : List ℝ) (coefficients : Span) (cutoffNorm : ℝ)
    (windowFunc : List ℝ → Span → Out (List ℝ)) : Out (List ℝ) := do
  cassert (coefficients.size % 2 = 1)
  let offset : ℝ := ((coefficients.size / 2 : Nat) : ℝ)
  let scale := cutoffNorm * Real.pi
  let size := coefficients.size
  let mem ← windowFunc mem coefficients
  let mem ← forN (size / 2) (fun i mem => do
    let x := ((i : ℝ) - offset) * scale
    let sinc ← fdiv (Real.sin x) x
    let a ← rd mem ((coefficients.pos + i : Nat) : Int)
    let mem ← wr mem ((coefficients.pos + i : Nat) : Int) (a * sinc)
    let b ← rd mem ((coefficients.pos + (size - i - 1) : Nat) : Int)
    wr mem ((coefficients.pos + (size - i - 1) : Nat) : Int) (b * sinc)) mem
  let s ← statSum c (coefficients.contents mem)
  let q ← fdiv 1 s
  compoundVS e.asserts e.vec e.W .mul mem coefficients q

/-- Windowed.hpp:32-52 `KernelWindowedLowpass` with a given window -/
noncomputable def kernelWindowedLowpassGiven (e : Exec) (c : Kern) (mem : List ℝ) (coefficients : Span) (cutoffNorm : ℝ)
    (window : Span) : Out (List ℝ) := do
  cassert (coefficients.size % 2 = 1)
  cassert (coefficients.size = window.size)
  let offset : ℝ := ((coefficients.size / 2 : Nat) : ℝ)
  let scale := cutoffNorm * Real.pi
  let size := coefficients.size
  let mem ← forN (size / 2) (fun i mem => do
    let x := ((i : ℝ) - offset) * scale
    let sinc ← fdiv (Real.sin x) x
    let mem ← wr mem ((coefficients.pos + i : Nat) : Int) sinc
    wr mem ((coefficients.pos + (size - i - 1) : Nat) : Int) sinc) mem
  let mem ← (if size % 2 = 1 then wr mem ((coefficients.pos + size / 2 : Nat) : Int) 1 else pure mem)
  let mem ← compoundVV e.asserts e.vec e.W .mul mem coefficients window
  let s ← statSum c (coefficients.contents mem)
  let q ← fdiv 1 s
  compoundVS e.asserts e.vec e.W .mul mem coefficients q

/-! ### FIR.hpp, window method -/

/-- FIR.hpp:20-23 -/
noncomputable def designWindowedLowpass (e : Exec) (c : Kern) (mem : List ℝ) (out : Span) (cutoff : ℝ)
    (window : List ℝ → Span → Out (List ℝ)) : Out (List ℝ) :=
  kernelWindowedLowpass e c mem out cutoff window

/-- FIR.hpp:26-30 -/
noncomputable def designWindowedHighpass (e : Exec) (c : Kern) (mem : List ℝ) (out : Span) (cutoff : ℝ)
    (window : List ℝ → Span → Out (List ℝ)) : Out (List ℝ) := do
  let mem ← designWindowedLowpass e c mem out cutoff window
  complementaryResponse e mem out out

/-- FIR.hpp:33-39 -/
noncomputable def designWindowedBandpass (e : Exec) (c : Kern) (mem : List ℝ) (out : Span) (lower upper : ℝ)
    (window : List ℝ → Span → Out (List ℝ)) : Out (List ℝ) := do
  let bandWidth := upper - lower
  let bandCenter := (upper + lower) / 2
  let mem ← designWindowedLowpass e c mem out (bandWidth / 2) window
  shiftResponse e mem out out bandCenter

/-- FIR.hpp:42-46 -/
noncomputable def designWindowedBandstop (e : Exec) (c : Kern) (mem : List ℝ) (out : Span) (lower upper : ℝ)
    (window : List ℝ → Span → Out (List ℝ)) : Out (List ℝ) := do
  let mem ← designWindowedBandpass e c mem out lower upper window
  complementaryResponse e mem out out

/-- FIR.hpp:166-178 `FirFilterHilbert`; `design` is the design of the half-band filter.  The temporary half-band filter is placed
behind the memory. -/
noncomputable def firFilterHilbert (e : Exec) (garbage mem : List ℝ) (out : Span)
    (design : List ℝ → Span → Out (List ℝ)) : Out (List ℝ) :=
  if out.size % 2 = 0 then do
    let halfbandSize := usub (out.size * 2) 1
    let halfband : Span := ⟨mem.length, halfbandSize⟩
    let m ← design (mem ++ List.replicate halfbandSize 0) halfband
    let m ← halfbandToHilbertEven e garbage m out halfband
    pure (m.take mem.length)
  else do
    let mem ← design mem out
    halfbandToHilbertOdd e mem out out

/-- FIR.hpp:182-186 -/
noncomputable def designWindowedHilbert (e : Exec) (c : Kern) (garbage mem : List ℝ) (out : Span)
    (window : List ℝ → Span → Out (List ℝ)) : Out (List ℝ) :=
  firFilterHilbert e garbage mem out (fun mem out => designWindowedLowpass e c mem out 0.5 window)

/-! ### FIR/LeastSquares.hpp -/

/-- LeastSquares.hpp:14-41 `CoefficientMatrix`: entry in row `r` (grid point) and column `k` -/
noncomputable def lsCoefficient (gridSize r k : Nat) : ℝ :=
  if k = 0 then 1 else 2 * Real.cos ((r : ℝ) * (1 / ((usub gridSize 1 : Nat) : ℝ) * Real.pi) * (k : ℝ))

/-- A solver for linear least squares: matrix, right hand side, number of rows and of columns. -/
abbrev LsSolver := (ℕ → ℕ → ℝ) → (ℕ → ℝ) → ℕ → ℕ → ℕ → ℝ

/-- a list of results, in order -/
def sequenceN {α : Type} (f : ℕ → Out α) : ℕ → Out (List α)
  | 0 => .ok []
  | n + 1 => do
    let l ← sequenceN f n
    let x ← f n
    pure (l ++ [x])

/-- LeastSquares.hpp:70-88 `KernelLeastSquares`.  The decomposition and solution are Eigen's: `solve`.  `responseFunc` and
`weightFunc` may fail to give a number.  `T(gridSize - 1) = 0` gives no numbers. -/
noncomputable def kernelLeastSquares (solve : LsSolver) (mem : List ℝ) (coefficients : Span)
    (responseFunc weightFunc : ℝ → Out ℝ) (gridSize₀ : Nat) : Out (List ℝ) := do
  let filterLength := (coefficients.size + 1) / 2
  let gridSize := if gridSize₀ = 0 then 4 * filterLength else min filterLength gridSize₀
  let step ← fdiv 1 ((usub gridSize 1 : Nat) : ℝ)
  let weights ← sequenceN (fun i => weightFunc ((i : ℝ) / ((usub gridSize 1 : Nat) : ℝ))) gridSize
  let response ← sequenceN (fun i => responseFunc ((i : ℝ) * step)) gridSize
  let halfFilter := solve (fun r k => sig weights r * lsCoefficient gridSize r k) (fun r => sig weights r * sig response r)
    gridSize filterLength
  forN filterLength (fun i mem => do
    let mem ← wr mem ((coefficients.pos + i : Nat) : Int) (halfFilter (filterLength - i - 1))
    wr mem ((coefficients.pos + (i + filterLength - 1) : Nat) : Int) (halfFilter i)) mem

/-! ### FIR.hpp, least squares -/

/-- FIR.hpp:60-64 `Smoothstep` -/
noncomputable def smoothstep (x : ℝ) : ℝ :=
  let c := max 0 (min x 1)
  3 * c * c - 2 * c * c * c

/-- FIR.hpp:60-69 `Smoothstep(LerpParam(x, lower, upper))`.  With `upper = lower` the quotient is an infinity of the sign of the
numerator (the difference of equal numbers is `+0`), which `std::clamp` turns into 0 or 1, or not a number if `x = lower`, which
`std::clamp` passes on. -/
noncomputable def smoothLerp (x lower upper : ℝ) : Out ℝ :=
  open Classical in
  if upper - lower = 0 then
    if x - lower = 0 then .ub
    else if x - lower < 0 then pure (smoothstep 0)
    else pure (smoothstep 1)
  else pure (smoothstep ((x - lower) / (upper - lower)))

/-- FIR.hpp:71-80 `LeastSquaresSplitWeight` -/
noncomputable def lsSplitWeight (d : SplitDescLS ℝ) (frequency : ℝ) : ℝ :=
  open Classical in
  if frequency ≤ d.cutoffBegin then d.weightLow
  else if frequency ≤ d.cutoffEnd then d.weightTransition
  else d.weightHigh

/-- FIR.hpp:82-97 `LeastSquaresBandWeight` -/
noncomputable def lsBandWeight (d : BandDescLS ℝ) (frequency : ℝ) : ℝ :=
  open Classical in
  if frequency ≤ d.lowerBegin then d.weightLow
  else if frequency ≤ d.lowerEnd then d.weightTransition1
  else if frequency ≤ d.upperBegin then d.weightMid
  else if frequency ≤ d.upperEnd then d.weightTransition2
  else d.weightHigh

/-- FIR.hpp:102-105, the response wanted of a low pass -/
noncomputable def lsLowpassResponse (d : SplitDescLS ℝ) (f : ℝ) : Out ℝ := smoothLerp f d.cutoffEnd d.cutoffBegin

/-- FIR.hpp:114-117 -/
noncomputable def lsHighpassResponse (d : SplitDescLS ℝ) (f : ℝ) : Out ℝ := smoothLerp f d.cutoffBegin d.cutoffEnd

/-- FIR.hpp:126-131 -/
noncomputable def lsBandpassResponse (d : BandDescLS ℝ) (f : ℝ) : Out ℝ :=
  let fmid := (d.lowerEnd + d.upperBegin) / 2
  open Classical in
  if f < fmid then smoothLerp f d.lowerBegin d.lowerEnd else smoothLerp f d.upperEnd d.upperBegin

/-- FIR.hpp:140-145 -/
noncomputable def lsBandstopResponse (d : BandDescLS ℝ) (f : ℝ) : Out ℝ :=
  let fmid := (d.lowerEnd + d.upperBegin) / 2
  open Classical in
  if f < fmid then smoothLerp f d.lowerEnd d.lowerBegin else smoothLerp f d.upperBegin d.upperEnd

/-- FIR.hpp:100-110 -/
noncomputable def designLSLowpass (solve : LsSolver) (mem : List ℝ) (out : Span) (d : SplitDescLS ℝ) : Out (List ℝ) :=
  kernelLeastSquares solve mem out (lsLowpassResponse d) (fun f => pure (lsSplitWeight d f)) d.grid

/-- FIR.hpp:112-122 -/
noncomputable def designLSHighpass (solve : LsSolver) (mem : List ℝ) (out : Span) (d : SplitDescLS ℝ) : Out (List ℝ) :=
  kernelLeastSquares solve mem out (lsHighpassResponse d) (fun f => pure (lsSplitWeight d f)) d.grid

/-- FIR.hpp:124-136 -/
noncomputable def designLSBandpass (solve : LsSolver) (mem : List ℝ) (out : Span) (d : BandDescLS ℝ) : Out (List ℝ) :=
  kernelLeastSquares solve mem out (lsBandpassResponse d) (fun f => pure (lsBandWeight d f)) d.grid

/-- FIR.hpp:138-150 -/
noncomputable def designLSBandstop (solve : LsSolver) (mem : List ℝ) (out : Span) (d : BandDescLS ℝ) : Out (List ℝ) :=
  kernelLeastSquares solve mem out (lsBandstopResponse d) (fun f => pure (lsBandWeight d f)) d.grid

/-- FIR.hpp:152-157 -/
noncomputable def designLSArbitrary (solve : LsSolver) (mem : List ℝ) (out : Span) (response weight : ℝ → Out ℝ) (grid : Nat) :
    Out (List ℝ) :=
  kernelLeastSquares solve mem out response weight grid

/-- FIR.hpp:188-193.  The half-band filter is a new description: `desc.grid` is not passed on. -/
noncomputable def designLSHilbert (e : Exec) (solve : LsSolver) (garbage mem : List ℝ) (out : Span) (d : HilbertDescLS ℝ) :
    Out (List ℝ) := do
  let halfband ← defaultSplitLS.setCutoff (0.5 - d.transitionWidth) (0.5 + d.transitionWidth)
  let halfband := halfband.setWeight 1 d.transitionWeight 1
  firFilterHilbert e garbage mem out (fun mem out => designLSLowpass solve mem out halfband)

end Verif
