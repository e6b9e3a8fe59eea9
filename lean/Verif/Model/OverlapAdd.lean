import Verif.Model.Convolution
import Mathlib.Analysis.SpecialFunctions.Log.Basic
import Mathlib.Algebra.Order.Floor.Semiring

/-!
# Model of overlap-add convolution  (include/dspbb/Math/OverlapAdd.hpp)

The FFT pipeline of one chunk, `IfftChunk(FftChunk(chunk) * FftFilter(filter))` (lines 16-55, 144,
158-160), is a parameter `cc` here; Model/FFT.lean instantiates it with the exact discrete Fourier
transform for real and complex signals.
-/

namespace Verif

section
variable {R : Type} [Add R] [Mul R] [Zero R]

/-- OverlapAdd.hpp:165 `out.subsignal(p, n) += chunk.subsignal(q, n)`: the view bounds are asserted
(SignalView.hpp:138-143; negative numbers become huge `size_t`s), then element-wise addition. -/
def subsignalAdd (out : List R) (p n : Int) (chunk : List R) (q : Int) : Out (List R) := do
  cassert (0 ≤ p ∧ 0 ≤ n ∧ p + n ≤ out.length)
  cassert (0 ≤ q ∧ q + n ≤ chunk.length)
  forN n.toNat (fun k out => do
    let a ← rd out (p + k)
    let b ← rd chunk (q + k)
    wr out (p + k) (a + b)) out

/-- OverlapAdd.hpp:155-156: copy a part of `u` to the front of the working chunk, zero the rest. -/
def fillChunk (K : Nat) (u : List R) (r : Interval Int) : Out (List R) := do
  let part ← loadVI (r.last - r.first).toNat u r.first
  if part.length ≤ K then .ok (part ++ List.replicate (K - part.length) 0) else .ub

/-- OverlapAdd.hpp:154-165, one iteration; `pos` is `uInterval.first = outInterval.first`. -/
def olaStep (cc : List R → List R → Out (List R)) (u filter : List R) (F K offset : Nat) (out : List R)
    (pos : Int) : Out (List R) := do
  let outExtent : Interval Int := ⟨offset, offset + out.length⟩
  let uExtent : Interval Int := ⟨0, u.length⟩
  let uInterval : Interval Int := ⟨pos, pos + F⟩
  let outInterval : Interval Int := ⟨pos, pos + K⟩
  let uValidInterval := uInterval.intersection uExtent
  let workingChunk ← fillChunk K u uValidInterval
  let filteredChunk ← cc workingChunk filter
  let outValidInterval := (outInterval.intersection outExtent).unshift offset
  let chunkValidInterval := (outInterval.intersection outExtent).unshift uInterval.first
  subsignalAdd out outValidInterval.first outValidInterval.size filteredChunk chunkValidInterval.first

/-- OverlapAdd.hpp:125-166, after the operands have been ordered (`v` not longer than `u`).
`auto` is `impl::ola::OptimalPracticalSize`. -/
def overlapAddOrdered (auto : Nat → Nat → Out Nat) (cc : List R → List R → Out (List R))
    (out u v : List R) (offset chunkSize : Nat) (clearOut : Bool) : Out (List R) := do
  let K ← (if chunkSize = 0 then auto u.length v.length else pure chunkSize)
  cassert (K ≥ usub (2 * v.length) 1)
  cassert (offset + out.length ≤ convLengthFull u.length v.length)
  let out := if clearOut then out.map fun _ => 0 else out
  let F := v.length
  let filter := v ++ List.replicate (K - F) 0
  let outExtent : Interval Int := ⟨offset, offset + out.length⟩
  let uExtent : Interval Int := ⟨0, u.length⟩
  let loopInterval := uExtent.intersection
    (outExtent.encompassingUnion ((outExtent.shift 1).unshift F))
  let res ← whileN (out.length + 1)
    (fun s : List R × Int =>
      !(Interval.isDisjoint ⟨s.2, s.2 + (K : Int)⟩ outExtent))
    (fun s => do
      let out' ← olaStep cc u filter F K offset s.1 s.2
      pure (out', s.2 + (F : Int))) (out, loopInterval.first)
  pure res.1

/-- OverlapAdd.hpp:120-167 `OverlapAdd(out, u, v, offset, chunkSize, clearOut)`. -/
def overlapAdd (auto : Nat → Nat → Out Nat) (cc : List R → List R → Out (List R))
    (out u v : List R) (offset chunkSize : Nat) (clearOut : Bool) : Out (List R) :=
  -- 122-124; after swapping, the first operand is the longer one and no second swap occurs
  if u.length < v.length then overlapAddOrdered auto cc out v u offset chunkSize clearOut
  else overlapAddOrdered auto cc out u v offset chunkSize clearOut

/-- OverlapAdd.hpp:169-175 -/
def overlapAddFull (auto : Nat → Nat → Out Nat) (cc : List R → List R → Out (List R))
    (out u v : List R) (chunkSize : Nat) (clearOut : Bool) : Out (List R) := do
  cassert (out.length = convLengthFull u.length v.length)
  overlapAdd auto cc out u v 0 chunkSize clearOut

/-- OverlapAdd.hpp:177-183 -/
def overlapAddCentral (auto : Nat → Nat → Out Nat) (cc : List R → List R → Out (List R))
    (out u v : List R) (chunkSize : Nat) (clearOut : Bool) : Out (List R) := do
  cassert (out.length = convLengthCentral u.length v.length)
  overlapAdd auto cc out u v (min (usub u.length 1) (usub v.length 1)) chunkSize clearOut

/-- OverlapAdd.hpp:186-196 -/
def overlapAddAlloc (auto : Nat → Nat → Out Nat) (cc : List R → List R → Out (List R))
    (u v : List R) (offset length chunkSize : Nat) : Out (List R) :=
  overlapAdd auto cc (List.replicate length 0) u v offset chunkSize false

end

/-! ### choice of the chunk size -/

/-- OverlapAdd.hpp:95-105 `NextPowerOfTwo` on 64-bit `size_t`; `p <<= 1` wraps. -/
def nextPowerOfTwo (n : Nat) : Out Nat := do
  cassert (n < 2 ^ 63)
  if n = 0 then pure 0
  else whileN 65 (fun p => decide (p < n)) (fun p => pure (p * 2 % 2 ^ 64)) 1

/-- OverlapAdd.hpp:64-66 `CostDX` -/
noncomputable def costDX (x F cFft cAdd cMul : ℝ) : ℝ :=
  F * (2 * cFft + cAdd + cMul) + 2 * cFft * (F * Real.log x - x)

/-- OverlapAdd.hpp:69-71 `CostD2X2` -/
noncomputable def costD2X2 (x F cFft : ℝ) : ℝ := 2 * cFft * (F / x - 1)

/-- Math/Solvers.hpp:33-34: one Newton-Raphson step. -/
noncomputable def newtonStep (f f' : ℝ → ℝ) (x : ℝ) : ℝ := x - f x / f' x

/-- Math/Solvers.hpp:28-39 `NewtonRaphson`: the do-while loop returns the result of at least one
step; how many steps are taken is decided by floating point stagnation (tolerance 0), so the
iteration count is left open: `iters + 1` steps. -/
noncomputable def newtonRaphson (f f' : ℝ → ℝ) (x0 : ℝ) (iters : Nat) : ℝ :=
  (newtonStep f f')^[iters + 1] x0

/-- OverlapAdd.hpp:83-93 `OptimalTheoreticalSize` with the constants of 78-80. -/
noncomputable def optimalTheoreticalSize (F : ℝ) (iters : Nat) : ℝ :=
  newtonRaphson (fun x => costDX x F 6 1 3) (fun x => costD2X2 x F 6) (3 * F) iters

/-- OverlapAdd.hpp:107-114 `OptimalPracticalSize`.  `size_t` multiplication wraps. -/
noncomputable def optimalPracticalSize (iters signalSize filterSize : Nat) : Out Nat := do
  let maxUsefulSize := convLengthFull signalSize filterSize
  let suggestedSize ← nextPowerOfTwo ⌊optimalTheoreticalSize filterSize iters⌋₊
  if suggestedSize * 3 % 2 ^ 64 / 4 < maxUsefulSize then pure suggestedSize else pure maxUsefulSize

end Verif
