import Verif.Cpp
import Mathlib.Algebra.Field.Defs

/-!
# Model of polyphase filters  (include/dspbb/Filtering/Polyphase.hpp)

Signals are lists.  Element values are those of a ring or field (no rounding).
The copy and move members of `PolyphaseFilter` are in Model/Ownership.lean (C87).
-/

namespace Verif

/-- Conversion of a signed value to `size_t` (64 bit): negative values wrap around, others are kept (sizes are unbounded
naturals in the model). -/
def toSize (k : Int) : Nat := if 0 ≤ k then k.toNat else (k % 2 ^ 64).toNat

/-- Primitives/SignalView.hpp:138-143 `subsignal(offset, count)`.  The sum in the assertion wraps; a range that is
not a part of the signal is undefined behaviour.  (Pointer-level version: `View.subsignal` in Model/Signal.lean.) -/
def subsignal {α : Type} (s : List α) (offset count : Nat) : Out (List α) := do
  cassert (offset ≤ s.length)
  cassert ((offset + count) % 2 ^ 64 ≤ s.length)
  (if offset + count ≤ s.length then pure ((s.drop offset).take count) else .ub)

/-- Polyphase.hpp:47-49, members `m_bufferView`, `m_filterCount`. -/
structure PolyphaseView (R : Type) where
  buffer : List R
  filterCount : Nat
  deriving DecidableEq

namespace PolyphaseView
variable {R : Type} (v : PolyphaseView R)

/-- Polyphase.hpp:30-32 -/
def sizeOriginal : Nat := v.buffer.length
/-- Polyphase.hpp:33-35 -/
def numPhases : Nat := v.filterCount
/-- Polyphase.hpp:27-29; division by zero is undefined. -/
def sizePerPhase : Out Nat :=
  if v.filterCount = 0 then .ub else .ok ((v.buffer.length + v.filterCount - 1) / v.filterCount)

/-- Polyphase.hpp:38-45 `subsignal_location`, returns offset and size. -/
def subsignalLocation (index : Nat) : Out (Nat × Nat) := do
  cassert (index < v.filterCount)
  let numExtended := v.buffer.length % v.filterCount
  let baseFilterSize := v.buffer.length / v.filterCount
  let thisFilterSize := baseFilterSize + (if index < numExtended then 1 else 0)
  let offset := baseFilterSize * index + min numExtended index
  pure (offset, thisFilterSize)

/-- Polyphase.hpp:19-26 `operator[]`: the contents of the sub-view. -/
def phase (index : Nat) : Out (List R) := do
  let loc ← v.subsignalLocation index
  subsignal v.buffer loc.1 loc.2

end PolyphaseView

/-- `view *= scalar` on the sub-view of `buf` at `offset` of length `count`
(Primitives/SignalArithmetic.hpp, element-wise in place). -/
def scaleRange {R : Type} [Mul R] (buf : List R) (offset count : Nat) (s : R) : Out (List R) :=
  forN count (fun k buf => do
    let x ← rd buf ((offset + k : Nat) : Int)
    wr buf ((offset + k : Nat) : Int) (x * s)) buf

/-- Polyphase.hpp:90-95 `PolyphaseNormalize`.  `sum` is `Sum` (Math/Statistics.hpp:16-20).  A phase with sum
zero divides by zero, reported as `ub`. -/
def polyphaseNormalize {R : Type} [Field R] [DecidableEq R] (sum : List R → Out R) (v : PolyphaseView R) :
    Out (PolyphaseView R) :=
  forN v.numPhases (fun i v => do
    let ph ← v.phase i
    let s ← sum ph
    (if s = 0 then .ub else do
      let loc ← v.subsignalLocation i
      let b ← scaleRange v.buffer loc.1 loc.2 (1 / s)
      pure { v with buffer := b })) v

/-- Polyphase.hpp:112-120, the loop body: write the taps backwards, then scale. -/
def decomposePhase {R : Type} [Mul R] [NatCast R] (filter : List R) (numFilters phaseIdx : Nat) (v : PolyphaseView R) :
    Out (PolyphaseView R) := do
  let loc ← v.subsignalLocation phaseIdx
  let b ← forN loc.2 (fun coeffIdx buf => do
    let x ← rd filter ((phaseIdx + coeffIdx * numFilters : Nat) : Int)
    wr buf ((loc.1 : Int) + (loc.2 : Int) - 1 - (coeffIdx : Int)) x) v.buffer
  let b ← scaleRange b loc.1 loc.2 (numFilters : R)
  pure { v with buffer := b }

/-- Polyphase.hpp:103-123 `PolyphaseDecompose(output, filter, numFilters)`.  The assertion that the two
buffers are different objects (106) is not modelled: lists do not alias.  (Two empty buffers fail it.) -/
def polyphaseDecompose {R : Type} [Mul R] [NatCast R] (output filter : List R) (numFilters : Nat) :
    Out (PolyphaseView R) := do
  cassert (output.length = filter.length)
  forN numFilters (decomposePhase filter numFilters) ⟨output, numFilters⟩

/-- Polyphase.hpp:125-134, allocating version. -/
def polyphaseDecomposeAlloc {R : Type} [Mul R] [NatCast R] [Zero R] (filter : List R) (numFilters : Nat) :
    Out (PolyphaseView R) :=
  polyphaseDecompose (List.replicate filter.length 0) filter numFilters

end Verif
