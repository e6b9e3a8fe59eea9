import Verif.Model.Interval
import Verif.Model.Numeric
import Mathlib.Algebra.Order.Group.Int

/-!
# Model of the time domain convolution kernels and of `Convolution(...)`

include/dspbb/Kernels/Convolution.hpp, include/dspbb/Kernels/Utility.hpp,
include/dspbb/Math/Convolution.hpp.

Simplifications: the two inputs and the output have one common element type and the output buffer
does not overlap the inputs.  Indices are unbounded integers, as `ptrdiff_t` is for every buffer that
fits in memory.  Only dereferences are checked; merely forming a pointer outside of its array is not
treated as an error.  Registers are lists of `W` lanes; the non-vectorised build is `W = 1`.
-/

namespace Verif

/-- Unaligned register load through a pointer at signed position `p`. -/
def loadVI {α : Type u} (W : Nat) (mem : List α) (p : Int) : Out (List α) :=
  if 0 ≤ p then loadV W mem p.toNat else .ub

/-- Kernels/Math.hpp:90-107 `math_functions::fma(a, b, c)`: for registers `xsimd::fma`, which rounds once or
twice depending on the instruction set; for everything else `a * b + c`, which a compiler may contract.
Both are left open as operations of the element type. -/
class Fma (R : Type u) where
  lane : R → R → R → R
  scalar : R → R → R → R

/-- Without rounding, both are `a * b + c`. -/
instance (priority := low) instFmaMulAdd {R : Type u} [Add R] [Mul R] : Fma R :=
  ⟨fun a b c => a * b + c, fun a b c => a * b + c⟩

section
variable {R : Type u} [Add R] [Mul R] [Zero R]

/-- Kernels/Convolution.hpp:56-58, the inner loop of `ConvolutionNaive`: runs while
`mFirst < mLast`. -/
def naiveInner (u v : List R) (n mFirst mLast : Int) (acc : R) : Out R :=
  forN (mLast - mFirst).toNat (fun k acc => do
    let a ← rd u (mFirst + k)
    let b ← rd v (n - (mFirst + k))
    pure (acc + a * b)) acc

/-- Kernels/Convolution.hpp:47-61 `ConvolutionNaive`. -/
def convolutionNaive (u v out : List R) (n : Int) (accumulate : Bool) : Out (List R) := do
  let len1 : Int := u.length
  let len2 : Int := v.length
  forN out.length (fun k out => do
    let n := n + k
    let acc ← (if accumulate then rd out (k : Int) else pure 0)
    let mLast := min len1 (n + 1)
    let mFirst := max 0 (n - len2 + 1)
    let acc ← naiveInner u v n mFirst mLast acc
    wr out (k : Int) acc) out

/-- Kernels/Numeric.hpp:129-158 binary `Transform`, instantiated as at Kernels/Convolution.hpp:94-97:
output and first input are the same range `[pout, pout+count)` of `out`, the second input starts at
`p2` of `v`; the operation is `convolution_fma{mult}` (28-44): `fma(increase, mult, accumulator)`. -/
def fmaTransform [Fma R] (vec : Bool) (W : Nat) (mult : R) (v out : List R) (pout : Int) (count : Nat)
    (p2 : Int) : Out (List R) := do
  let vectorCount := if vec then count / W else 0
  let out ← forN vectorCount (fun k out => do
    let a ← loadVI W out (pout + (k * W : Nat))
    let b ← loadVI W v (p2 + (k * W : Nat))
    storeV out (pout + (k * W : Nat)).toNat (List.zipWith (fun a b => Fma.lane b mult a) a b)) out
  let done := vectorCount * W
  forN (count - done) (fun k out => do
    let a ← rd out (pout + (done + k : Nat))
    let b ← rd v (p2 + (done + k : Nat))
    wr out (pout + (done + k : Nat)) (Fma.scalar b mult a)) out

/-- Kernels/Convolution.hpp:70-79: when the sliding kernel calls itself with swapped inputs. -/
def slideSwaps (len1 len2 : Nat) : Bool :=
  if min len1 len2 > 512 then decide (len1 < len2) else decide (len2 < len1)

/-- Kernels/Convolution.hpp:63-99 `ConvolutionSlide`. -/
def convolutionSlide [Fma R] (vec : Bool) (W : Nat) (u v out : List R) (n : Int) (accumulate : Bool) :
    Out (List R) :=
  if slideSwaps u.length v.length then
    convolutionSlide vec W v u out n accumulate
  else do
    let len1 : Int := u.length
    let len2 : Int := v.length
    let lenOut : Int := out.length
    let out := if accumulate then out else out.map fun _ => 0
    let multiplierRange : Interval Int := ⟨max 0 (n - len2 + 1), min len1 (n + lenOut)⟩
    let outRange : Interval Int := ⟨n, n + lenOut⟩
    forN (multiplierRange.last - multiplierRange.first).toNat (fun k out => do
      let slidingRange : Interval Int :=
        ⟨multiplierRange.first + k, multiplierRange.first + len2 + k⟩
      let multiplier ← rd u slidingRange.first
      let writeRange := outRange.intersection slidingRange
      let writeRangeOut := writeRange.unshift n
      let writeFirst2 := writeRange.first - slidingRange.first
      fmaTransform vec W multiplier v out writeRangeOut.first
        (writeRangeOut.last - writeRangeOut.first).toNat writeFirst2) out
termination_by if slideSwaps u.length v.length then 1 else 0
decreasing_by
  rename_i h
  have h' : slideSwaps v.length u.length = false := by
    unfold slideSwaps at h ⊢
    rw [min_comm]
    split at h <;> simp_all <;> omega
  simp [h, h']

/-- Kernels/Convolution.hpp:117-128: one block of `ConvolutionReduce`; `acc[i]` is the `i`-th
accumulator. -/
def reduceBlock (u v : List R) (n : Int) : Out (List R) := do
  let len1 : Int := u.length
  let len2 : Int := v.length
  let vectorWidth : Int := 8
  let mFirst := max 0 (n - len2 + 1)
  let mLast := min len1 (n + vectorWidth)
  forN (mLast - mFirst).toNat (fun k acc => do
    let m := mFirst + k
    let data ← (List.range 8).mapM (fun (i : Nat) => do
      let access : Int := n + i - m
      if access ≥ 0 ∧ access < len2 then rd v access else pure 0)
    let x ← rd u m
    pure (List.zipWith (fun a d => a + x * d) acc data)) (List.replicate 8 0)

/-- Kernels/Convolution.hpp:101-134 `ConvolutionReduce`. -/
def convolutionReduce (u v out : List R) (n : Int) (accumulate : Bool) : Out (List R) := do
  cassert (accumulate = false)
  forN ((out.length + 7) / 8) (fun k out => do
    let acc ← reduceBlock u v (n + (8 * k : Nat))
    storeV out (8 * k) (acc.take (out.length - 8 * k))) out

/-- Kernels/Convolution.hpp:149, 157-160, 168-177: one term, `V1(*first1) * load(first2)`, of the
unrolled reduction, `k` steps after the start. -/
def loopTerm (W : Nat) (u : List R) (p1 : Int) (b : List R) (p2 : Int) (k : Nat) : Out (List R) := do
  let x ← rd u (p1 + k)
  let y ← loadVI W b (p2 - k)
  pure (y.map fun y => x * y)

/-- Kernels/Convolution.hpp:137-190 `ConvolutionReduceLoop`; `p1` walks forward in `u`, `p2` walks
backward in `b`. -/
def convolutionReduceLoop (W : Nat) (u : List R) (p1 : Int) (b : List R) (p2 : Int) (init : List R)
    (count : Int) (r : ReduceOp R) : Out (List R) := do
  let c := count.toNat
  let carry := match r.comp with
    | none => []
    | some (c0, _) => List.replicate W c0
  let mut init := init
  let mut idx := 0
  if c.testBit 0 then
    let v1 ← loopTerm W u p1 b p2 idx
    init := List.zipWith (· + ·) init v1
    idx := idx + 1
  if c.testBit 1 then
    let v1 ← loopTerm W u p1 b p2 idx
    let v2 ← loopTerm W u p1 b p2 (idx + 1)
    init := List.zipWith (· + ·) init (List.zipWith (· + ·) v1 v2)
    idx := idx + 2
  let start := idx
  let res ← forN ((c - start + 3) / 4) (fun j (s : List R × List R) => do
    let idx := start + 4 * j
    let v1 ← loopTerm W u p1 b p2 idx
    let v2 ← loopTerm W u p1 b p2 (idx + 1)
    let v3 ← loopTerm W u p1 b p2 (idx + 2)
    let v4 ← loopTerm W u p1 b p2 (idx + 3)
    let t := List.zipWith (· + ·) (List.zipWith (· + ·) v1 v2) (List.zipWith (· + ·) v3 v4)
    match (r.lift W).comp with
    | none => pure (s.1, (r.lift W).op s.2 t)
    | some (_, f) => pure (f s.1 s.2 t)) (carry, init)
  pure res.2

/-- Kernels/Convolution.hpp:210-213, the zero-padded copy of the two ends of input #2. -/
def paddingOf (W : Nat) (v : List R) : Out (List R) := do
  let padding := List.replicate (4 * W - 2) (0 : R)
  let k := min W v.length
  let padding ← storeV padding (W - 1) (v.take k)
  -- `padding.rbegin() + W - 1` is position `size - 1 - (W - 1)`, walking down
  storeV padding (4 * W - 2 - (W - 1) - k) (v.drop (v.length - k))

/-- Kernels/Utility.hpp:36-50 `uniform_load_partial_front`; lanes that are not loaded are
uninitialised: an arbitrary register `junk`. -/
def loadPartialFront (W : Nat) (junk : List R) (mem : List R) (p count : Nat) : Out (List R) := do
  let front ← loadV count mem p
  pure (front ++ (junk.drop count).take (W - count))

/-- Kernels/Convolution.hpp:217-233, the body of the loop over output registers. -/
def reduceVecStep (W : Nat) (junk : List R) (r : ReduceOp R) (u v padding out : List R) (n : Int)
    (pout : Nat) (accumulate : Bool) : Out (List R) := do
  let len1 : Int := u.length
  let len2 : Int := v.length
  let w : Int := W
  let iterationWidth := min (out.length - pout) W
  let acc ← (if accumulate then loadPartialFront W junk out pout iterationWidth
    else pure (List.replicate W 0))
  let mFirst := max 0 (n - len2 + 1)
  let mLast := min len1 (n + w)
  let mLastPre := max mFirst (min mLast (n + w - len2))
  let mLastMid := max mLastPre (min n mLast)
  let mLastPost := max mLastMid mLast
  let paddingPreOffset := (padding.length : Int) - w + 1 + n - mFirst - len2
  let midOffset := max 0 (n - mLastPre)
  let paddingPostOffset := n - mLastMid + w - 1
  let acc ← convolutionReduceLoop W u mFirst padding paddingPreOffset acc (mLastPre - mFirst) r
  let acc ← convolutionReduceLoop W u mLastPre v midOffset acc (mLastMid - mLastPre) r
  let acc ← convolutionReduceLoop W u mLastMid padding paddingPostOffset acc (mLastPost - mLastMid) r
  storeV out pout (acc.take iterationWidth)

/-- Kernels/Convolution.hpp:215-236: `while (firstOut < lastOut)`; every iteration but the last
advances by `W`. -/
def reduceVecBody (W : Nat) (junk : List R) (r : ReduceOp R) (u v out : List R) (n : Int)
    (accumulate : Bool) : Out (List R) := do
  let padding ← paddingOf W v
  forN ((out.length + W - 1) / W) (fun k out =>
    reduceVecStep W junk r u v padding out (n + (k * W : Nat)) (k * W) accumulate) out

/-- Kernels/Convolution.hpp:192-237 `ConvolutionReduceVec`. -/
def convolutionReduceVec (vec : Bool) (W : Nat) (junk : List R) (r : ReduceOp R) (u v out : List R)
    (n : Int) (accumulate : Bool) : Out (List R) :=
  let W := if vec then W else 1
  -- lines 206-208; the recursive call has `len1 ≤ len2` and does not swap again
  if v.length < u.length then reduceVecBody W junk r v u out n accumulate
  else reduceVecBody W junk r u v out n accumulate

/-- `a - b` on `size_t` (64 bit). -/
def usub (a b : Nat) : Nat := if b ≤ a then a - b else a + 2 ^ 64 - b

/-- Math/Convolution.hpp:27-35 `ConvolutionLength(.., CONV_CENTRAL)` -/
def convLengthCentral (lengthU lengthV : Nat) : Nat :=
  if lengthU = 0 ∨ lengthV = 0 then 0
  else max lengthU lengthV - min lengthU lengthV + 1

/-- Math/Convolution.hpp:40-48 `ConvolutionLength(.., CONV_FULL)` -/
def convLengthFull (lengthU lengthV : Nat) : Nat :=
  if lengthU = 0 ∨ lengthV = 0 then 0
  else max lengthU lengthV + min lengthU lengthV - 1

variable [Sub R] [Fma R]

/-- Math/Convolution.hpp:50-63 `Convolution(out, u, v, offset, clearOut)`. -/
def convolution (vec : Bool) (W : Nat) (junk : List R) (out u v : List R) (offset : Nat)
    (clearOut : Bool) : Out (List R) := do
  cassert (offset + out.length ≤ convLengthFull u.length v.length)
  if min u.length v.length ≤ 32 then
    convolutionSlide vec W u v out (offset : Int) (!clearOut)
  else
    convolutionReduceVec vec W junk plusCompensated u v out (offset : Int) (!clearOut)

/-- Math/Convolution.hpp:65-71 -/
def convolutionFull (vec : Bool) (W : Nat) (junk : List R) (out u v : List R) (clearOut : Bool) :
    Out (List R) := do
  cassert (out.length = convLengthFull u.length v.length)
  convolution vec W junk out u v 0 clearOut

/-- Math/Convolution.hpp:73-79 -/
def convolutionCentral (vec : Bool) (W : Nat) (junk : List R) (out u v : List R) (clearOut : Bool) :
    Out (List R) := do
  cassert (out.length = convLengthCentral u.length v.length)
  convolution vec W junk out u v (min (usub u.length 1) (usub v.length 1)) clearOut

/-- Math/Convolution.hpp:81-91, allocating version: the new buffer is zero and is not cleared again. -/
def convolutionAlloc (vec : Bool) (W : Nat) (junk : List R) (u v : List R) (offset length : Nat) :
    Out (List R) :=
  convolution vec W junk (List.replicate length 0) u v offset false

/-- Math/Convolution.hpp:93-98 -/
def convolutionAllocFull (vec : Bool) (W : Nat) (junk : List R) (u v : List R) : Out (List R) :=
  convolutionAlloc vec W junk u v 0 (convLengthFull u.length v.length)

/-- Math/Convolution.hpp:100-105 -/
def convolutionAllocCentral (vec : Bool) (W : Nat) (junk : List R) (u v : List R) : Out (List R) :=
  convolutionAlloc vec W junk u v (min (usub u.length 1) (usub v.length 1))
    (convLengthCentral u.length v.length)

end
end Verif
