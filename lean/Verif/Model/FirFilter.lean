import Verif.Model.OverlapAdd
import Verif.Model.FFT

/-!
# Model of FIR filtering  (include/dspbb/Filtering/FIR/Filter.hpp)
-/

namespace Verif

section
variable {R : Type} [Add R] [Mul R] [Zero R]

/-- FIR/Filter.hpp:20-25 `impl::ShiftFilterState`.  Line 22: `std::move` to the front leaves the elements
behind the destination range as they were.  Line 24: copying backwards from both ends. -/
def shiftFilterState (state signal : List R) : List R :=
  let L := state.length
  let n := signal.length
  let state := if n < L then state.drop n ++ state.drop (L - n) else state
  let m := min n L
  state.take (L - m) ++ signal.drop (n - m)

/-- FIR/Filter.hpp:71-84 (direct) and 56-69 (overlap-add), which differ only in the convolution `conv out u v
offset clear` they call.  Returns the output and the new state.  The view of line 81/66 is a prefix of
`out`. -/
def firFeed (conv : List R → List R → List R → Nat → Bool → Out (List R))
    (out signal filter state : List R) : Out (List R × List R) := do
  cassert (state.length = usub filter.length 1)
  cassert (out.length = signal.length)
  let out := out.map fun _ => 0
  let m := min out.length state.length
  let head ← conv (out.take m) state filter (usub filter.length 1) false
  let out := head ++ out.drop m
  let out ← conv out signal filter 0 false
  pure (out, shiftFilterState state signal)

/-- FIR/Filter.hpp:71-84 `Filter(out, signal, filter, state, FILTER_CONV)`. -/
def firFeedConv [Sub R] [Fma R] (vec : Bool) (W : Nat) (junk : List R) (out signal filter state : List R) :
    Out (List R × List R) :=
  firFeed (fun out u v offset clear => convolution vec W junk out u v offset clear) out signal filter state

/-- FIR/Filter.hpp:56-69 `Filter(out, signal, filter, state, FILTER_OLA, chunkSize)`. -/
def firFeedOla (auto : Nat → Nat → Out Nat) (cc : List R → List R → Out (List R)) (chunkSize : Nat)
    (out signal filter state : List R) : Out (List R × List R) :=
  firFeed (fun out u v offset clear => overlapAdd auto cc out u v offset chunkSize clear) out signal filter
    state

/-- A client program that filters a sequence of blocks with one state object, allocating the outputs
(FIR/Filter.hpp:114-132), and collects the outputs. -/
def firStream (feed : List R → List R → List R → Out (List R × List R)) :
    List (List R) → List R → Out (List R × List R)
  | [], state => .ok ([], state)
  | block :: blocks, state => do
    let (y, state) ← feed (List.replicate block.length 0) block state
    let (ys, state) ← firStream feed blocks state
    pure (y ++ ys, state)

/-- FIR/Filter.hpp:41-44 -/
def firCentralConv [Sub R] [Fma R] (vec : Bool) (W : Nat) (junk : List R) (out signal filter : List R) : Out (List R) :=
  convolutionCentral vec W junk out signal filter true

/-- FIR/Filter.hpp:51-54 -/
def firFullConv [Sub R] [Fma R] (vec : Bool) (W : Nat) (junk : List R) (out signal filter : List R) : Out (List R) :=
  convolutionFull vec W junk out signal filter true

/-- FIR/Filter.hpp:36-39 -/
def firCentralOla (auto : Nat → Nat → Out Nat) (cc : List R → List R → Out (List R)) (chunkSize : Nat)
    (out signal filter : List R) : Out (List R) :=
  overlapAddCentral auto cc out signal filter chunkSize true

/-- FIR/Filter.hpp:46-49 -/
def firFullOla (auto : Nat → Nat → Out Nat) (cc : List R → List R → Out (List R)) (chunkSize : Nat)
    (out signal filter : List R) : Out (List R) :=
  overlapAddFull auto cc out signal filter chunkSize true

/-- FIR/Filter.hpp:93-98 -/
def firAllocCentralConv [Sub R] [Fma R] (vec : Bool) (W : Nat) (junk signal filter : List R) : Out (List R) :=
  firCentralConv vec W junk (List.replicate (convLengthCentral signal.length filter.length) 0) signal filter

/-- FIR/Filter.hpp:107-112 -/
def firAllocFullConv [Sub R] [Fma R] (vec : Bool) (W : Nat) (junk signal filter : List R) : Out (List R) :=
  firFullConv vec W junk (List.replicate (convLengthFull signal.length filter.length) 0) signal filter

/-- FIR/Filter.hpp:86-91 -/
def firAllocCentralOla (auto : Nat → Nat → Out Nat) (cc : List R → List R → Out (List R)) (chunkSize : Nat)
    (signal filter : List R) : Out (List R) :=
  firCentralOla auto cc chunkSize (List.replicate (convLengthCentral signal.length filter.length) 0) signal
    filter

/-- FIR/Filter.hpp:100-105 -/
def firAllocFullOla (auto : Nat → Nat → Out Nat) (cc : List R → List R → Out (List R)) (chunkSize : Nat)
    (signal filter : List R) : Out (List R) :=
  firFullOla auto cc chunkSize (List.replicate (convLengthFull signal.length filter.length) 0) signal filter

end
end Verif
