import Verif.Model.Signal
import Verif.Model.Floating
import Mathlib.Analysis.SpecialFunctions.Log.Basic

/-!
# Model of the element-wise functions and of LinSpace / LogSpace

include/dspbb/Math/Functions.hpp and include/dspbb/Generators/Spaces.hpp.

A signal or view is a `Span` of one memory.  Numbers are exact reals (complex element types are not modelled: the
generators only use their real parts).  Results which are not numbers because of a division by zero are `.ub`.
-/

namespace Verif

/-- How the library was compiled: whether assertions are on, whether the machine has vector instructions and how wide they are. -/
structure Exec where
  asserts : Bool
  vec : Bool
  W : Nat

/-- Functions.hpp:14-18 (and 59-62 for `Pow`): `NAME(out, in)`.  `kernels::Transform(in.begin(), in.end(), out.begin(), f)`
without any comparison of the sizes. -/
def functionInto {K : Type} (e : Exec) (f : K → K) (mem : List K) (out inp : Span) : Out (List K) :=
  transform1 e.vec e.W f mem inp.pos inp.size out.pos

/-- Functions.hpp:20-28 (and 63-68): `NAME(in)`; the result is a new object, here at the end of memory. -/
def functionNew {K : Type} [Zero K] (e : Exec) (f : K → K) (mem : List K) (inp : Span) : Out (List K) := do
  let m ← functionInto e f (mem ++ List.replicate inp.size 0) ⟨mem.length, inp.size⟩ inp
  pure (m.drop mem.length)

/-- `std::for_each(out.begin(), out.end(), [](R& k) { k = f(k); })` as used in Windowing.hpp:72, 105, 116, 140, 153 -/
def forEach {K : Type} (f : K → Out K) (mem : List K) (out : Span) : Out (List K) :=
  forN out.size (fun i mem => do
    let k ← rd mem ((out.pos + i : Nat) : Int)
    let v ← f k
    wr mem ((out.pos + i : Nat) : Int) v) mem

/-- Spaces.hpp:13-27 `LinSpace(output, start, end, inclusive)` -/
noncomputable def linSpace (e : Exec) (mem : List ℝ) (output : Span) (start stop : ℝ) (inclusive : Bool) : Out (List ℝ) := do
  let count := output.size
  let mem ← forN count (fun i mem => wr mem ((output.pos + i : Nat) : Int) (i : ℝ)) mem
  let divisor : Int := max 1 ((count : Int) - (if inclusive then 1 else 0))
  let scale ← fdiv (stop - start) (divisor : ℝ)
  let offset := start
  let mem ← compoundVS e.asserts e.vec e.W .mul mem output scale
  compoundVS e.asserts e.vec e.W .add mem output offset

/-- Spaces.hpp:29-34 `LinSpace(start, end, count, inclusive)` -/
noncomputable def linSpaceNew (e : Exec) (start stop : ℝ) (count : Nat) (inclusive : Bool) : Out (List ℝ) :=
  linSpace e (List.replicate count 0) ⟨0, count⟩ start stop inclusive

/-- Spaces.hpp:36-45 `LogSpace(output, start, end, base, inclusive)`; the logarithm of a base that is not positive is not a
number. -/
noncomputable def logSpace (e : Exec) (mem : List ℝ) (output : Span) (start stop base : ℝ) (inclusive : Bool) :
    Out (List ℝ) := do
  let mem ← linSpace e mem output start stop inclusive
  let l ← (open Classical in if 0 < base then Out.ok (Real.log base) else .ub)
  let mem ← compoundVS e.asserts e.vec e.W .mul mem output l
  functionInto e Real.exp mem output output

/-- Spaces.hpp:47-52 -/
noncomputable def logSpaceNew (e : Exec) (start stop : ℝ) (count : Nat) (base : ℝ) (inclusive : Bool) : Out (List ℝ) :=
  logSpace e (List.replicate count 0) ⟨0, count⟩ start stop base inclusive

end Verif
