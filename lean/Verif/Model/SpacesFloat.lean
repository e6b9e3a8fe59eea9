import Verif.Model.Spaces
import Verif.Spec.FloatArith

/-!
# Model of LinSpace and of the cosine windows over floating point numbers
(include/dspbb/Generators/Spaces.hpp, include/dspbb/Filtering/Windowing.hpp)

The statements of `linSpace` (Model/Spaces.lean) and of the window functions (Model/Windowing.lean) over any type `F` with
arithmetic, with the association of the C++ expressions.  Multiplications and additions of whole signals are separate
loops, so nothing can be contracted there; contraction of `a * b + c` inside one element's expression (BlackmanWindow,
BlackmanHarrisWindow, FlatTopWindow) is not modelled.
-/

namespace Verif

variable {F : Type} [Zero F] [Add F] [Sub F] [Mul F] [Div F] [FloatFun F]

/-- Spaces.hpp:13-27 `LinSpace(output, start, end, inclusive)`; `R(k)` is `FloatFun.ofSize k` -/
def linSpaceF (e : Exec) (mem : List F) (output : Span) (start stop : F) (inclusive : Bool) : Out (List F) := do
  let count := output.size
  let mem ← forN count (fun i mem => wr mem ((output.pos + i : Nat) : Int) (FloatFun.ofSize i)) mem
  let divisor : Int := max 1 ((count : Int) - (if inclusive then 1 else 0))
  let scale := (stop - start) / FloatFun.ofSize divisor.toNat
  let offset := start
  let mem ← compoundVS e.asserts e.vec e.W .mul mem output scale
  compoundVS e.asserts e.vec e.W .add mem output offset

/-- What the windows need of the type: `pi_v<U>` (Utility/Numbers.hpp:7-8), the conversion `U(literal)`, `std::cos` and
`std::abs`. -/
structure WindowOps (F : Type) where
  pi : F
  lit : ℚ → F
  cos : F → F
  abs : F → F

/-- Windowing.hpp:43-52 -/
def hammingWindowF (O : WindowOps F) (e : Exec) (mem : List F) (out : Span) : Out (List F) := do
  let mem ← linSpaceF e mem out (FloatFun.ofSize 0) (FloatFun.ofSize 2 * O.pi) true
  let mem ← functionInto e O.cos mem out out
  let mem ← compoundVS e.asserts e.vec e.W .mul mem out (O.lit (-46 / 100))
  compoundVS e.asserts e.vec e.W .add mem out (O.lit (54 / 100))

/-- Windowing.hpp:89-98 -/
def triangularWindowF (O : WindowOps F) (e : Exec) (mem : List F) (out : Span) : Out (List F) := do
  let mem ← linSpaceF e mem out (FloatFun.ofSize 0) (FloatFun.ofSize 2) true
  let mem ← compoundVS e.asserts e.vec e.W .sub mem out (FloatFun.ofSize 1)
  let mem ← functionInto e O.abs mem out out
  let mem ← compoundVS e.asserts e.vec e.W .mul mem out (O.lit (-1))
  compoundVS e.asserts e.vec e.W .add mem out (FloatFun.ofSize 1)

/-- Windowing.hpp:100-109 -/
def blackmanWindowF (O : WindowOps F) (e : Exec) (mem : List F) (out : Span) : Out (List F) := do
  let mem ← linSpaceF e mem out (FloatFun.ofSize 0) (FloatFun.ofSize 2 * O.pi) true
  forEach (fun kreal => pure (O.lit (42 / 100) - O.lit (5 / 10) * O.cos kreal
    + O.lit (8 / 100) * O.cos (FloatFun.ofSize 2 * kreal))) mem out

/-- Windowing.hpp:111-120 -/
def blackmanHarrisWindowF (O : WindowOps F) (e : Exec) (mem : List F) (out : Span) : Out (List F) := do
  let mem ← linSpaceF e mem out (FloatFun.ofSize 0) (FloatFun.ofSize 2 * O.pi) true
  forEach (fun kreal => pure (O.lit (35875 / 100000) - O.lit (48829 / 100000) * O.cos kreal
    + O.lit (14128 / 100000) * O.cos (FloatFun.ofSize 2 * kreal)
    + O.lit (-1168 / 100000) * O.cos (FloatFun.ofSize 3 * kreal))) mem out

end Verif
