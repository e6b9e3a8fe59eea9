import Verif.Cpp
import Verif.Model.Convolution

/-!
# Model of the IIR filter realizations  (include/dspbb/Filtering/IIR/Realizations.hpp, Filter.hpp)
-/

namespace Verif

section
variable {K : Type} [Add K] [Sub K] [Mul K] [Div K] [Zero K] [One K]

/-- `DiscreteTransferFunction<T>`: coefficient lists in ascending powers (Systems.hpp:28-43). -/
structure TransferFn (K : Type) where
  num : List K
  den : List K

/-- Polynomials.hpp:103-106 `Polynomial::order` -/
def polyOrder (c : List K) : Nat := if c.length ≠ 0 then c.length - 1 else 0

/-- Systems.hpp:42 `TransferFunction::order` -/
def TransferFn.order (sys : TransferFn K) : Nat := max (polyOrder sys.num) (polyOrder sys.den)

/-- `std::inner_product(a.begin(), a.end(), b.begin(), T(0))`: reads as many elements of `b` as `a` has. -/
def innerProd (a b : List K) : Out K :=
  if a.length ≤ b.length then
    .ok ((List.zipWith (fun x y => x * y) a b).foldl (fun acc p => acc + p) 0)
  else .ub

/-- `std::move(++s.begin(), s.end(), s.begin()); *s.rbegin() = x` -/
def shiftIn (s : List K) (x : K) : Out (List K) := if s = [] then .ub else .ok (s.drop 1 ++ [x])

/-- `std::vector::resize(n, 0)` -/
def resizeZ (s : List K) (n : Nat) : List K := s.take n ++ List.replicate (n - s.length) 0

/-- The loops `while (first != last)` of the range versions of `feed`. -/
def feedAll {σ : Type} (step : σ → K → Out (K × σ)) : List K → σ → Out (List K × σ)
  | [], s => .ok ([], s)
  | x :: xs, s => do
    let (y, s) ← step s x
    let (ys, s) ← feedAll step xs s
    pure (y :: ys, s)

/-! ### direct form I -/

/-- Realizations.hpp:16-35 `DirectFormI` -/
structure DirectFormI (K : Type) where
  recState : List K
  fwState : List K
  deriving DecidableEq

/-- Realizations.hpp:37-40 -/
def DirectFormI.make (order : Nat) : DirectFormI K := ⟨resizeZ [] order, resizeZ [] (order + 1)⟩

/-- Realizations.hpp:42-46 -/
def DirectFormI.setOrder (s : DirectFormI K) (order : Nat) : DirectFormI K :=
  ⟨resizeZ s.recState order, resizeZ s.fwState (order + 1)⟩

/-- Realizations.hpp:48-52 -/
def DirectFormI.reset (s : DirectFormI K) : DirectFormI K :=
  ⟨s.recState.map fun _ => 0, s.fwState.map fun _ => 0⟩

/-- Realizations.hpp:54-57 -/
def DirectFormI.order (s : DirectFormI K) : Nat := s.recState.length

/-- Realizations.hpp:84-97, loop body; `fwOff`, `recOff`: where the views of lines 78-79 start. -/
def DirectFormI.step (fwFull recSec : List K) (normalization : K) (fwOff recOff : Nat) (s : DirectFormI K)
    (input : K) : Out (K × DirectFormI K) := do
  let fw ← shiftIn s.fwState input
  let fwSum ← innerProd (fw.drop fwOff) fwFull
  let recSum ← innerProd (s.recState.drop recOff) recSec
  let out := (fwSum - recSum) * normalization
  let rc ← (if s.recState.length > 0 then shiftIn s.recState out else pure s.recState)
  pure (out, ⟨rc, fw⟩)

/-- Realizations.hpp:69-99 `DirectFormI::feed(first, last, outFirst, sys)` -/
def DirectFormI.feed (sys : TransferFn K) (xs : List K) (s : DirectFormI K) :
    Out (List K × DirectFormI K) := do
  cassert (s.fwState ≠ [] ∧ s.order ≥ sys.order)
  cassert (usub sys.den.length 1 ≤ sys.den.length)
  let recSec := sys.den.take (usub sys.den.length 1)
  let fwOff := usub s.fwState.length sys.num.length
  cassert (fwOff ≤ s.fwState.length)
  let recOff := usub s.recState.length recSec.length
  cassert (recOff ≤ s.recState.length)
  let lead ← rd sys.den ((sys.den.length : Int) - 1)
  feedAll (DirectFormI.step sys.num recSec (1 / lead) fwOff recOff) xs s

/-! ### direct form II -/

/-- Realizations.hpp:105-123 `DirectFormII` -/
structure DirectFormII (K : Type) where
  state : List K
  deriving DecidableEq

/-- Realizations.hpp:125-128 -/
def DirectFormII.make (order : Nat) : DirectFormII K := ⟨resizeZ [] (order + 1)⟩

/-- Realizations.hpp:130-133 -/
def DirectFormII.setOrder (s : DirectFormII K) (order : Nat) : DirectFormII K := ⟨resizeZ s.state (order + 1)⟩

/-- Realizations.hpp:135-138 -/
def DirectFormII.reset (s : DirectFormII K) : DirectFormII K := ⟨s.state.map fun _ => 0⟩

/-- Realizations.hpp:140-143 -/
def DirectFormII.order (s : DirectFormII K) : Nat := if s.state ≠ [] then s.state.length - 1 else 0

/-- Realizations.hpp:168-175, loop body. -/
def DirectFormII.step (fwFull recSec : List K) (normalization : K) (fwOff recOff : Nat) (s : DirectFormII K)
    (input : K) : Out (K × DirectFormII K) := do
  let r ← innerProd recSec (s.state.drop recOff)
  let stateNext := input * normalization - r
  let st ← shiftIn s.state stateNext
  let output ← innerProd fwFull (st.drop fwOff)
  pure (output, ⟨st⟩)

/-- Realizations.hpp:155-176 `DirectFormII::feed(first, last, outFirst, sys)` -/
def DirectFormII.feed (sys : TransferFn K) (xs : List K) (s : DirectFormII K) :
    Out (List K × DirectFormII K) := do
  cassert (s.state ≠ [] ∧ s.order ≥ sys.order)
  cassert (usub sys.den.length 1 ≤ sys.den.length)
  let recSec := sys.den.take (usub sys.den.length 1)
  let fwOff := usub s.state.length sys.num.length
  cassert (fwOff ≤ s.state.length)
  let recOff := usub s.state.length recSec.length
  cassert (recOff ≤ s.state.length)
  let lead ← rd sys.den ((sys.den.length : Int) - 1)
  feedAll (DirectFormII.step sys.num recSec (1 / lead) fwOff recOff) xs s

/-! ### cascaded form -/

/-- Systems.hpp:52-57 `CascadedBiquad::Biquad`: `std::array<T, 3>`, `std::array<T, 2>` (constant term
first). -/
structure Biquad (K : Type) where
  n0 : K
  n1 : K
  n2 : K
  d0 : K
  d1 : K
  numOrder : Nat
  denOrder : Nat
  deriving DecidableEq

/-- Realizations.hpp:199 `CascadedForm::Section`, `std::array<T, 3>`. -/
structure Section3 (K : Type) where
  s0 : K
  s1 : K
  s2 : K
  deriving DecidableEq

/-- Realizations.hpp:182-201 `CascadedForm` -/
structure CascadedForm (K : Type) where
  sections : List (Section3 K)
  deriving DecidableEq

/-- Realizations.hpp:204-208 -/
def CascadedForm.make (order : Nat) : CascadedForm K :=
  ⟨List.replicate (1 + (order + 1) / 2) ⟨0, 0, 0⟩⟩

/-- Realizations.hpp:210-214 -/
def CascadedForm.setOrder (s : CascadedForm K) (order : Nat) : CascadedForm K :=
  ⟨s.sections.take (1 + (order + 1) / 2) ++
    List.replicate (1 + (order + 1) / 2 - s.sections.length) ⟨0, 0, 0⟩⟩

/-- Realizations.hpp:216-221 -/
def CascadedForm.reset (s : CascadedForm K) : CascadedForm K := ⟨s.sections.map fun _ => ⟨0, 0, 0⟩⟩

/-- Realizations.hpp:223-226 -/
def CascadedForm.order (s : CascadedForm K) : Nat := (max 1 s.sections.length - 1) * 2

/-- Realizations.hpp:235-251, loop body: section `i`; the state is (`m_sections`, `output`). -/
def CascadedForm.sectionStep (sys : List (Biquad K)) (i : Nat) (st : List (Section3 K) × K) :
    Out (List (Section3 K) × K) := do
  let cur ← rd st.1 i
  let cur : Section3 K := ⟨cur.s1, cur.s2, st.2⟩
  let secs ← wr st.1 i cur
  if i < sys.length then
    let next ← rd secs ((i : Int) + 1)
    let b ← rd sys i
    let fwSum := cur.s0 * b.n0 + cur.s1 * b.n1 + cur.s2 * b.n2
    let recSum := next.s1 * b.d0 + next.s2 * b.d1
    pure (secs, fwSum - recSum)
  else pure (secs, st.2)

/-- Realizations.hpp:228-254 `CascadedForm::feed(input, sys)` -/
def CascadedForm.feed1 (sys : List (Biquad K)) (s : CascadedForm K) (input : K) :
    Out (K × CascadedForm K) := do
  cassert (sys.length + 1 ≤ s.sections.length)
  let r ← forN s.sections.length (CascadedForm.sectionStep sys) (s.sections, input)
  pure (r.2, ⟨r.1⟩)

/-- Realizations.hpp:256-262 `CascadedForm::feed(first, last, outFirst, sys)` -/
def CascadedForm.feed (sys : List (Biquad K)) (xs : List K) (s : CascadedForm K) :
    Out (List K × CascadedForm K) :=
  feedAll (CascadedForm.feed1 sys) xs s

/-! ### filtering signals -/

/-- IIR/Filter.hpp:9-30 `Filter(out, signal, filter, state)`; `feed` is the member function of the
realization. -/
def iirFilter {σ : Type} (feed : List K → σ → Out (List K × σ)) (out signal : List K) (s : σ) :
    Out (List K × σ) := do
  cassert (out.length = signal.length)
  feed signal s

/-- A client that filters blocks one after the other with the same realization object
(IIR/Filter.hpp:32-51). -/
def iirStream {σ : Type} (feed : List K → σ → Out (List K × σ)) : List (List K) → σ → Out (List K × σ)
  | [], s => .ok ([], s)
  | block :: blocks, s => do
    let (y, s) ← iirFilter feed (List.replicate block.length 0) block s
    let (ys, s) ← iirStream feed blocks s
    pure (y ++ ys, s)

end
end Verif
