import Verif.Model.FirDesign

/-!
# Model of the windowed design of arbitrary responses

include/dspbb/Filtering/FIR/Windowed.hpp:55-87, FIR.hpp:48-52.
-/

namespace Verif

/-- Windowed.hpp:61-65, 80-84: the wanted response at the points of the grid and its inverse transform.  `LinSpace` writes real
numbers into a complex signal and only their real parts are read: the grid is modelled as a real signal. -/
noncomputable def arbitraryImpulse (e : Exec) (size : Nat) (response : ℝ → ℂ) : Out (List ℝ) := do
  let grid ← linSpaceNew e 0 1 (size / 2 + 1) true
  let discreteResponse := grid.map response
  ifftHalf discreteResponse (decide (size % 2 = 0))

/-- Windowed.hpp:55-69 `KernelWindowedArbitrary` with a window function.  The impulse response is placed behind the memory. -/
noncomputable def kernelWindowedArbitrary (e : Exec) (mem : List ℝ) (out : Span) (response : ℝ → ℂ)
    (windowFunc : List ℝ → Span → Out (List ℝ)) : Out (List ℝ) := do
  cassert (out.size % 2 = 1)
  let impulse ← arbitraryImpulse e out.size response
  let mem ← windowFunc mem out
  let m := mem ++ impulse
  let imp : Span := ⟨mem.length, impulse.length⟩
  let o1 ← out.sub 0 (out.size / 2)
  let i1 ← imp.subFrom (impulse.length / 2 + 1)
  let m ← compoundVV e.asserts e.vec e.W .mul m o1 i1
  let o2 ← out.subFrom (out.size / 2)
  let i2 ← imp.sub 0 (impulse.length / 2 + 1)
  let m ← compoundVV e.asserts e.vec e.W .mul m o2 i2
  pure (m.take mem.length)

/-- Windowed.hpp:72-87 `KernelWindowedArbitrary` with a given window -/
noncomputable def kernelWindowedArbitraryGiven (e : Exec) (mem : List ℝ) (out : Span) (response : ℝ → ℂ) (window : Span) :
    Out (List ℝ) := do
  cassert (out.size % 2 = 1)
  cassert (out.size = window.size)
  let impulse ← arbitraryImpulse e out.size response
  let m := mem ++ impulse
  let imp : Span := ⟨mem.length, impulse.length⟩
  let o1 ← out.sub 0 (out.size / 2)
  let i1 ← imp.subFrom (impulse.length / 2 + 1)
  let w1 ← window.sub 0 (window.size / 2)
  let m ← arithVV e.asserts e.vec e.W .mul m o1 i1 w1
  let o2 ← out.subFrom (out.size / 2)
  let i2 ← imp.sub 0 (impulse.length / 2 + 1)
  let w2 ← window.subFrom (window.size / 2)
  let m ← arithVV e.asserts e.vec e.W .mul m o2 i2 w2
  pure (m.take mem.length)

/-- FIR.hpp:48-52 -/
noncomputable def designWindowedArbitrary (e : Exec) (mem : List ℝ) (out : Span) (response : ℝ → ℂ)
    (windowFunc : List ℝ → Span → Out (List ℝ)) : Out (List ℝ) :=
  kernelWindowedArbitrary e mem out response windowFunc

/-- FIR.hpp:48-52 for a description holding a window instead of a window function -/
noncomputable def designWindowedArbitraryGiven (e : Exec) (mem : List ℝ) (out : Span) (response : ℝ → ℂ) (window : Span) :
    Out (List ℝ) :=
  kernelWindowedArbitraryGiven e mem out response window

end Verif
