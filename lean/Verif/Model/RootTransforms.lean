import Verif.Model.Systems

/-!
# Model of root transformations  (include/dspbb/Math/RootTransforms.hpp)

`func` maps a root to a `std::array` of `order` complex numbers; it is applied to real and complex roots alike.
-/

namespace Verif

section
open Classical

/-- RootTransforms.hpp:11-25 `CountRoots` -/
noncomputable def countRoots (roots : List ℂ) : Out (ℕ × ℕ) := do
  require (areRootsConjugatePairs roots = true)
  pure (roots.foldl (fun (acc : ℕ × ℕ) root =>
    (acc.1 + (if root.im = 0 then 1 else 0), acc.2 + (if root.im > 0 then 1 else 0))) (0, 0))

/-- RootTransforms.hpp:27-39 `CountTransformedRoots` -/
noncomputable def countTransformedRoots (func : ℂ → List ℂ) : List ℝ → ℕ × ℕ → Out (ℕ × ℕ)
  | [], acc => pure acc
  | root :: roots, acc => do
    let c ← countRoots (func root)
    countTransformedRoots func roots (acc.1 + c.1, acc.2 + c.2)

/-- The polynomial being filled and the positions of `realRootIt` and `complexRootIt`. -/
structure RootWriter where
  poly : FactoredPoly
  ri : ℕ
  ci : ℕ

/-- RootTransforms.hpp:64-71, 79-86: real roots to the real section, upper half plane to the pairs. -/
noncomputable def writeRoots : List ℂ → RootWriter → Out RootWriter
  | [], w => pure w
  | z :: zs, w =>
    if z.im > 0 then do
      let p ← w.poly.setPair w.ci z
      writeRoots zs ⟨p, w.ri, w.ci + 1⟩
    else if z.im = 0 then do
      let p ← w.poly.setReal w.ri z.re
      writeRoots zs ⟨p, w.ri + 1, w.ci⟩
    else writeRoots zs w

end

/-- RootTransforms.hpp:76 `std::copy(..., complexRootIt)` -/
def copyRoots : List ℂ → RootWriter → Out RootWriter
  | [], w => pure w
  | z :: zs, w => do
    let p ← w.poly.setPair w.ci z
    copyRoots zs ⟨p, w.ri, w.ci + 1⟩

/-- RootTransforms.hpp:61-72 -/
noncomputable def transformReals (order : ℕ) (func : ℂ → List ℂ) : List ℝ → RootWriter → Out RootWriter
  | [], w => pure w
  | root :: roots, w => do
    cassert ((func root).length = order)
    let w ← writeRoots (func root) w
    transformReals order func roots w

/-- RootTransforms.hpp:73-77 -/
def transformPairs (order : ℕ) (func : ℂ → List ℂ) : List ℂ → RootWriter → Out RootWriter
  | [], w => pure w
  | root :: roots, w => do
    cassert ((func root).length = order)
    let w ← copyRoots (func root) w
    transformPairs order func roots w

/-- RootTransforms.hpp:43-90 `TransformRoots`; `order` is the template parameter, the size of `padRoots`. -/
noncomputable def transformRoots (order : ℕ) (poly : FactoredPoly) (func : ℂ → List ℂ) (numRoots : ℕ)
    (padRoots : List ℂ) : Out FactoredPoly := do
  let (realToReals, realToPairs) ← countTransformedRoots func poly.realRoots (0, 0)
  let (padReals, padPairs) ← countRoots padRoots
  cassert (numRoots = 0 ∨ numRoots ≥ poly.numRoots)
  let numRoots := if numRoots = 0 then poly.numRoots else numRoots
  let numPadSets := usub numRoots poly.numRoots
  let numReals := realToReals + numPadSets * padReals
  let numComplexPairs := realToPairs + order * poly.numPairs + numPadSets * padPairs
  let r ← FactoredPoly.empty.resize numReals numComplexPairs 0 0
  let w ← transformReals order func poly.realRoots ⟨r, 0, 0⟩
  let w ← transformPairs order func poly.complexPairs w
  let w ← forN numPadSets (fun _ w => writeRoots padRoots w) w
  pure w.poly

/-- RootTransforms.hpp:92-96 `TransformGain` -/
noncomputable def transformGain (poly : FactoredPoly) (realGain : ℝ → ℝ) (pairGain : ℂ → ℝ) : ℝ :=
  (poly.realRoots.map realGain).foldl (fun a b => a * b) 1 *
    (poly.complexPairs.map pairGain).foldl (fun a b => a * b) 1

end Verif
