import Verif.Cpp
import Verif.Model.Convolution
import Verif.Model.IirFilter
import Verif.Spec.Convolution
import Mathlib.Data.Complex.Basic
import Mathlib.Algebra.Algebra.Defs

/-!
# Model of polynomials and factored polynomials  (include/dspbb/Math/Polynomials.hpp)

Arithmetic is exact: `T` is `ℝ`, `std::complex<T>` is `ℂ` (except `polyEval` and the multiplications by a factor, which are written for any types).  Container sizes are unbounded naturals.
-/

namespace Verif

/-- `std::move(a + src, a + src + n, a + dst)` / `std::move_backward` inside one buffer, for the overlap
directions in which the standard defines the result: everything is read before it is overwritten. -/
def moveRange {α : Type} (mem : List α) (src n dst : ℕ) : Out (List α) := do
  let v ← loadV n mem src
  storeV mem dst v

/-- `std::move_backward(a + first, a + last, a + dlast)`; `last` before `first` is undefined behaviour, and so
is a destination that starts before the buffer. -/
def moveBackward {α : Type} (mem : List α) (first last dlast : ℕ) : Out (List α) :=
  if first ≤ last ∧ last - first ≤ dlast then moveRange mem first (last - first) (dlast - (last - first)) else .ub

/-! ### `Polynomial` -/

/-- Polynomials.hpp:128-137 `Polynomial::Eval`: from the last coefficient to the first. -/
def polyEval {T U : Type} [Add U] [Mul U] [Zero U] (toU : T → U) (coeffs : List T) (x : U) : U :=
  coeffs.reverse.foldl (fun y c => x * y + toU c) 0

/-! ### `FactoredPolynomial` -/

/-- Polynomials.hpp:43-83: the buffer `m_mem` and the sizes of the views `m_real` (at its start) and
`m_complex` (behind `m_real`, two numbers for each element). -/
structure FactoredPoly where
  mem : List ℝ
  numReal : ℕ
  numPairs : ℕ

/-- Polynomials.hpp:48 default constructor -/
def FactoredPoly.empty : FactoredPoly := ⟨[], 0, 0⟩

/-- Polynomials.hpp:61-65 `num_roots`, `order` -/
def FactoredPoly.numRoots (p : FactoredPoly) : ℕ := p.numReal + 2 * p.numPairs

/-- Polynomials.hpp:263-276 `real_roots` -/
def FactoredPoly.realRoots (p : FactoredPoly) : List ℝ := p.mem.take p.numReal

/-- Polynomials.hpp:268-281 `complex_pairs` -/
def FactoredPoly.complexPairs (p : FactoredPoly) : List ℂ :=
  (List.range p.numPairs).map fun i => ⟨sig p.mem (p.numReal + 2 * i), sig p.mem (p.numReal + 2 * i + 1)⟩

/-- The numbers that an array of complex numbers occupies. -/
def flatC (l : List ℂ) : List ℝ := l.flatMap fun z => [z.re, z.im]

/-- Polynomials.hpp:213-233 `resize` -/
def FactoredPoly.resize (p : FactoredPoly) (numReal numPairs : ℕ) (realValue : ℝ) (complexValue : ℂ) :
    Out FactoredPoly := do
  let numCoeffs := numReal + 2 * numPairs
  let curReal := p.numReal
  let curPairs := p.numPairs
  let mem ← (if numReal < curReal then moveRange p.mem curReal (p.mem.length - curReal) numReal else pure p.mem)
  let mem := resizeZ mem numCoeffs
  let mem ← (if curReal < numReal then moveBackward mem curReal (numCoeffs - numReal) mem.length else pure mem)
  let mem ← (if curReal < numReal then storeV mem curReal (List.replicate (numReal - curReal) realValue)
    else pure mem)
  let mem ← (if curPairs < numPairs then
      storeV mem (numReal + 2 * curPairs) (flatC (List.replicate (numPairs - curPairs) complexValue))
    else pure mem)
  pure ⟨mem, numReal, numPairs⟩

/-- Polynomials.hpp:235-261 `regroup` -/
def FactoredPoly.regroup (p : FactoredPoly) (numReal : ℕ) (realValue : ℝ) (complexValue : ℂ) :
    Out FactoredPoly := do
  require (numReal % 2 = p.numRoots % 2)
  require (numReal ≤ p.numRoots)
  let numPairs := (p.numRoots - numReal) / 2
  let curReal := p.numReal
  let curPairs := p.numPairs
  let mem ← (if numReal < curReal then moveRange p.mem curReal (p.mem.length - curReal) numReal else pure p.mem)
  let mem ← (if curReal < numReal then
      moveBackward mem curReal (mem.length - (numReal - curReal)) mem.length
    else pure mem)
  let mem ← (if curReal < numReal then storeV mem curReal (List.replicate (numReal - curReal) realValue)
    else pure mem)
  let mem ← (if curPairs < numPairs then
      storeV mem (numReal + 2 * curPairs) (flatC (List.replicate (numPairs - curPairs) complexValue))
    else pure mem)
  pure ⟨mem, numReal, numPairs⟩

/-- `*realIt = r` with `realIt = m_real.begin() + i`: only elements of the view may be written. -/
def FactoredPoly.setReal (p : FactoredPoly) (i : ℕ) (r : ℝ) : Out FactoredPoly :=
  if i < p.numReal then do
    let mem ← wr p.mem i r
    pure { p with mem := mem }
  else .ub

/-- `*complexIt = z` with `complexIt = m_complex.begin() + i`. -/
def FactoredPoly.setPair (p : FactoredPoly) (i : ℕ) (z : ℂ) : Out FactoredPoly :=
  if i < p.numPairs then do
    let mem ← wr p.mem (p.numReal + 2 * i : ℕ) z.re
    let mem ← wr mem (p.numReal + 2 * i + 1 : ℕ) z.im
    pure { p with mem := mem }
  else .ub

section
open Classical

/-- Polynomials.hpp:142-149 `AreRootsConjugatePairs` -/
noncomputable def areRootsConjugatePairs (roots : List ℂ) : Bool :=
  roots.all fun root => roots.countP (fun other => decide (other = root)) =
    roots.countP (fun other => decide (other = (starRingEnd ℂ) root))

/-- Polynomials.hpp:203-209, the loop that copies the real roots; `i` is the position of `realIt`. -/
noncomputable def copyReals : List ℂ → ℕ → FactoredPoly → Out FactoredPoly
  | [], _, p => pure p
  | z :: zs, i, p =>
    if z.im = 0 then do
      let p ← p.setReal i z.re
      copyReals zs (i + 1) p
    else copyReals zs i p

/-- Polynomials.hpp:210 `std::copy_if(..., imag > 0)`. -/
noncomputable def copyPairs : List ℂ → ℕ → FactoredPoly → Out FactoredPoly
  | [], _, p => pure p
  | z :: zs, i, p =>
    if z.im > 0 then do
      let p ← p.setPair i z
      copyPairs zs (i + 1) p
    else copyPairs zs i p

/-- Polynomials.hpp:190-211, constructor from roots. -/
noncomputable def FactoredPoly.ofRoots (roots : List ℂ) : Out FactoredPoly := do
  let numReal := (roots.map fun z => if z.im = 0 then 1 else 0).sum
  let numComplex := roots.length - numReal
  require (numComplex % 2 = 0)
  require (areRootsConjugatePairs roots = true)
  let p ← FactoredPoly.empty.resize numReal (numComplex / 2) 0 0
  let p ← copyReals roots 0 p
  copyPairs roots 0 p

end

/-- Polynomials.hpp:293-305 `eval` at an argument of type `U` (`ℝ` or `ℂ`). -/
noncomputable def FactoredPoly.eval {U : Type} [CommRing U] [Algebra ℝ U] (p : FactoredPoly) (x : U) : U :=
  let rp := (p.realRoots.map fun r => x - algebraMap ℝ U r).foldl (fun a b => a * b) 1
  let cp := (p.complexPairs.map fun z =>
    x * x - algebraMap ℝ U (2 * z.re) * x + algebraMap ℝ U (z.re * z.re) + algebraMap ℝ U (z.im * z.im)).foldl
      (fun a b => a * b) 1
  rp * cp

/-! ### expansion -/

/-- Polynomials.hpp:320-329 `MultiplyPolynomialBy1stOrder`: in place, from the last coefficient to the first;
iteration `k` handles index `size - 1 - k`. -/
def mulBy1stOrder {R : Type} [Zero R] [Add R] [Mul R] (coeffs : List R) (c0 : R) : Out (List R) :=
  forN coeffs.length (fun k c => do
    let i : ℤ := (coeffs.length : ℤ) - 1 - k
    let p0 ← (if 0 < i then rd c (i - 1) else pure 0)
    let p1 ← rd c i
    wr c i (p0 + p1 * c0)) coeffs

/-- Polynomials.hpp:331-345 `MultiplyPolynomialBy2ndOrder` -/
def mulBy2ndOrder {R : Type} [Zero R] [Add R] [Mul R] (coeffs : List R) (c0 c1 : R) : Out (List R) :=
  forN coeffs.length (fun k c => do
    let i : ℤ := (coeffs.length : ℤ) - 1 - k
    let p0 ← (if 1 < i then rd c (i - 2) else pure 0)
    let p1 ← (if 0 < i then rd c (i - 1) else pure 0)
    let p2 ← rd c i
    wr c i (p0 + p1 * c1 + p2 * c0)) coeffs

/-- Polynomials.hpp:354-356 -/
def expandReals {R : Type} [Zero R] [Add R] [Mul R] [Neg R] : List R → List R → Out (List R)
  | [], c => pure c
  | r :: rs, c => do
    let c ← mulBy1stOrder c (-r)
    expandReals rs c

/-- Polynomials.hpp:357-361 -/
def expandPairs : List ℂ → List ℝ → Out (List ℝ)
  | [], c => pure c
  | z :: zs, c => do
    let c ← mulBy2ndOrder c (z.re * z.re + z.im * z.im) (-2 * z.re)
    expandPairs zs c

/-- Polynomials.hpp:349-363 `ExpandPolynomial` -/
def expandPolynomial (p : FactoredPoly) : Out (List ℝ) := do
  let c ← wr (List.replicate (p.numRoots + 1) 0) 0 1
  let c ← expandReals p.realRoots c
  expandPairs p.complexPairs c

end Verif
