import Verif.Model.Polynomials
import Mathlib.Analysis.Complex.Norm

/-!
# Model of the LTI system representations  (include/dspbb/LTISystems/Systems.hpp)
-/

namespace Verif

/-- Systems.hpp:14-25 `ZeroPoleGain` -/
structure Zpk where
  gain : ℝ
  zeros : FactoredPoly
  poles : FactoredPoly

/-- Systems.hpp:21-22 `ZeroPoleGain::operator()` -/
noncomputable def Zpk.eval {U : Type} [Field U] [Algebra ℝ U] (s : Zpk) (x : U) : U :=
  algebraMap ℝ U s.gain * s.zeros.eval x / s.poles.eval x

/-- Systems.hpp:24 `ZeroPoleGain::order` -/
def Zpk.order (s : Zpk) : ℕ := max s.zeros.numRoots s.poles.numRoots

/-- Systems.hpp:39-40 `TransferFunction::operator()` -/
noncomputable def TransferFn.eval {U : Type} [Field U] [Algebra ℝ U] (s : TransferFn ℝ) (x : U) : U :=
  polyEval (algebraMap ℝ U) s.num x / polyEval (algebraMap ℝ U) s.den x

/-- Systems.hpp:75-80 `TransferFunction(zpk)` -/
def TransferFn.ofZpk (s : Zpk) : Out (TransferFn ℝ) := do
  let num ← expandPolynomial s.zeros
  let den ← expandPolynomial s.poles
  pure ⟨num.map fun c => c * s.gain, den⟩

/-! ### `CascadedBiquad` -/

/-- `std::pair<uint8_t, std::array<T, 3>>` -/
structure Poly3 where
  order : ℕ
  c0 : ℝ
  c1 : ℝ
  c2 : ℝ

section
open Classical

/-- Systems.hpp:155-159, 160-164: pair the first with the last root while more than one is left;
`first` is the iterator, `last` the base of the reverse iterator. -/
noncomputable def pairRoots (ascending : List ℝ) (first last : ℕ) (polys : List Poly3) :
    Out (ℕ × ℕ × List Poly3) :=
  whileN (last - first + 1) (fun s => decide (s.2.1 - s.1 > 1)) (fun s => do
    let r1 ← rd ascending s.1
    let r2 ← rd ascending ((s.2.1 : ℤ) - 1)
    pure (s.1 + 1, s.2.1 - 1, s.2.2 ++ [⟨2, r1 * r2, -r1 - r2, 1⟩])) (first, last, polys)

/-- Systems.hpp:142-180 `RealRootPolynomials` -/
noncomputable def realRootPolynomials (roots : List ℝ) : Out (List Poly3) := do
  let ascending := roots.mergeSort (fun a b => decide (a ≤ b))
  let partitionPoint := (ascending.takeWhile fun r => decide (r < 0)).length
  let (firstNegative, lastNegative, polys) ← pairRoots ascending 0 partitionPoint []
  let (firstPositive, lastPositive, polys) ← pairRoots ascending partitionPoint ascending.length polys
  let unpairedNegative := decide (firstNegative < lastNegative)
  let unpairedPositive := decide (firstPositive < lastPositive)
  if unpairedNegative && unpairedPositive then
    let r1 ← rd ascending firstPositive
    let r2 ← rd ascending firstNegative
    pure (polys ++ [⟨2, r1 * r2, -r1 - r2, 1⟩])
  else if unpairedPositive then
    let r ← rd ascending firstPositive
    pure (polys ++ [⟨1, 0, -r, 1⟩])
  else if unpairedNegative then
    let r ← rd ascending firstNegative
    pure (polys ++ [⟨1, 0, -r, 1⟩])
  else pure polys

end

/-- Systems.hpp:182-192 `ComplexPairPolynomials`; `std::abs(r) * std::abs(r)` is the squared modulus. -/
noncomputable def complexPairPolynomials (pairs : List ℂ) : List Poly3 :=
  pairs.map fun r => ⟨2, ‖r‖ * ‖r‖, -2 * r.re, 1⟩

/-- Systems.hpp:102-105: `sections[i].numerator = ...` for all zero polynomials. -/
def setNumerators (polys : List Poly3) (sections : List (Biquad ℝ)) : Out (List (Biquad ℝ)) :=
  forN polys.length (fun i s => do
    let p ← rd polys i
    let b ← rd s i
    wr s i { b with n0 := p.c0, n1 := p.c1, n2 := p.c2, numOrder := p.order }) sections

/-- Systems.hpp:106-109 -/
def setDenominators (polys : List Poly3) (sections : List (Biquad ℝ)) : Out (List (Biquad ℝ)) :=
  forN polys.length (fun i s => do
    let p ← rd polys i
    let b ← rd s i
    wr s i { b with d0 := p.c0, d1 := p.c1, denOrder := p.order }) sections

/-- Systems.hpp:52-57, default member initialisers. -/
def Biquad.default : Biquad ℝ := ⟨0, 0, 1, 0, 0, 0, 0⟩

/-- Systems.hpp:82-115 `CascadedBiquad(zpk)`.  `sort` stands for `std::sort` by the absolute value of the
constant coefficient; only that it permutes its range is used, so the order in which it leaves equal elements
does not matter. -/
noncomputable def cascadedBiquad (sort : List Poly3 → List Poly3) (s : Zpk) : Out (List (Biquad ℝ)) := do
  let realZeroPolys ← realRootPolynomials s.zeros.realRoots
  let complexZeroPolys := complexPairPolynomials s.zeros.complexPairs
  let realPolePolys ← realRootPolynomials s.poles.realRoots
  let complexPolePolys := complexPairPolynomials s.poles.complexPairs
  let zeroPolys := sort (realZeroPolys ++ complexZeroPolys)
  let polePolys := sort (realPolePolys ++ complexPolePolys)
  let numSections := max zeroPolys.length polePolys.length
  let sections ← setNumerators zeroPolys (List.replicate numSections Biquad.default)
  let sections ← setDenominators polePolys sections
  if sections ≠ [] then
    let last : ℤ := (sections.length : ℤ) - 1
    let b ← rd sections last
    wr sections last { b with n0 := b.n0 * s.gain, n1 := b.n1 * s.gain, n2 := b.n2 * s.gain }
  else pure sections

/-- Systems.hpp:194-204 `EvalSection` -/
noncomputable def evalSection {U : Type} [Field U] [Algebra ℝ U] (b : Biquad ℝ) (x : U) : Out U := do
  let xs := [0, 1, x, x * x]
  let xn0 ← rd xs b.numOrder
  let xn1 ← rd xs (1 + b.numOrder : ℕ)
  let num := algebraMap ℝ U b.n0 + xn0 * algebraMap ℝ U b.n1 + xn1 * algebraMap ℝ U b.n2
  let xd0 ← rd xs b.denOrder
  let xd1 ← rd xs (1 + b.denOrder : ℕ)
  let den := algebraMap ℝ U b.d0 + xd0 * algebraMap ℝ U b.d1 + xd1
  pure (num / den)

/-- Systems.hpp:117-129 `CascadedBiquad::operator()` -/
noncomputable def evalBiquads {U : Type} [Field U] [Algebra ℝ U] : List (Biquad ℝ) → U → Out U
  | [], _ => pure 1
  | b :: bs, x => do
    let v ← evalSection b x
    let r ← evalBiquads bs x
    pure (v * r)

/-- Systems.hpp:131-140 `CascadedBiquad::order` -/
def biquadsOrder (sections : List (Biquad ℝ)) : ℕ :=
  let numOrder := sections.foldl (fun a b => a + b.numOrder) 1
  let denOrder := sections.foldl (fun a b => a + b.denOrder) 1
  if sections = [] then 0 else max numOrder denOrder

end Verif
