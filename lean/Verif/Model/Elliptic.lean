import Verif.Model.IirDesign
import Mathlib.Analysis.SpecialFunctions.Pow.Real
import Mathlib.Analysis.SpecialFunctions.Trigonometric.Arctan
import Mathlib.Analysis.SpecialFunctions.Trigonometric.Inverse

/-!
# Model of Math/EllipticFunctions.hpp

Simplifications: numbers are exact; `eps` stands for `std::numeric_limits<S>::epsilon()`, infinity is the top element of
`WithTop ℝ`, and a value that is not a number (the square root of a negative number, the arc sine outside its domain, a division
by zero) is `ub`.
-/

namespace Verif

/-- `std::sqrt` of a real number; not a number below zero -/
noncomputable def fsqrt (x : ℝ) : Out ℝ := open Classical in if 0 ≤ x then .ok (Real.sqrt x) else .ub

/-- `std::asin` of a real number; not a number outside its domain -/
noncomputable def fasin (x : ℝ) : Out ℝ := open Classical in if |x| ≤ 1 then .ok (Real.arcsin x) else .ub

/-- multiplication with a number that may be infinite: zero times infinity is not a number; negative infinity does not occur -/
noncomputable def scaleTop (s : ℝ) : WithTop ℝ → Out (WithTop ℝ)
  | ⊤ => open Classical in if 0 < s then .ok ⊤ else .ub
  | (x : ℝ) => .ok ((s * x : ℝ) : WithTop ℝ)

/-! ### Carlson's symmetric form -/

/-- the variables of the loop of `CarlsonRF` -/
structure RfState (K : Type) where
  x : K
  y : K
  z : K
  Amn : K
  An : K
  lambda : K
  Q : ℝ

/-- EllipticFunctions.hpp:38-41, the variables before the loop -/
noncomputable def rfStart (eps x y z : ℝ) : RfState ℝ :=
  let r := eps / 4
  let A := (x + y + z) / 3
  ⟨x, y, z, A, A, 0, (3 * r) ^ (-(1 : ℝ) / 8) * max (max |A - x| |A - y|) |A - z|⟩

/-- EllipticFunctions.hpp:44-56, one turn of the loop -/
noncomputable def rfStep (s : RfState ℝ) : Out (RfState ℝ) := do
  let lambda2 := s.lambda * s.lambda
  let l1 ← fsqrt (s.x * s.y + (s.x + s.y) * s.lambda + lambda2)
  let l2 ← fsqrt (s.x * s.z + (s.x + s.z) * s.lambda + lambda2)
  let l3 ← fsqrt (s.z * s.y + (s.z + s.y) * s.lambda + lambda2)
  let lambda := (s.lambda + (l1 + l2 + l3)) / 4
  let Amn := s.Amn / 4
  pure ⟨s.x / 4, s.y / 4, s.z / 4, Amn, Amn + lambda, lambda, s.Q / 4⟩

/-- EllipticFunctions.hpp:59-71, the Taylor polynomial -/
noncomputable def rfSeries {K : Type} [Field K] (X Y Z : K) : K :=
  let E2 := X * Y + X * Z + Y * Z
  let E3 := X * Y * Z
  E2 * E2 * E3 / 16 - 5 * E2 * E2 * E2 / 208 + 3 * E3 * E3 / 104 - 3 * E2 * E3 / 44 + E2 * E2 / 24 + E3 / 14 - E2 / 10 + 1

/-- EllipticFunctions.hpp:29-72 `CarlsonRF` for real types; at most `fuel` turns are modelled -/
noncomputable def carlsonRF (fuel : ℕ) (eps x y z : ℝ) : Out (WithTop ℝ) := open Classical in
  if (if x = 0 then 1 else 0) + (if y = 0 then 1 else 0) + (if z = 0 then 1 else 0) ≥ 2 then .ok ⊤
  else do
    let s ← whileN fuel (fun s : RfState ℝ => decide (s.Q > |s.An|)) rfStep (rfStart eps x y z)
    let X ← fdiv (s.Amn - s.x) s.An
    let Y ← fdiv (s.Amn - s.y) s.An
    let Z ← fdiv (s.Amn - s.z) s.An
    let root ← fsqrt s.An
    let v ← fdiv (rfSeries X Y Z) root
    pure (v : WithTop ℝ)

/-- EllipticFunctions.hpp:38-41 for complex types -/
noncomputable def rfStartC (eps : ℝ) (x y z : ℂ) : RfState ℂ :=
  let r := eps / 4
  let A := (x + y + z) / 3
  ⟨x, y, z, A, A, 0, (3 * r) ^ (-(1 : ℝ) / 8) * max (max ‖A - x‖ ‖A - y‖) ‖A - z‖⟩

/-- EllipticFunctions.hpp:44-56 for complex types -/
noncomputable def rfStepC (s : RfState ℂ) : RfState ℂ :=
  let lambda2 := s.lambda * s.lambda
  let l1 := csqrt (s.x * s.y + (s.x + s.y) * s.lambda + lambda2)
  let l2 := csqrt (s.x * s.z + (s.x + s.z) * s.lambda + lambda2)
  let l3 := csqrt (s.z * s.y + (s.z + s.y) * s.lambda + lambda2)
  let lambda := (s.lambda + (l1 + l2 + l3)) / 4
  let Amn := s.Amn / 4
  ⟨s.x / 4, s.y / 4, s.z / 4, Amn, Amn + lambda, lambda, s.Q / 4⟩

/-- EllipticFunctions.hpp:29-72 `CarlsonRF` for complex types; at most `fuel` turns are modelled -/
noncomputable def carlsonRFC (fuel : ℕ) (eps : ℝ) (x y z : ℂ) : Out (WithTop ℂ) := open Classical in
  if (if x = 0 then 1 else 0) + (if y = 0 then 1 else 0) + (if z = 0 then 1 else 0) ≥ 2 then .ok ⊤
  else do
    let s ← whileN fuel (fun s : RfState ℂ => decide (s.Q > ‖s.An‖)) (fun s => .ok (rfStepC s)) (rfStartC eps x y z)
    if s.An = 0 then .ub
    else pure ((rfSeries ((s.Amn - s.x) / s.An) ((s.Amn - s.y) / s.An) ((s.Amn - s.z) / s.An) / csqrt s.An : ℂ) : WithTop ℂ)

/-! ### elliptic integrals -/

/-- EllipticFunctions.hpp:84-87 `EllipticK` -/
noncomputable def ellipticK (fuel : ℕ) (eps k : ℝ) : Out (WithTop ℝ) := carlsonRF fuel eps 0 (1 - k * k) 1

/-- EllipticFunctions.hpp:236-243 `EllipticArcSN` for real types -/
noncomputable def ellipticArcSN (fuel : ℕ) (eps x k : ℝ) : Out (WithTop ℝ) := do
  let root ← fsqrt (x * x)
  let v ← carlsonRF fuel eps (1 - x * x) (1 - k * k * x * x) 1
  scaleTop root v

/-- EllipticFunctions.hpp:245-252 `EllipticArcCN` for real types -/
noncomputable def ellipticArcCN (fuel : ℕ) (eps x k : ℝ) : Out (WithTop ℝ) := do
  let root ← fsqrt (1 - x * x)
  let v ← carlsonRF fuel eps (x * x) 1 (1 - k * k + k * k * x * x)
  scaleTop root v

/-- EllipticFunctions.hpp:254-261 `EllipticArcDN` for real types -/
noncomputable def ellipticArcDN (fuel : ℕ) (eps x k : ℝ) : Out (WithTop ℝ) := do
  let root ← fsqrt (1 - x * x)
  let v ← carlsonRF fuel eps (k * k * x * x) (k * k) (k * k + x * x - 1)
  scaleTop root v

/-- the product of a complex number and a result of `CarlsonRF`; an infinite one is outside the model -/
def scaleTopC (s : ℂ) : WithTop ℂ → Out ℂ
  | ⊤ => .ub
  | (v : ℂ) => .ok (s * v)

/-- EllipticFunctions.hpp:263-270 `EllipticArcSN` for complex arguments -/
noncomputable def ellipticArcSNC (fuel : ℕ) (eps : ℝ) (x : ℂ) (k : ℝ) : Out ℂ := do
  let v ← carlsonRFC fuel eps (1 - x * x) (1 - ((k * k : ℝ) : ℂ) * x * x) 1
  scaleTopC (csqrt (x * x)) v

/-- EllipticFunctions.hpp:272-279 `EllipticArcCN` for complex arguments -/
noncomputable def ellipticArcCNC (fuel : ℕ) (eps : ℝ) (x : ℂ) (k : ℝ) : Out ℂ := do
  let v ← carlsonRFC fuel eps (x * x) 1 (1 - ((k * k : ℝ) : ℂ) + ((k * k : ℝ) : ℂ) * x * x)
  scaleTopC (csqrt (1 - x * x)) v

/-- EllipticFunctions.hpp:281-288 `EllipticArcDN` for complex arguments -/
noncomputable def ellipticArcDNC (fuel : ℕ) (eps : ℝ) (x : ℂ) (k : ℝ) : Out ℂ := do
  let v ← carlsonRFC fuel eps (((k * k : ℝ) : ℂ) * x * x) ((k * k : ℝ) : ℂ) (((k * k : ℝ) : ℂ) + x * x - 1)
  scaleTopC (csqrt (1 - x * x)) v

/-! ### Jacobi's amplitude -/

/-- the variables of the first loop of `EllipticAM`; `factors` holds the entries written so far, the newest first -/
structure AmState where
  an : ℝ
  bn : ℝ
  cn : ℝ
  factors : List ℝ

/-- EllipticFunctions.hpp:117-125, one turn of the loop; `n` is the length of `factors` -/
noncomputable def amStep (s : AmState) : Out AmState := do
  let root ← fsqrt (s.an * s.bn)
  let an := 1 / 2 * (s.an + s.bn)
  let cn := 1 / 2 * (s.an - s.bn)
  let f ← fdiv cn an
  require (s.factors.length + 1 < 32)
  pure ⟨an, root, cn, f :: s.factors⟩

/-- EllipticFunctions.hpp:128-131, the second loop -/
noncomputable def amBackward : List ℝ → ℝ → Out ℝ
  | [], phi => .ok phi
  | f :: rest, phi => do
    let a ← fasin (f * Real.sin phi)
    amBackward rest (1 / 2 * (phi + a))

/-- EllipticFunctions.hpp:94-134 `EllipticAM` for real types.  `1 << n` is a positive `int` only up to `n = 30`. -/
noncomputable def ellipticAM (eps x k : ℝ) : Out ℝ := open Classical in do
  cassert (0 ≤ k ∧ k ≤ 1)
  if k = 1 then pure (2 * Real.arctan (Real.exp x) - Real.pi / 2)
  else if k = 0 then pure x
  else do
    let epsilon := eps / 4
    let bn ← fsqrt (1 - k * k)
    let s ← whileN 33 (fun s : AmState => decide (|s.cn| > epsilon)) amStep ⟨1, bn, 1 / 2 * (1 - bn), []⟩
    let shifted ← (if s.factors.length ≤ 30 then .ok ((2 : ℝ) ^ s.factors.length) else .ub)
    amBackward s.factors (shifted * s.an * x)

/-! ### Jacobi's elliptic functions -/

/-- the integer nearest to `x`, halves to even -/
noncomputable def nearestEven (x : ℝ) : ℤ := open Classical in
  if Int.fract x < 1 / 2 then ⌊x⌋ else if 1 / 2 < Int.fract x then ⌊x⌋ + 1 else if ⌊x⌋ % 2 = 0 then ⌊x⌋ else ⌊x⌋ + 1

/-- `std::remquo`: the remainder and (the low bits of) the quotient; an infinite divisor leaves the first argument alone -/
noncomputable def remquo (x : ℝ) : WithTop ℝ → Out (ℝ × ℤ)
  | ⊤ => .ok (x, 0)
  | (y : ℝ) => do
    let q ← fdiv x y
    pure (x - nearestEven q * y, (nearestEven q).sign * ((nearestEven q).natAbs % 8 : ℕ))

/-- EllipticFunctions.hpp:148-177 `EllipticReduceRange`; the last component, the factor of `dn`, is always one and left out -/
noncomputable def ellipticReduceRange (fuel : ℕ) (eps x k : ℝ) : Out (ℝ × ℝ × ℝ × ℝ) := open Classical in do
  let kPrime := if k < 0 then -k else k
  let xPrime := if 1 < kPrime then x * kPrime else x
  let factorSn := if 1 < kPrime then 1 / kPrime else 1
  let kPrime' := if 1 < kPrime then 1 / kPrime else kPrime
  if Real.pi / 2 < xPrime then do
    let K ← ellipticK fuel eps k
    let (xPrime, octant) ← remquo x (K.map (fun v => 2 * v))
    if octant % 2 = 1 then pure (xPrime, kPrime', factorSn * (-1), -1)
    else pure (xPrime, kPrime', factorSn, 1)
  else pure (xPrime, kPrime', factorSn, 1)

/-- EllipticFunctions.hpp:179-188 `EllipticSNCNDN` for real types -/
noncomputable def ellipticSNCNDN (fuel : ℕ) (eps x k : ℝ) : Out (ℝ × ℝ × ℝ) := do
  let (xPrime, kPrime, factorSn, factorCn) ← ellipticReduceRange fuel eps x k
  let am ← ellipticAM eps xPrime kPrime
  let sn := factorSn * Real.sin am
  let cn := factorCn * Real.cos am
  let dn ← fsqrt (1 - k * k * sn * sn)
  pure (sn, cn, dn)

/-- EllipticFunctions.hpp:190-200 `EllipticSNCNDN` for a complex argument -/
noncomputable def ellipticSNCNDNC (fuel : ℕ) (eps : ℝ) (x : ℂ) (k : ℝ) : Out (ℂ × ℂ × ℂ) := open Classical in do
  let (snr, cnr, dnr) ← ellipticSNCNDN fuel eps x.re k
  let kp ← fsqrt (1 - k * k)
  let (sni, cni, dni) ← ellipticSNCNDN fuel eps x.im kp
  let d := cni * cni + k * k * sni * sni * snr * snr
  if d = 0 then .ub
  else pure ((⟨snr * dni, sni * cni * cnr * dnr⟩ : ℂ) / (d : ℂ), (⟨cnr * cni, -snr * dnr * sni * dni⟩ : ℂ) / (d : ℂ),
    (⟨dnr * dni * cni, -k * k * snr * cnr * sni⟩ : ℂ) / (d : ℂ))

end Verif
