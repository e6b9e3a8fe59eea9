import Verif.Model.Elliptic
import Verif.Model.Solvers

/-!
# Model of Filtering/IIR/Elliptic.hpp

Simplifications: numbers are exact (`eps` is the machine epsilon that the elliptic functions use), except that the midpoints of
the bisection may be rounded (`BisectArith`); infinite values of the complete integral, other than in the quotient that is
bisected, and divisions by zero are `ub`.  For order zero the C++ code divides by zero as well, but does not use the result.
-/

namespace Verif

/-- Elliptic.hpp:14-25 `EllipticParameters` -/
structure EllipticParameters where
  k : ℝ
  kp : ℝ
  K : ℝ
  Kp : ℝ
  k1 : ℝ
  k1p : ℝ
  K1 : ℝ
  K1p : ℝ
  epsilon : ℝ

/-- an infinite value is outside the model -/
def finite : WithTop ℝ → Out ℝ
  | ⊤ => .ub
  | (v : ℝ) => .ok v

/-- the value of `EllipticK(k)`, however many turns its loop takes -/
noncomputable def ellipticKValue (eps k : ℝ) : WithTop ℝ := open Classical in
  if h : ∃ v, ∃ N, ∀ fuel, N ≤ fuel → ellipticK fuel eps k = .ok v then h.choose else 0

/-- a quotient of positive numbers that may be infinite; infinity over infinity does not occur -/
noncomputable def quotTop : WithTop ℝ → WithTop ℝ → WithTop ℝ
  | (a : ℝ), (b : ℝ) => ((a / b : ℝ) : WithTop ℝ)
  | (_ : ℝ), ⊤ => ((0 : ℝ) : WithTop ℝ)
  | ⊤, _ => ⊤

/-- Elliptic.hpp:41, the function that is bisected.  `EllipticK(1)` is infinite, so that the quotient is zero for `k = 0` and infinite
for `k = 1`; the bisection only uses the sign of the function, so that one stands for infinity. -/
noncomputable def degreeError (eps Kratio k : ℝ) : ℝ :=
  match quotTop (ellipticKValue eps k) (ellipticKValue eps (Real.sqrt (1 - k * k))) with
  | (q : ℝ) => q - Kratio
  | ⊤ => 1

/-- Elliptic.hpp:27-47 `EllipticOrderRipples` -/
noncomputable def ellipticOrderRipples (A : BisectArith ℝ) (bfuel fuel : ℕ) (eps : ℝ) (order : ℕ) (passbandRipple stopbandRipple : ℝ) :
    Out EllipticParameters := do
  let e2 ← fdiv (2 * passbandRipple - passbandRipple * passbandRipple) (1 - 2 * passbandRipple + passbandRipple * passbandRipple)
  let epsilon ← fsqrt e2
  let s2 ← fdiv 1 (stopbandRipple * stopbandRipple)
  let sr ← fsqrt (s2 - 1)
  let k1 ← fdiv epsilon sr
  let k1p ← fsqrt (1 - k1 * k1)
  let K1 ← ellipticK fuel eps k1
  let K1 ← finite K1
  let K1p ← ellipticK fuel eps k1p
  let K1p ← finite K1p
  let Kratio ← fdiv ((order : ℝ) * K1) K1p
  let k ← bisect A bfuel (degreeError eps Kratio) 0 1 0
  let kp ← fsqrt (1 - k * k)
  let K ← ellipticK fuel eps k
  let K ← finite K
  let Kp ← ellipticK fuel eps kp
  let Kp ← finite Kp
  pure ⟨k, kp, K, Kp, k1, k1p, K1, K1p, epsilon⟩

/-- Elliptic.hpp:62-66, one turn of the first loop -/
noncomputable def ellipticZero (fuel : ℕ) (eps : ℝ) (order : ℕ) (P : EllipticParameters) (index : ℕ) : Out ℂ := open Classical in do
  let i := 2 * index + 1 + order % 2
  let x ← fdiv ((i : ℝ) * P.K) (order : ℝ)
  let (sn, _, _) ← ellipticSNCNDN fuel eps x P.k
  if P.k * sn = 0 then .ub else pure (Complex.I / ((P.k * sn : ℝ) : ℂ))

/-- Elliptic.hpp:71-72 and 78-79, the value of a pole; `2 * index + 1 - order % 2` does not wrap around -/
noncomputable def ellipticPole (fuel : ℕ) (eps : ℝ) (order : ℕ) (P : EllipticParameters) (jv0 : ℂ) (index : ℕ) : Out ℂ := do
  let i := 2 * index + 1 - order % 2
  let x ← fdiv (P.K * (i : ℝ)) (order : ℝ)
  let (sn, _, _) ← ellipticSNCNDNC fuel eps ((x : ℂ) + jv0) P.k
  pure (Complex.I * sn)

/-- Elliptic.hpp:52-86 `Elliptic` -/
noncomputable def elliptic (A : BisectArith ℝ) (bfuel fuel : ℕ) (eps : ℝ) (order : ℕ) (passbandRipple stopbandRipple : ℝ) : Out Zpk := do
  let P ← ellipticOrderRipples A bfuel fuel eps order passbandRipple stopbandRipple
  let zeros ← FactoredPoly.empty.resize 0 (order / 2) 0 0
  let poles ← FactoredPoly.empty.resize (order % 2) (order / 2) (-1) 0
  let zeros ← forN (order / 2) (fun index (zeros : FactoredPoly) => do
    let root ← ellipticZero fuel eps order P index
    zeros.setPair index root) zeros
  let inv ← fdiv 1 P.epsilon
  let arc ← ellipticArcSNC fuel eps (Complex.I * (inv : ℂ)) P.k1
  let ratio ← fdiv P.K (order : ℝ)
  let ratio ← fdiv ratio P.K1
  let jv0 := arc * (ratio : ℂ)
  let poles ← forN (order % 2) (fun index (poles : FactoredPoly) => do
    let croot ← ellipticPole fuel eps order P jv0 index
    cassert (|croot.im| < 0.001 * |croot.re|)
    poles.setReal index croot.re) poles
  let poles ← forN (order / 2) (fun j (poles : FactoredPoly) => do
    let root ← ellipticPole fuel eps order P jv0 (order % 2 + j)
    poles.setPair j root) poles
  let quotient ← fdiv (poles.eval (0 : ℝ)) (zeros.eval (0 : ℝ))
  let gain := quotient * (if order % 2 = 1 then 1 else 1 - passbandRipple)
  pure ⟨gain, zeros, poles⟩

end Verif
