import Verif.Spec.Elliptic

/-! # What an elliptic prototype is designed from -/

namespace Verif

/-- the complementary complete integral K'(k) -/
noncomputable abbrev legendreKp (k : ℝ) : ℝ := legendreK (Real.sqrt (1 - k ^ 2))

/-- the ripple factor ε of a pass band between `1 - p` and `1`: `1 / √(1 + ε²) = 1 - p` -/
noncomputable def rippleFactor (p : ℝ) : ℝ := Real.sqrt (1 / (1 - p) ^ 2 - 1)

/-- the discrimination factor k₁ for a stop band below `s`: `1 / √(1 + (ε / k₁)²) = s` -/
noncomputable def discrimination (p s : ℝ) : ℝ := rippleFactor p / Real.sqrt (1 / s ^ 2 - 1)

/-- The quotient K(k) / K'(k) that the selectivity factor `k` of an elliptic filter of order `n` has: the degree equation. -/
noncomputable def degreeQuotient (n : ℕ) (p s : ℝ) : ℝ := n * legendreK (discrimination p s) / legendreKp (discrimination p s)

/-- The imaginary part of the arguments of the poles: `F(arctan(1 / ε), k₁') K(k) / (n K(k₁))`. -/
noncomputable def poleArgument (n : ℕ) (p s k : ℝ) : ℝ :=
  legendreF (Real.arctan (1 / rippleFactor p)) (Real.sqrt (1 - discrimination p s ^ 2)) * (legendreK k / n / legendreK (discrimination p s))

/-- The magnitude response `g` of an elliptic low pass of order `n` whose pass band ends at `1`, up to deviations of `δ`: between `1 - p`
and `1` in the pass band, at most `s` from `1 / k` on, and in between in the transition band.  Both edges are touched, alternately, by `n + 1`
ripples of the pass band, at the frequencies `sn(i K / n)`, and the response alternates between `0` and `s` at `1 / (k sn(i K / n))`. -/
structure EllipticResponse (n : ℕ) (p s k δ : ℝ) (g : ℝ → ℝ) : Prop where
  pass : ∀ w, |w| ≤ 1 → 1 - p - δ ≤ g w ∧ g w ≤ 1 + δ
  transition : ∀ w, 1 ≤ |w| → k * |w| ≤ 1 → s - δ ≤ g w ∧ g w ≤ 1 - p + δ
  stop : ∀ w, 1 ≤ k * |w| → g w ≤ s + δ
  pass_ripples : ∀ i ≤ n, ∀ φ, legendreF φ k = i / n * legendreK k → |g (Real.sin φ) - if i % 2 = n % 2 then 1 - p else 1| ≤ δ
  stop_ripples : ∀ i, 0 < i → i ≤ n → ∀ φ, legendreF φ k = i / n * legendreK k →
    |g (1 / (k * Real.sin φ)) - if i % 2 = n % 2 then s else 0| ≤ δ

/-- The precision that suffices for a design: `eps` is the machine epsilon, `τ` the relative precision of the bisection, `η` its
smallest number, and `M` bounds the quotient of the integrals and its inverse. -/
structure FineEnough (n : ℕ) (p s eps τ η M : ℝ) : Prop where
  one_le : 1 ≤ M
  quotient_le : degreeQuotient n p s ≤ M
  le_quotient : 1 ≤ M * degreeQuotient n p s
  M_le : M ≤ 2000
  eps_ge : 2 * (1 / 2) ^ 2 ^ 14 ≤ eps
  eps_le : eps ≤ 1 / 2000
  tau_nonneg : 0 ≤ τ
  eta_lt : η < Real.exp (-(5 * M))
  eps_upper : 30 * n * M * eps * legendreKp (discrimination p s) ≤ Real.arctan (rippleFactor p)
  eps_lower : 20 * n * M ^ 2 * eps * legendreK (discrimination p s) ≤ Real.arctan (1 / rippleFactor p)
  tau_upper : 20 * τ * Real.exp (5 * M) * legendreKp (discrimination p s) ≤ Real.arctan (rippleFactor p)

end Verif
