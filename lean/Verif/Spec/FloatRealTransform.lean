import Verif.Spec.FloatRealFFT
import Verif.Spec.FloatTransform
import Verif.Model.OverlapAddRealFloat

/-! # Specification of an inexact Fourier transform of real data -/

namespace Verif.PocketF

variable {F : Type} [Zero F] [Add F] [Sub F] [Mul F] [Fma F] [Neg F]

/-- Real floating point numbers as samples. -/
noncomputable def reAdd (A : FloatArithNeg F) : RoundedAdd F where
  val x := (A.val x : ℂ)
  finite := A.finite
  u := A.u
  huge := A.huge
  u_nonneg := A.u_nonneg
  zero_finite := A.zero_finite
  val_zero := by rw [A.val_zero]; simp
  add := by
    intro a b ha hb h
    rw [← Complex.ofReal_add, Complex.norm_real] at h
    obtain ⟨f, e⟩ := A.add a b ha hb h
    refine ⟨f, ?_⟩
    rw [← Complex.ofReal_add, ← Complex.ofReal_sub, Complex.norm_real, Complex.norm_real]
    exact e

/-- `fwd` computes the non-redundant bins of the spectrum of any `K` finite real samples of magnitude at most `X`, and `bwd f`
the real samples with a given half spectrum, times `f` (1 if `none`), within `q` rounding errors, unless `G` times `X` could
overflow. -/
structure RealTransformWithin (A : FloatArithNeg F) (one : F) (K : ℕ) (q G : ℝ) (fwd : List F → Out (List (Cx F)))
    (bwd : Option F → List (Cx F) → Out (List F)) : Prop where
  forward : ∀ (x : List F) (X : ℝ), x.length = K → (∀ c ∈ x, A.finite c ∧ |A.val c| ≤ X) → G * (X + A.tiny) ≤ A.huge →
    ∃ y, fwd x = .ok y ∧ y.length = K / 2 + 1 ∧ ∀ k, k < K / 2 + 1 → FinC A (sig y k) ∧
      ‖cval A (sig y k) - ∑ j ∈ Finset.range K, (A.val (sig x j) : ℂ) * rootOfUnity K (-((j : ℤ) * k))‖
        ≤ q * (A.u * X + A.tiny) + 2 * A.tiny
  backward : ∀ (f : Option F) (Z : List (Cx F)) (X : ℝ), Z.length = K / 2 + 1 →
    (∀ c ∈ Z, FinC A c ∧ ‖cval A c‖ ≤ X) → A.finite (f.getD one) → |A.val (f.getD one)| ≤ 2 → G * (X + A.tiny) ≤ A.huge →
    ∃ y, bwd f Z = .ok y ∧ y.length = K ∧ ∀ j, j < K → A.finite (sig y j) ∧
      |A.val (sig y j) - A.val (f.getD one) * halfComplexInverse K (halfComplex fun k => cval A (sig Z k)) j|
        ≤ |A.val (f.getD one)| * (q * (A.u * X + A.tiny)) + 2 * A.tiny

end Verif.PocketF
