import Verif.Spec.FloatFFT
import Verif.Spec.RoundedSum
import Verif.Spec.Dft
import Verif.Model.OverlapAddFloat

/-! # Specification of an inexact Fourier transform -/

namespace Verif.PocketF

variable {F : Type} [Zero F] [Add F] [Sub F] [Mul F] [Fma F] [Neg F]

/-- Complex floating point numbers as samples: addition is componentwise. -/
noncomputable def cxAdd (A : FloatArithNeg F) : RoundedAdd (Cx F) where
  val := cval A
  finite := FinC A
  u := A.u
  huge := A.huge
  u_nonneg := A.u_nonneg
  zero_finite := ⟨A.zero_finite, A.zero_finite⟩
  val_zero := by
    apply Complex.ext
    · exact A.val_zero
    · exact A.val_zero
  add := by
    intro a b ha hb h
    have hr : |A.val a.re + A.val b.re| ≤ ‖cval A a + cval A b‖ := Complex.abs_re_le_norm (cval A a + cval A b)
    have hi : |A.val a.im + A.val b.im| ≤ ‖cval A a + cval A b‖ := Complex.abs_im_le_norm (cval A a + cval A b)
    obtain ⟨f1, e1⟩ := A.add a.re b.re ha.1 hb.1 (hr.trans h)
    obtain ⟨f2, e2⟩ := A.add a.im b.im ha.2 hb.2 (hi.trans h)
    refine ⟨⟨f1, f2⟩, ?_⟩
    have u0 := A.u_nonneg
    have key : ∀ p q P Q : ℝ, |p| ≤ A.u * |P| → |q| ≤ A.u * |Q| → ‖(⟨p, q⟩ : ℂ)‖ ≤ A.u * ‖(⟨P, Q⟩ : ℂ)‖ := by
      intro p q P Q h1 h2
      have s1 : p ^ 2 ≤ A.u ^ 2 * P ^ 2 := by
        have := pow_le_pow_left₀ (abs_nonneg p) h1 2
        rwa [sq_abs, mul_pow, sq_abs] at this
      have s2 : q ^ 2 ≤ A.u ^ 2 * Q ^ 2 := by
        have := pow_le_pow_left₀ (abs_nonneg q) h2 2
        rwa [sq_abs, mul_pow, sq_abs] at this
      refine (pow_le_pow_iff_left₀ (norm_nonneg _) (by positivity) two_ne_zero).1 ?_
      rw [mul_pow, Complex.sq_norm, Complex.sq_norm, Complex.normSq_mk, Complex.normSq_mk]
      nlinarith
    exact key _ _ _ _ e1 e2

/-- `fft fwd f` is, on any array of length `K` of finite numbers of magnitude at most `X`, the Fourier sum times the factor
`f` (1 if `none`) within the relative accuracy `q` rounding errors, unless `G` times `X` could overflow. -/
def TransformWithin (A : FloatArithNeg F) (one : F) (K : ℕ) (q G : ℝ)
    (fft : Bool → Option F → List (Cx F) → Out (List (Cx F))) : Prop :=
  ∀ (fwd : Bool) (f : Option F) (x : List (Cx F)) (X : ℝ), x.length = K → (∀ c ∈ x, FinC A c ∧ ‖cval A c‖ ≤ X) →
    A.finite (f.getD one) → |A.val (f.getD one)| ≤ 2 → G * (X + A.tiny) ≤ A.huge →
    ∃ y, fft fwd f x = .ok y ∧ y.length = K ∧ ∀ k, k < K → FinC A (sig y k) ∧
      ‖cval A (sig y k) - A.val (f.getD one) * ∑ j ∈ Finset.range K,
          cval A (sig x j) * rootOfUnity K ((if fwd then -1 else 1) * ((j : ℤ) * k))‖
        ≤ |A.val (f.getD one)| * (q * (A.u * X + A.tiny)) + 2 * A.tiny

/-- The data of the transforms of length `K` are accurate to `h` rounding errors; `N` is the length Bluestein's plan would
pad to. -/
structure EnvOk (A : FloatArithNeg F) (h : ℝ) (K N : ℕ) (E : FftEnv F) : Prop where
  good : Pocket.goodSizeCmplx (2 * K - 1) = .ok N
  lits : LitsOk A h E.lits
  tw : TableOk A h K E.tw
  tw2 : TableOk A h N E.tw2
  tmp : TableOk A h (2 * K) E.tmp
  one : A.finite E.one ∧ A.val E.one = 1
  xn2 : A.finite E.xn2 ∧ |A.val E.xn2 - 1 / N| ≤ 2 * A.u / N

end Verif.PocketF
