import Verif.Spec.Convolution
import Verif.Cpp
import Mathlib.Analysis.Complex.Basic

/-!
# Specification of rounded sums of real or complex numbers, and of inexact circular convolution

What an algorithm relies on that only adds samples: one addition errs by at most `u` times the magnitude of the sum, as
long as the sum stays below `huge`.  `val` is the number a sample stands for; `finite` excludes infinities and NaNs.
-/

namespace Verif

structure RoundedAdd (R : Type) [Zero R] [Add R] where
  val : R → ℂ
  finite : R → Prop
  u : ℝ
  huge : ℝ
  u_nonneg : 0 ≤ u
  zero_finite : finite 0
  val_zero : val 0 = 0
  add : ∀ a b, finite a → finite b → ‖val a + val b‖ ≤ huge →
    finite (a + b) ∧ ‖val (a + b) - (val a + val b)‖ ≤ u * ‖val a + val b‖

/-- `cc` computes the circular convolution of any two signals of length `K`, with finite samples of magnitude at most `U`
and `V`, within the absolute error `ε`. -/
def ApproxCircularConvolution {R : Type} [Zero R] [Add R] (A : RoundedAdd R) (cc : List R → List R → Out (List R)) (K : ℕ)
    (U V ε : ℝ) : Prop :=
  ∀ a b : List R, a.length = K → b.length = K → (∀ x ∈ a, A.finite x ∧ ‖A.val x‖ ≤ U) →
    (∀ x ∈ b, A.finite x ∧ ‖A.val x‖ ≤ V) → ∃ c, cc a b = .ok c ∧ c.length = K ∧ ∀ k, k < K → A.finite (sig c k) ∧
      ‖A.val (sig c k) - ∑ i ∈ Finset.range K, A.val (sig a i) * A.val (sig b ((k + K - i) % K))‖ ≤ ε

end Verif
