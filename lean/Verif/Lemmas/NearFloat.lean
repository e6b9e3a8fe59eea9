import Verif.Spec.FloatFFT
import Verif.Spec.Convolution
import Mathlib.Tactic.Linarith
import Mathlib.Tactic.Positivity
import Mathlib.Tactic.Ring

/-! # A calculus of mixed relative and absolute errors -/

set_option linter.unusedVariables false

namespace Verif

variable {F : Type} [Zero F] [Add F] [Sub F] [Mul F] [Fma F]

/-- `v` is finite and within `(G - 1) m + τ` of `x`, a number of magnitude at most `m`. -/
def Near (A : FloatArith F) (v : F) (x m G τ : ℝ) : Prop :=
  A.finite v ∧ |x| ≤ m ∧ |A.val v - x| ≤ (G - 1) * m + τ

namespace Near
variable {A : FloatArith F} {v w : F} {x y m n G H τ σ : ℝ}

theorem mono (h : Near A v x m G τ) (hG : G ≤ H) (hτ : τ ≤ σ) : Near A v x m H σ := by
  refine ⟨h.1, h.2.1, h.2.2.trans ?_⟩
  have := mul_le_mul_of_nonneg_right (show G - 1 ≤ H - 1 by linarith) ((abs_nonneg x).trans h.2.1)
  linarith

theorem zero (hG : 1 ≤ G) (hτ : 0 ≤ τ) (hm : 0 ≤ m) : Near A (0 : F) 0 m G τ := by
  refine ⟨A.zero_finite, by simpa using hm, ?_⟩
  rw [A.val_zero, sub_zero, abs_zero]
  have : 0 ≤ (G - 1) * m := mul_nonneg (by linarith) hm
  linarith

theorem exact (hf : A.finite v) (hx : A.val v = x) (hm : |x| ≤ m) (hG : 1 ≤ G) (hτ : 0 ≤ τ) : Near A v x m G τ := by
  refine ⟨hf, hm, ?_⟩
  rw [hx, sub_self, abs_zero]
  have : 0 ≤ (G - 1) * m := mul_nonneg (by linarith) ((abs_nonneg x).trans hm)
  linarith

theorem abs_val (h : Near A v x m G τ) : |A.val v| ≤ G * m + τ := by
  have := abs_sub_abs_le_abs_sub (A.val v) x
  have := h.2.1
  have := h.2.2
  linarith

theorem mag_nonneg (h : Near A v x m G τ) : 0 ≤ m := (abs_nonneg x).trans h.2.1

theorem add (h : Near A v x m G τ) (k : Near A w y n G σ) (hh : G * (m + n) + τ + σ ≤ A.huge) :
    Near A (v + w) (x + y) (m + n) ((1 + A.u) * G) ((1 + A.u) * (τ + σ)) := by
  have u0 := A.u_nonneg
  have e : |(A.val v + A.val w) - (x + y)| ≤ (G - 1) * (m + n) + (τ + σ) := by
    rw [add_sub_add_comm]
    refine (abs_add_le _ _).trans ?_
    have := h.2.2
    have := k.2.2
    linarith
  have xy : |x + y| ≤ m + n := (abs_add_le _ _).trans (add_le_add h.2.1 k.2.1)
  have b : |A.val v + A.val w| ≤ G * (m + n) + (τ + σ) := by
    have := abs_sub_abs_le_abs_sub (A.val v + A.val w) (x + y)
    linarith
  obtain ⟨f, r⟩ := A.add v w h.1 k.1 (by linarith)
  refine ⟨f, xy, ?_⟩
  have := abs_sub_le (A.val (v + w)) (A.val v + A.val w) (x + y)
  have := mul_le_mul_of_nonneg_left b u0
  have ex : ((1 + A.u) * G - 1) * (m + n) + (1 + A.u) * (τ + σ)
      = A.u * (G * (m + n) + (τ + σ)) + ((G - 1) * (m + n) + (τ + σ)) := by ring
  linarith

theorem mul (h : Near A v x m G τ) (k : Near A w y n H σ) (hG : 1 ≤ G) (hτ : 0 ≤ τ) (hh : (G * m + τ) * (H * n + σ) ≤ A.huge) :
    Near A (v * w) (x * y) (m * n) ((1 + A.u) * (G * H)) ((1 + A.u) * (τ * (H * n + σ) + G * m * σ) + A.tiny) := by
  have u0 := A.u_nonneg
  have m0 := h.mag_nonneg
  have n0 := k.mag_nonneg
  have bv := h.abs_val
  have bw := k.abs_val
  have pw : 0 ≤ H * n + σ := (abs_nonneg _).trans bw
  have pv : 0 ≤ (G - 1) * m + τ := (abs_nonneg _).trans h.2.2
  have b : |A.val v * A.val w| ≤ (G * m + τ) * (H * n + σ) := by
    rw [abs_mul]
    exact mul_le_mul bv bw (abs_nonneg _) ((abs_nonneg _).trans bv)
  have e : |A.val v * A.val w - x * y| ≤ ((G - 1) * m + τ) * (H * n + σ) + m * ((H - 1) * n + σ) := by
    have s : A.val v * A.val w - x * y = (A.val v - x) * A.val w + x * (A.val w - y) := by ring
    rw [s]
    refine (abs_add_le _ _).trans ?_
    rw [abs_mul, abs_mul]
    exact add_le_add (mul_le_mul h.2.2 bw (abs_nonneg _) pv) (mul_le_mul h.2.1 k.2.2 (abs_nonneg _) m0)
  have xy : |x * y| ≤ m * n := by
    rw [abs_mul]
    exact mul_le_mul h.2.1 k.2.1 (abs_nonneg _) m0
  obtain ⟨f, r⟩ := A.mul v w h.1 k.1 (b.trans hh)
  refine ⟨f, xy, ?_⟩
  have := abs_sub_le (A.val (v * w)) (A.val v * A.val w) (x * y)
  have := mul_le_mul_of_nonneg_left b u0
  have ex : ((1 + A.u) * (G * H) - 1) * (m * n) + ((1 + A.u) * (τ * (H * n + σ) + G * m * σ) + A.tiny)
      = A.u * ((G * m + τ) * (H * n + σ)) + A.tiny + (((G - 1) * m + τ) * (H * n + σ) + m * ((H - 1) * n + σ)) := by ring
  linarith

end Near
end Verif
