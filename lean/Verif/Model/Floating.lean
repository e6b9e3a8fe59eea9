import Verif.Cpp
import Mathlib.Data.Real.Basic

/-!
# Floating point division, idealised
-/

namespace Verif

/-- Floating point division; a zero divisor does not give a number. -/
noncomputable def fdiv (a b : ℝ) : Out ℝ :=
  open Classical in if b = 0 then .ub else .ok (a / b)

theorem fdiv_ok {a b : ℝ} (h : b ≠ 0) : fdiv a b = .ok (a / b) := by
  unfold fdiv
  rw [if_neg h]

theorem fdiv_zero {a b : ℝ} (h : b = 0) : fdiv a b = .ub := by rw [fdiv, if_pos h]

end Verif
