import Verif.Model.OverlapAdd
import Mathlib.Data.Nat.Log
import Mathlib.Analysis.SpecialFunctions.Log.Deriv
import Mathlib.Analysis.Complex.ExponentialBounds
import Mathlib.Tactic.Linarith
import Mathlib.Tactic.Positivity
import Mathlib.Tactic.FieldSimp

namespace Verif

theorem nextPowerOfTwo_loop (n : ℕ) (h0 : n ≠ 0) (h : n < 2 ^ 63) :
    nextPowerOfTwo n = .ok (2 ^ Nat.clog 2 n) := by
  unfold nextPowerOfTwo
  rw [cassert_true h, Out.ok_bind, if_neg h0]
  have hc : Nat.clog 2 n ≤ 63 := (Nat.clog_le_iff_le_pow (by norm_num)).2 h.le
  obtain ⟨s, h1, h2⟩ := whileN_inv (σ := ℕ) (cond := fun p => decide (p < n))
    (body := fun p => pure (p * 2 % 2 ^ 64)) (fun k p => p = 2 ^ k) (Nat.clog 2 n)
    (by
      rintro k s hk rfl
      have hlt : 2 ^ k < n := by
        by_contra hh
        have := (Nat.clog_le_iff_le_pow (b := 2) (x := n) (y := k) (by norm_num)).2 (by omega)
        omega
      refine ⟨by simpa using hlt, ?_⟩
      refine ⟨_, rfl, ?_⟩
      rw [← pow_succ]
      apply Nat.mod_eq_of_lt
      exact Nat.pow_lt_pow_right (by norm_num) (by omega))
    (by
      rintro s rfl
      have := Nat.le_pow_clog (b := 2) (by norm_num) n
      simpa using this) 65 0 1 (Nat.zero_le _) (by omega) rfl
  rw [h1, h2]

noncomputable abbrev chunkNewton (F : ℝ) : ℝ → ℝ :=
  newtonStep (fun x => costDX x F 6 1 3) (fun x => costD2X2 x F 6)

/-- closed form of one Newton step -/
theorem chunkNewton_eq {F x : ℝ} (hF : 0 < F) (hx : F < x) :
    chunkNewton F x = x * F * (1 / 3 + Real.log x) / (x - F) := by
  unfold chunkNewton newtonStep costDX costD2X2
  have h1 : x - F ≠ 0 := by linarith
  have h2 : x ≠ 0 := by linarith
  have h3 : F - x ≠ 0 := by linarith
  have h4 : F / x - 1 = -((x - F) / x) := by field_simp; ring
  simp only []
  rw [h4]
  field_simp
  ring

theorem chunkNewton_lower {F x : ℝ} (hF : 1 ≤ F) (hx : F < x) : 2 * F ≤ chunkNewton F x := by
  rw [chunkNewton_eq (by linarith) hx, le_div_iff₀ (by linarith)]
  have hx0 : 0 < x := by linarith
  have hlog : Real.log x = Real.log 2 + Real.log (x / 2) := by
    rw [Real.log_div (by linarith) (by norm_num)]; ring
  have h1 : 1 - (x / 2)⁻¹ ≤ Real.log (x / 2) := Real.one_sub_inv_le_log_of_pos (by linarith)
  have h2 := Real.log_two_gt_d9
  have h3 : x * (x / 2)⁻¹ = 2 := by field_simp
  have h4 : x - 2 + x * Real.log 2 ≤ x * Real.log x := by
    rw [hlog]
    nlinarith
  have h5 : 0 ≤ x * (Real.log x - 5 / 3) + 2 * F := by nlinarith
  nlinarith

theorem chunkNewton_upper {F x B : ℝ} (hF : 1 ≤ F) (hx : 2 * F ≤ x) (hxB : x ≤ B)
    (hB : 2 * F * (1 / 3 + Real.log B) ≤ B) : chunkNewton F x ≤ B := by
  have hx0 : 0 < x := by linarith
  have hl : Real.log x ≤ Real.log B := Real.log_le_log hx0 hxB
  have hlx : 0 ≤ Real.log x := Real.log_nonneg (by linarith)
  refine le_trans ?_ hB
  rw [chunkNewton_eq (by linarith) (by linarith), div_le_iff₀ (by linarith)]
  have : x ≤ 2 * (x - F) := by linarith
  have h2 : x * F * (1 / 3 + Real.log x) ≤ 2 * (x - F) * F * (1 / 3 + Real.log x) := by
    apply mul_le_mul_of_nonneg_right _ (by linarith)
    apply mul_le_mul_of_nonneg_right this (by linarith)
  have h3 : 2 * (x - F) * F * (1 / 3 + Real.log x) ≤ 2 * (x - F) * F * (1 / 3 + Real.log B) := by
    apply mul_le_mul_of_nonneg_left (by linarith)
    have : 0 ≤ x - F := by linarith
    positivity
  linarith

theorem chunkNewton_iter {F B : ℝ} (hF : 1 ≤ F) (h3 : 3 * F ≤ B)
    (hB : 2 * F * (1 / 3 + Real.log B) ≤ B) (iters : ℕ) :
    2 * F ≤ (chunkNewton F)^[iters] (3 * F) ∧ (chunkNewton F)^[iters] (3 * F) ≤ B := by
  induction iters with
  | zero => exact ⟨by simp; linarith, by simpa using h3⟩
  | succ n ih =>
    rw [Function.iterate_succ_apply']
    exact ⟨chunkNewton_lower hF (by linarith [ih.1]), chunkNewton_upper hF ih.1 ih.2 hB⟩

theorem optimalTheoreticalSize_bounds (F : ℕ) (hF : 1 ≤ F) (hF2 : F ≤ 2 ^ 54) (iters : ℕ) :
    2 * (F : ℝ) ≤ optimalTheoreticalSize F iters ∧ optimalTheoreticalSize F iters ≤ 128 * F := by
  have h1 : (1 : ℝ) ≤ F := by exact_mod_cast hF
  apply chunkNewton_iter h1 (by linarith)
  have hl : Real.log (128 * F) ≤ 61 * Real.log 2 := by
    rw [show (61 : ℝ) * Real.log 2 = Real.log (2 ^ 61) by rw [Real.log_pow]; norm_num]
    apply Real.log_le_log (by positivity)
    have : (F : ℝ) ≤ 2 ^ 54 := by exact_mod_cast hF2
    calc (128 : ℝ) * F ≤ 128 * 2 ^ 54 := by linarith
      _ = 2 ^ 61 := by norm_num
  have := Real.log_two_lt_d9
  nlinarith

theorem optimalPracticalSize_ok (iters N F : ℕ) (hF : 1 ≤ F) (hNF : F ≤ N) (hF2 : F ≤ 2 ^ 54) :
    ∃ K, optimalPracticalSize iters N F = .ok K ∧ 2 * F - 1 ≤ K := by
  obtain ⟨h1, h2⟩ := optimalTheoreticalSize_bounds F hF hF2 iters
  unfold optimalPracticalSize
  set t := ⌊optimalTheoreticalSize F iters⌋₊ with ht
  have hlow : 2 * F ≤ t := Nat.le_floor (by push_cast; exact h1)
  have hup : t ≤ 2 ^ 61 := by
    have : (t : ℝ) ≤ 2 ^ 61 := by
      have h3 : (t : ℝ) ≤ optimalTheoreticalSize F iters := Nat.floor_le (by linarith [show (0 : ℝ) ≤ F by positivity])
      have h4 : (F : ℝ) ≤ 2 ^ 54 := by exact_mod_cast hF2
      calc (t : ℝ) ≤ 128 * F := h3.trans h2
        _ ≤ 128 * 2 ^ 54 := by linarith
        _ = 2 ^ 61 := by norm_num
    exact_mod_cast this
  dsimp only
  rw [nextPowerOfTwo_loop t (by omega) (by omega), Out.ok_bind]
  have hle := Nat.le_pow_clog (b := 2) (by norm_num) t
  split
  · exact ⟨_, rfl, by omega⟩
  · refine ⟨_, rfl, ?_⟩
    unfold convLengthFull
    rw [if_neg (by omega)]
    omega

end Verif
