import Verif.Lemmas.PocketMem
import Mathlib.Tactic.IntervalCases

/-! # The butterfly passes compute short Fourier transforms followed by the twiddle factors -/

set_option linter.unusedSimpArgs false
set_option linter.unusedSectionVars false
set_option linter.unusedVariables false
set_option linter.unreachableTactic false
set_option linter.unusedTactic false

namespace Verif.Pocket
open Complex

/-- `exp (∓ 2 π i m / n)` -/
noncomputable def w (fwd : Bool) (n m : ℕ) : ℂ := ⟨cR n m, cI fwd n m⟩

theorem cR_zero (n : ℕ) : cR n 0 = 1 := by simp [cR]

theorem cI_zero (fwd : Bool) (n : ℕ) : cI fwd n 0 = 0 := by simp [cI]

theorem cR_mod (n m : ℕ) : cR n m = cR n (m % n) := by
  rcases Nat.eq_zero_or_pos n with e | hn
  · subst e; simp
  unfold cR
  have hn' : (n : ℝ) ≠ 0 := by positivity
  have : 2 * Real.pi * (m : ℝ) / n = 2 * Real.pi * ((m % n : ℕ) : ℝ) / n + ((m / n : ℕ) : ℝ) * (2 * Real.pi) := by
    conv_lhs => rw [← Nat.mod_add_div m n]
    push_cast
    field_simp
  rw [this, Real.cos_add_nat_mul_two_pi]

theorem cI_mod (fwd : Bool) (n m : ℕ) : cI fwd n m = cI fwd n (m % n) := by
  rcases Nat.eq_zero_or_pos n with e | hn
  · subst e; simp
  unfold cI
  have hn' : (n : ℝ) ≠ 0 := by positivity
  have : 2 * Real.pi * (m : ℝ) / n = 2 * Real.pi * ((m % n : ℕ) : ℝ) / n + ((m / n : ℕ) : ℝ) * (2 * Real.pi) := by
    conv_lhs => rw [← Nat.mod_add_div m n]
    push_cast
    field_simp
  rw [this, Real.sin_add_nat_mul_two_pi]

theorem cR_sub {n m : ℕ} (hn : 0 < n) (h : m ≤ n) : cR n (n - m) = cR n m := by
  unfold cR
  have hn' : (n : ℝ) ≠ 0 := by positivity
  have : 2 * Real.pi * ((n - m : ℕ) : ℝ) / n = 2 * Real.pi - 2 * Real.pi * (m : ℝ) / n := by
    push_cast [h]
    field_simp
  rw [this, Real.cos_two_pi_sub]

theorem cI_sub {fwd : Bool} {n m : ℕ} (hn : 0 < n) (h : m ≤ n) : cI fwd n (n - m) = -cI fwd n m := by
  unfold cI
  have hn' : (n : ℝ) ≠ 0 := by positivity
  have : 2 * Real.pi * ((n - m : ℕ) : ℝ) / n = 2 * Real.pi - 2 * Real.pi * (m : ℝ) / n := by
    push_cast [h]
    field_simp
  rw [this, Real.sin_two_pi_sub]
  ring

/-- Reduction of the exponent to the first half turn. -/
theorem w_fold (fwd : Bool) (n m : ℕ) (hn : 0 < n) :
    w fwd n m = if 2 * (m % n) ≤ n then ⟨cR n (m % n), cI fwd n (m % n)⟩
      else ⟨cR n (n - m % n), -cI fwd n (n - m % n)⟩ := by
  unfold w
  rw [cR_mod n m, cI_mod fwd n m]
  split
  · rfl
  · have := (Nat.mod_lt m hn).le
    rw [cR_sub hn this, cI_sub hn this, neg_neg]

/-- The output of one pass at butterfly `k`, position `i`, output `j`. -/
noncomputable def stage (fwd : Bool) (ip ido : ℕ) (A : ℕ → ℂ) (W : ℕ → ℂ) (i k j : ℕ) : ℂ :=
  if i = 0 ∨ j = 0 then ∑ b ∈ Finset.range ip, A (ix ido ip i b k) * w fwd ip (j * b)
  else smul fwd (∑ b ∈ Finset.range ip, A (ix ido ip i b k) * w fwd ip (j * b)) (W (wx ido (j - 1) i))

/-- The contents of the output buffer of one pass. -/
noncomputable def stageV (fwd : Bool) (ip ido l1 : ℕ) (A : ℕ → ℂ) (W : ℕ → ℂ) (n : ℕ) : ℂ :=
  stage fwd ip ido A W (n % ido) (n / ido % l1) (n / ido / l1)

theorem stageV_ix {fwd : Bool} {ip ido l1 : ℕ} {A W : ℕ → ℂ} {i k j : ℕ} (hi : i < ido) (hk : k < l1) :
    stageV fwd ip ido l1 A W (ix ido l1 i k j) = stage fwd ip ido A W i k j := by
  unfold stageV
  rw [ix_mod hi, ix_div hi]
  have h1 : (k + l1 * j) % l1 = k := by rw [Nat.add_mul_mod_self_left, Nat.mod_eq_of_lt hk]
  have h2 : (k + l1 * j) / l1 = j := by
    rw [Nat.add_mul_div_left _ _ (by omega), Nat.div_eq_of_lt hk, Nat.zero_add]
  rw [h1, h2]

theorem stage_zero {fwd : Bool} {ip ido : ℕ} {A W : ℕ → ℂ} {k j : ℕ} :
    stage fwd ip ido A W 0 k j = ∑ b ∈ Finset.range ip, A (ix ido ip 0 b k) * w fwd ip (j * b) := by
  simp [stage]

theorem stage_pos {fwd : Bool} {ip ido : ℕ} {A W : ℕ → ℂ} {i k j : ℕ} (hi : 0 < i) (hj : 0 < j) :
    stage fwd ip ido A W i k j
      = smul fwd (∑ b ∈ Finset.range ip, A (ix ido ip i b k) * w fwd ip (j * b)) (W (wx ido (j - 1) i)) := by
  unfold stage
  rw [if_neg (by omega)]

theorem stage_first {fwd : Bool} {ip ido : ℕ} {A W : ℕ → ℂ} {i k : ℕ} :
    stage fwd ip ido A W i k 0 = ∑ b ∈ Finset.range ip, A (ix ido ip i b k) * w fwd ip (0 * b) := by
  simp [stage]

theorem passLoop_ok {α : Type} {ip ido l1 : ℕ} {V : ℕ → α} {bodyA : ℕ → List α → Out (List α)}
    {bodyB : ℕ → ℕ → List α → Out (List α)} (hido : 0 < ido)
    (hA : ∀ k, k < l1 → Fills (ido * ip * l1) V (bodyA k) (fun n => ∃ j, j < ip ∧ n = ix ido l1 0 k j))
    (hB : ∀ k i, k < l1 → 0 < i → i < ido →
      Fills (ido * ip * l1) V (bodyB k i) (fun n => ∃ j, j < ip ∧ n = ix ido l1 i k j))
    {ch : List α} (hc : ch.length = ido * ip * l1) :
    passLoop ido l1 bodyA bodyB ch = .ok (tab (ido * ip * l1) V) := by
  have cover : ∀ n, n < ido * ip * l1 → ∃ i k j, i < ido ∧ k < l1 ∧ j < ip ∧ n = ix ido l1 i k j := by
    intro n hn
    have hn' : n < ido * l1 * ip := by rw [Nat.mul_right_comm]; exact hn
    obtain ⟨h1, h2, h3⟩ := ix_cases hn'
    exact ⟨_, _, _, h1, h2, h3, ix_eq.symm⟩
  unfold passLoop
  split
  · rename_i h1
    refine fills_all (fills_forN hA) ?_ hc
    intro n hn
    obtain ⟨i, k, j, hi, hk, hj, e⟩ := cover n hn
    have : i = 0 := by omega
    subst this
    exact ⟨k, hk, j, hj, e⟩
  · refine fills_all (fills_forN (fun k hk => fills_bind (hA k hk)
      (fills_forN (fun i0 hi0 => hB k (i0 + 1) hk (by omega) (by omega))))) ?_ hc
    intro n hn
    obtain ⟨i, k, j, hi, hk, hj, e⟩ := cover n hn
    refine ⟨k, hk, ?_⟩
    rcases Nat.eq_zero_or_pos i with h0 | h0
    · subst h0; exact Or.inl ⟨j, hj, e⟩
    · exact Or.inr ⟨i - 1, by omega, j, hj, by rw [Nat.sub_add_cancel h0]; exact e⟩

/-! ### the short transforms -/

/-- sign of the imaginary parts -/
theorem cI_2 (fwd : Bool) : cI fwd 2 1 = 0 := by simp [cI]
theorem cR_2 : cR 2 1 = -1 := by simp [cR]
theorem cR_41 : cR 4 1 = 0 := by
  unfold cR
  rw [show 2 * Real.pi * ((1 : ℕ) : ℝ) / ((4 : ℕ) : ℝ) = Real.pi / 2 by push_cast; ring]
  exact Real.cos_pi_div_two
theorem cI_41 (fwd : Bool) : cI fwd 4 1 = if fwd then -1 else 1 := by
  unfold cI
  rw [show 2 * Real.pi * ((1 : ℕ) : ℝ) / ((4 : ℕ) : ℝ) = Real.pi / 2 by push_cast; ring,
    Real.sin_pi_div_two, mul_one]
theorem cR_42 : cR 4 2 = -1 := by
  unfold cR
  rw [show 2 * Real.pi * ((2 : ℕ) : ℝ) / ((4 : ℕ) : ℝ) = Real.pi by push_cast; ring]
  exact Real.cos_pi
theorem cI_42 (fwd : Bool) : cI fwd 4 2 = 0 := by
  unfold cI
  rw [show 2 * Real.pi * ((2 : ℕ) : ℝ) / ((4 : ℕ) : ℝ) = Real.pi by push_cast; ring, Real.sin_pi, mul_zero]
theorem hsqt2_eq : hsqt2 = Real.sqrt 2 / 2 := by
  unfold hsqt2
  have h : Real.sqrt 2 * Real.sqrt 2 = 2 := Real.mul_self_sqrt (by norm_num)
  have h0 : Real.sqrt 2 ≠ 0 := by positivity
  field_simp
  linarith
theorem cR_81 : cR 8 1 = hsqt2 := by
  unfold cR
  rw [show 2 * Real.pi * ((1 : ℕ) : ℝ) / ((8 : ℕ) : ℝ) = Real.pi / 4 by push_cast; ring, Real.cos_pi_div_four,
    hsqt2_eq]
theorem cI_81 (fwd : Bool) : cI fwd 8 1 = (if fwd then -1 else 1) * hsqt2 := by
  unfold cI
  rw [show 2 * Real.pi * ((1 : ℕ) : ℝ) / ((8 : ℕ) : ℝ) = Real.pi / 4 by push_cast; ring, Real.sin_pi_div_four,
    hsqt2_eq]
theorem cR_82 : cR 8 2 = 0 := by
  unfold cR
  rw [show 2 * Real.pi * ((2 : ℕ) : ℝ) / ((8 : ℕ) : ℝ) = Real.pi / 2 by push_cast; ring]
  exact Real.cos_pi_div_two
theorem cI_82 (fwd : Bool) : cI fwd 8 2 = if fwd then -1 else 1 := by
  unfold cI
  rw [show 2 * Real.pi * ((2 : ℕ) : ℝ) / ((8 : ℕ) : ℝ) = Real.pi / 2 by push_cast; ring,
    Real.sin_pi_div_two, mul_one]
theorem cR_83 : cR 8 3 = -hsqt2 := by
  unfold cR
  rw [show 2 * Real.pi * ((3 : ℕ) : ℝ) / ((8 : ℕ) : ℝ) = Real.pi - Real.pi / 4 by push_cast; ring,
    Real.cos_pi_sub, Real.cos_pi_div_four, hsqt2_eq]
theorem cI_83 (fwd : Bool) : cI fwd 8 3 = (if fwd then -1 else 1) * hsqt2 := by
  unfold cI
  rw [show 2 * Real.pi * ((3 : ℕ) : ℝ) / ((8 : ℕ) : ℝ) = Real.pi - Real.pi / 4 by push_cast; ring,
    Real.sin_pi_sub, Real.sin_pi_div_four, hsqt2_eq]
theorem cR_84 : cR 8 4 = -1 := by
  unfold cR
  rw [show 2 * Real.pi * ((4 : ℕ) : ℝ) / ((8 : ℕ) : ℝ) = Real.pi by push_cast; ring]
  exact Real.cos_pi
theorem cI_84 (fwd : Bool) : cI fwd 8 4 = 0 := by
  unfold cI
  rw [show 2 * Real.pi * ((4 : ℕ) : ℝ) / ((8 : ℕ) : ℝ) = Real.pi by push_cast; ring, Real.sin_pi, mul_zero]

/-- Unrolls a short sum and reduces all the exponents. -/
macro "unroll" n:num : tactic => `(tactic| (
  simp only [Finset.sum_range_succ, Finset.sum_range_zero, zero_add, w_fold _ $n _ (by norm_num)]
  norm_num only [Nat.reduceMul, Nat.reduceMod, Nat.reduceSub, Nat.reduceLeDiff, if_true, if_false]
  simp only [cR_zero, cI_zero, neg_zero]))

section bf
variable (fwd : Bool) (x : ℕ → ℂ)

theorem bf2_0 : x 0 + x 1 = ∑ b ∈ Finset.range 2, x b * w fwd 2 (0 * b) := by
  unroll 2
  apply Complex.ext <;> simp

theorem bf2_1 : x 0 - x 1 = ∑ b ∈ Finset.range 2, x b * w fwd 2 (1 * b) := by
  unroll 2
  rw [cR_2, cI_2]
  apply Complex.ext <;> simp <;> ring

theorem bf3_0 : x 0 + (x 1 + x 2) = ∑ b ∈ Finset.range 3, x b * w fwd 3 (0 * b) := by
  unroll 3
  apply Complex.ext <;> simp <;> ring

theorem bf3_1 : (part3 (x 0) (x 1 + x 2) (x 1 - x 2) (cR 3 1) (cI fwd 3 1)).1 = ∑ b ∈ Finset.range 3, x b * w fwd 3 (1 * b) := by
  unroll 3
  unfold part3
  apply Complex.ext <;> simp <;> ring

theorem bf3_2 : (part3 (x 0) (x 1 + x 2) (x 1 - x 2) (cR 3 1) (cI fwd 3 1)).2 = ∑ b ∈ Finset.range 3, x b * w fwd 3 (2 * b) := by
  unroll 3
  unfold part3
  apply Complex.ext <;> simp <;> ring

theorem bf4_0 : (x 0 + x 2) + (x 1 + x 3) = ∑ b ∈ Finset.range 4, x b * w fwd 4 (0 * b) := by
  unroll 4
  cases fwd <;> apply Complex.ext <;> simp <;> ring

theorem bf4_1 : (x 0 - x 2) + rotx90 fwd (x 1 - x 3) = ∑ b ∈ Finset.range 4, x b * w fwd 4 (1 * b) := by
  unroll 4
  simp only [cR_41, cI_41, cR_42, cI_42, rotx90]
  cases fwd <;> apply Complex.ext <;> simp <;> ring

theorem bf4_2 : (x 0 + x 2) - (x 1 + x 3) = ∑ b ∈ Finset.range 4, x b * w fwd 4 (2 * b) := by
  unroll 4
  simp only [cR_41, cI_41, cR_42, cI_42, rotx90]
  cases fwd <;> apply Complex.ext <;> simp <;> ring

theorem bf4_3 : (x 0 - x 2) - rotx90 fwd (x 1 - x 3) = ∑ b ∈ Finset.range 4, x b * w fwd 4 (3 * b) := by
  unroll 4
  simp only [cR_41, cI_41, cR_42, cI_42, rotx90]
  cases fwd <;> apply Complex.ext <;> simp <;> ring

theorem bf5_0 : (⟨(x 0).re + (x 1 + x 4).re + (x 2 + x 3).re, (x 0).im + (x 1 + x 4).im + (x 2 + x 3).im⟩ : ℂ) = ∑ b ∈ Finset.range 5, x b * w fwd 5 (0 * b) := by
  unroll 5
  apply Complex.ext <;> simp <;> ring

theorem bf5_1 : (part5 (x 0) (x 1 + x 4) (x 2 + x 3) (x 2 - x 3) (x 1 - x 4) (cR 5 1) (cR 5 2) (cI fwd 5 1) (cI fwd 5 2)).1 = ∑ b ∈ Finset.range 5, x b * w fwd 5 (1 * b) := by
  unroll 5
  unfold part5
  apply Complex.ext <;> simp <;> ring

theorem bf5_4 : (part5 (x 0) (x 1 + x 4) (x 2 + x 3) (x 2 - x 3) (x 1 - x 4) (cR 5 1) (cR 5 2) (cI fwd 5 1) (cI fwd 5 2)).2 = ∑ b ∈ Finset.range 5, x b * w fwd 5 (4 * b) := by
  unroll 5
  unfold part5
  apply Complex.ext <;> simp <;> ring

theorem bf5_2 : (part5 (x 0) (x 1 + x 4) (x 2 + x 3) (x 2 - x 3) (x 1 - x 4) (cR 5 2) (cR 5 1) (cI fwd 5 2) (-cI fwd 5 1)).1 = ∑ b ∈ Finset.range 5, x b * w fwd 5 (2 * b) := by
  unroll 5
  unfold part5
  apply Complex.ext <;> simp <;> ring

theorem bf5_3 : (part5 (x 0) (x 1 + x 4) (x 2 + x 3) (x 2 - x 3) (x 1 - x 4) (cR 5 2) (cR 5 1) (cI fwd 5 2) (-cI fwd 5 1)).2 = ∑ b ∈ Finset.range 5, x b * w fwd 5 (3 * b) := by
  unroll 5
  unfold part5
  apply Complex.ext <;> simp <;> ring

theorem bf7_0 : (⟨(x 0).re + (x 1 + x 6).re + (x 2 + x 5).re + (x 3 + x 4).re, (x 0).im + (x 1 + x 6).im + (x 2 + x 5).im + (x 3 + x 4).im⟩ : ℂ) = ∑ b ∈ Finset.range 7, x b * w fwd 7 (0 * b) := by
  unroll 7
  apply Complex.ext <;> simp <;> ring

theorem bf7_1 : (part7 (x 0) (x 1 + x 6) (x 2 + x 5) (x 3 + x 4) (x 3 - x 4) (x 2 - x 5) (x 1 - x 6) (cR 7 1) (cR 7 2) (cR 7 3) (cI fwd 7 1) (cI fwd 7 2) (cI fwd 7 3)).1 = ∑ b ∈ Finset.range 7, x b * w fwd 7 (1 * b) := by
  unroll 7
  unfold part7
  apply Complex.ext <;> simp <;> ring

theorem bf7_6 : (part7 (x 0) (x 1 + x 6) (x 2 + x 5) (x 3 + x 4) (x 3 - x 4) (x 2 - x 5) (x 1 - x 6) (cR 7 1) (cR 7 2) (cR 7 3) (cI fwd 7 1) (cI fwd 7 2) (cI fwd 7 3)).2 = ∑ b ∈ Finset.range 7, x b * w fwd 7 (6 * b) := by
  unroll 7
  unfold part7
  apply Complex.ext <;> simp <;> ring

theorem bf7_2 : (part7 (x 0) (x 1 + x 6) (x 2 + x 5) (x 3 + x 4) (x 3 - x 4) (x 2 - x 5) (x 1 - x 6) (cR 7 2) (cR 7 3) (cR 7 1) (cI fwd 7 2) (-cI fwd 7 3) (-cI fwd 7 1)).1 = ∑ b ∈ Finset.range 7, x b * w fwd 7 (2 * b) := by
  unroll 7
  unfold part7
  apply Complex.ext <;> simp <;> ring

theorem bf7_5 : (part7 (x 0) (x 1 + x 6) (x 2 + x 5) (x 3 + x 4) (x 3 - x 4) (x 2 - x 5) (x 1 - x 6) (cR 7 2) (cR 7 3) (cR 7 1) (cI fwd 7 2) (-cI fwd 7 3) (-cI fwd 7 1)).2 = ∑ b ∈ Finset.range 7, x b * w fwd 7 (5 * b) := by
  unroll 7
  unfold part7
  apply Complex.ext <;> simp <;> ring

theorem bf7_3 : (part7 (x 0) (x 1 + x 6) (x 2 + x 5) (x 3 + x 4) (x 3 - x 4) (x 2 - x 5) (x 1 - x 6) (cR 7 3) (cR 7 1) (cR 7 2) (cI fwd 7 3) (-cI fwd 7 1) (cI fwd 7 2)).1 = ∑ b ∈ Finset.range 7, x b * w fwd 7 (3 * b) := by
  unroll 7
  unfold part7
  apply Complex.ext <;> simp <;> ring

theorem bf7_4 : (part7 (x 0) (x 1 + x 6) (x 2 + x 5) (x 3 + x 4) (x 3 - x 4) (x 2 - x 5) (x 1 - x 6) (cR 7 3) (cR 7 1) (cR 7 2) (cI fwd 7 3) (-cI fwd 7 1) (cI fwd 7 2)).2 = ∑ b ∈ Finset.range 7, x b * w fwd 7 (4 * b) := by
  unroll 7
  unfold part7
  apply Complex.ext <;> simp <;> ring

theorem bf8_0 : ((x 0 + x 4) + (x 2 + x 6)) + ((x 1 + x 5) + (x 3 + x 7)) = ∑ b ∈ Finset.range 8, x b * w fwd 8 (0 * b) := by
  unroll 8
  cases fwd <;> apply Complex.ext <;> simp <;> ring

theorem bf8_4 : ((x 0 + x 4) + (x 2 + x 6)) - ((x 1 + x 5) + (x 3 + x 7)) = ∑ b ∈ Finset.range 8, x b * w fwd 8 (4 * b) := by
  unroll 8
  simp only [cR_81, cI_81, cR_82, cI_82, cR_83, cI_83, cR_84, cI_84, rotx90, rotx45, rotx135]
  cases fwd <;> apply Complex.ext <;> simp <;> ring

theorem bf8_2 : ((x 0 + x 4) - (x 2 + x 6)) + (rotx90 fwd ((x 1 + x 5) - (x 3 + x 7))) = ∑ b ∈ Finset.range 8, x b * w fwd 8 (2 * b) := by
  unroll 8
  simp only [cR_81, cI_81, cR_82, cI_82, cR_83, cI_83, cR_84, cI_84, rotx90, rotx45, rotx135]
  cases fwd <;> apply Complex.ext <;> simp <;> ring

theorem bf8_6 : ((x 0 + x 4) - (x 2 + x 6)) - (rotx90 fwd ((x 1 + x 5) - (x 3 + x 7))) = ∑ b ∈ Finset.range 8, x b * w fwd 8 (6 * b) := by
  unroll 8
  simp only [cR_81, cI_81, cR_82, cI_82, cR_83, cI_83, cR_84, cI_84, rotx90, rotx45, rotx135]
  cases fwd <;> apply Complex.ext <;> simp <;> ring

theorem bf8_1 : ((x 0 - x 4) + (rotx90 fwd (x 2 - x 6))) + (rotx45 fwd ((x 1 - x 5) + rotx90 fwd (x 3 - x 7))) = ∑ b ∈ Finset.range 8, x b * w fwd 8 (1 * b) := by
  unroll 8
  simp only [cR_81, cI_81, cR_82, cI_82, cR_83, cI_83, cR_84, cI_84, rotx90, rotx45, rotx135]
  cases fwd <;> apply Complex.ext <;> simp <;> ring

theorem bf8_5 : ((x 0 - x 4) + (rotx90 fwd (x 2 - x 6))) - (rotx45 fwd ((x 1 - x 5) + rotx90 fwd (x 3 - x 7))) = ∑ b ∈ Finset.range 8, x b * w fwd 8 (5 * b) := by
  unroll 8
  simp only [cR_81, cI_81, cR_82, cI_82, cR_83, cI_83, cR_84, cI_84, rotx90, rotx45, rotx135]
  cases fwd <;> apply Complex.ext <;> simp <;> ring

theorem bf8_3 : ((x 0 - x 4) - (rotx90 fwd (x 2 - x 6))) + (rotx135 fwd ((x 1 - x 5) - rotx90 fwd (x 3 - x 7))) = ∑ b ∈ Finset.range 8, x b * w fwd 8 (3 * b) := by
  unroll 8
  simp only [cR_81, cI_81, cR_82, cI_82, cR_83, cI_83, cR_84, cI_84, rotx90, rotx45, rotx135]
  cases fwd <;> apply Complex.ext <;> simp <;> ring

theorem bf8_7 : ((x 0 - x 4) - (rotx90 fwd (x 2 - x 6))) - (rotx135 fwd ((x 1 - x 5) - rotx90 fwd (x 3 - x 7))) = ∑ b ∈ Finset.range 8, x b * w fwd 8 (7 * b) := by
  unroll 8
  simp only [cR_81, cI_81, cR_82, cI_82, cR_83, cI_83, cR_84, cI_84, rotx90, rotx45, rotx135]
  cases fwd <;> apply Complex.ext <;> simp <;> ring

theorem bf11_0 : (⟨(x 0).re + (x 1 + x 10).re + (x 2 + x 9).re + (x 3 + x 8).re + (x 4 + x 7).re + (x 5 + x 6).re, (x 0).im + (x 1 + x 10).im + (x 2 + x 9).im + (x 3 + x 8).im + (x 4 + x 7).im + (x 5 + x 6).im⟩ : ℂ) = ∑ b ∈ Finset.range 11, x b * w fwd 11 (0 * b) := by
  unroll 11
  apply Complex.ext <;> simp <;> ring

theorem bf11_1 : (part11 (x 0) (x 1 + x 10) (x 2 + x 9) (x 3 + x 8) (x 4 + x 7) (x 5 + x 6) (x 5 - x 6) (x 4 - x 7) (x 3 - x 8) (x 2 - x 9) (x 1 - x 10) (cR 11 1) (cR 11 2) (cR 11 3) (cR 11 4) (cR 11 5) (cI fwd 11 1) (cI fwd 11 2) (cI fwd 11 3) (cI fwd 11 4) (cI fwd 11 5)).1 = ∑ b ∈ Finset.range 11, x b * w fwd 11 (1 * b) := by
  unroll 11
  unfold part11
  apply Complex.ext <;> simp <;> ring

theorem bf11_10 : (part11 (x 0) (x 1 + x 10) (x 2 + x 9) (x 3 + x 8) (x 4 + x 7) (x 5 + x 6) (x 5 - x 6) (x 4 - x 7) (x 3 - x 8) (x 2 - x 9) (x 1 - x 10) (cR 11 1) (cR 11 2) (cR 11 3) (cR 11 4) (cR 11 5) (cI fwd 11 1) (cI fwd 11 2) (cI fwd 11 3) (cI fwd 11 4) (cI fwd 11 5)).2 = ∑ b ∈ Finset.range 11, x b * w fwd 11 (10 * b) := by
  unroll 11
  unfold part11
  apply Complex.ext <;> simp <;> ring

theorem bf11_2 : (part11 (x 0) (x 1 + x 10) (x 2 + x 9) (x 3 + x 8) (x 4 + x 7) (x 5 + x 6) (x 5 - x 6) (x 4 - x 7) (x 3 - x 8) (x 2 - x 9) (x 1 - x 10) (cR 11 2) (cR 11 4) (cR 11 5) (cR 11 3) (cR 11 1) (cI fwd 11 2) (cI fwd 11 4) (-cI fwd 11 5) (-cI fwd 11 3) (-cI fwd 11 1)).1 = ∑ b ∈ Finset.range 11, x b * w fwd 11 (2 * b) := by
  unroll 11
  unfold part11
  apply Complex.ext <;> simp <;> ring

theorem bf11_9 : (part11 (x 0) (x 1 + x 10) (x 2 + x 9) (x 3 + x 8) (x 4 + x 7) (x 5 + x 6) (x 5 - x 6) (x 4 - x 7) (x 3 - x 8) (x 2 - x 9) (x 1 - x 10) (cR 11 2) (cR 11 4) (cR 11 5) (cR 11 3) (cR 11 1) (cI fwd 11 2) (cI fwd 11 4) (-cI fwd 11 5) (-cI fwd 11 3) (-cI fwd 11 1)).2 = ∑ b ∈ Finset.range 11, x b * w fwd 11 (9 * b) := by
  unroll 11
  unfold part11
  apply Complex.ext <;> simp <;> ring

theorem bf11_3 : (part11 (x 0) (x 1 + x 10) (x 2 + x 9) (x 3 + x 8) (x 4 + x 7) (x 5 + x 6) (x 5 - x 6) (x 4 - x 7) (x 3 - x 8) (x 2 - x 9) (x 1 - x 10) (cR 11 3) (cR 11 5) (cR 11 2) (cR 11 1) (cR 11 4) (cI fwd 11 3) (-cI fwd 11 5) (-cI fwd 11 2) (cI fwd 11 1) (cI fwd 11 4)).1 = ∑ b ∈ Finset.range 11, x b * w fwd 11 (3 * b) := by
  unroll 11
  unfold part11
  apply Complex.ext <;> simp <;> ring

theorem bf11_8 : (part11 (x 0) (x 1 + x 10) (x 2 + x 9) (x 3 + x 8) (x 4 + x 7) (x 5 + x 6) (x 5 - x 6) (x 4 - x 7) (x 3 - x 8) (x 2 - x 9) (x 1 - x 10) (cR 11 3) (cR 11 5) (cR 11 2) (cR 11 1) (cR 11 4) (cI fwd 11 3) (-cI fwd 11 5) (-cI fwd 11 2) (cI fwd 11 1) (cI fwd 11 4)).2 = ∑ b ∈ Finset.range 11, x b * w fwd 11 (8 * b) := by
  unroll 11
  unfold part11
  apply Complex.ext <;> simp <;> ring

theorem bf11_4 : (part11 (x 0) (x 1 + x 10) (x 2 + x 9) (x 3 + x 8) (x 4 + x 7) (x 5 + x 6) (x 5 - x 6) (x 4 - x 7) (x 3 - x 8) (x 2 - x 9) (x 1 - x 10) (cR 11 4) (cR 11 3) (cR 11 1) (cR 11 5) (cR 11 2) (cI fwd 11 4) (-cI fwd 11 3) (cI fwd 11 1) (cI fwd 11 5) (-cI fwd 11 2)).1 = ∑ b ∈ Finset.range 11, x b * w fwd 11 (4 * b) := by
  unroll 11
  unfold part11
  apply Complex.ext <;> simp <;> ring

theorem bf11_7 : (part11 (x 0) (x 1 + x 10) (x 2 + x 9) (x 3 + x 8) (x 4 + x 7) (x 5 + x 6) (x 5 - x 6) (x 4 - x 7) (x 3 - x 8) (x 2 - x 9) (x 1 - x 10) (cR 11 4) (cR 11 3) (cR 11 1) (cR 11 5) (cR 11 2) (cI fwd 11 4) (-cI fwd 11 3) (cI fwd 11 1) (cI fwd 11 5) (-cI fwd 11 2)).2 = ∑ b ∈ Finset.range 11, x b * w fwd 11 (7 * b) := by
  unroll 11
  unfold part11
  apply Complex.ext <;> simp <;> ring

theorem bf11_5 : (part11 (x 0) (x 1 + x 10) (x 2 + x 9) (x 3 + x 8) (x 4 + x 7) (x 5 + x 6) (x 5 - x 6) (x 4 - x 7) (x 3 - x 8) (x 2 - x 9) (x 1 - x 10) (cR 11 5) (cR 11 1) (cR 11 4) (cR 11 2) (cR 11 3) (cI fwd 11 5) (-cI fwd 11 1) (cI fwd 11 4) (-cI fwd 11 2) (cI fwd 11 3)).1 = ∑ b ∈ Finset.range 11, x b * w fwd 11 (5 * b) := by
  unroll 11
  unfold part11
  apply Complex.ext <;> simp <;> ring

theorem bf11_6 : (part11 (x 0) (x 1 + x 10) (x 2 + x 9) (x 3 + x 8) (x 4 + x 7) (x 5 + x 6) (x 5 - x 6) (x 4 - x 7) (x 3 - x 8) (x 2 - x 9) (x 1 - x 10) (cR 11 5) (cR 11 1) (cR 11 4) (cR 11 2) (cR 11 3) (cI fwd 11 5) (-cI fwd 11 1) (cI fwd 11 4) (-cI fwd 11 2) (cI fwd 11 3)).2 = ∑ b ∈ Finset.range 11, x b * w fwd 11 (6 * b) := by
  unroll 11
  unfold part11
  apply Complex.ext <;> simp <;> ring

end bf

/-! ### the passes -/

/-- Removes the (in-range) reads of a pass body. -/
macro "reads" : tactic => `(tactic|
  simp (disch := first
    | exact ix_lt (by omega) (by omega) (by omega)
    | exact wx_lt (by omega) (by omega) (by omega)) only [ld_tab, Out.ok_bind])

/-- Splits a pass body into its stores. -/
macro "stores" : tactic => `(tactic| repeat' (first | apply fills_st_bind | apply fills_st))

theorem pass2_ok (fwd : Bool) {ido l1 : ℕ} {A W : ℕ → ℂ} {ch : List ℂ} (hido : 0 < ido)
    (hc : ch.length = ido * 2 * l1) :
    pass2 fwd ido l1 (tab (ido * 2 * l1) A) ch (tab (1 * (ido - 1)) W)
      = .ok (tab (ido * 2 * l1) (stageV fwd 2 ido l1 A W)) := by
  unfold pass2
  refine passLoop_ok hido ?_ ?_ hc
  · intro k hk
    reads
    apply Fills.mono
    · stores
      · rw [Nat.mul_right_comm]; exact ix_lt (by omega) (by omega) (by omega)
      · rw [stageV_ix (by omega) hk, stage_zero]
        exact bf2_0 fwd (fun b => A (ix ido 2 0 b k))
      · rw [Nat.mul_right_comm]; exact ix_lt (by omega) (by omega) (by omega)
      · rw [stageV_ix (by omega) hk, stage_zero]
        exact bf2_1 fwd (fun b => A (ix ido 2 0 b k))
    · rintro n - ⟨j, hj, rfl⟩
      interval_cases j <;> simp
  · intro k i hk hi0 hi
    reads
    apply Fills.mono
    · stores
      · rw [Nat.mul_right_comm]; exact ix_lt (by omega) (by omega) (by omega)
      · rw [stageV_ix hi hk, stage_first]
        exact bf2_0 fwd (fun b => A (ix ido 2 i b k))
      · rw [Nat.mul_right_comm]; exact ix_lt (by omega) (by omega) (by omega)
      · rw [stageV_ix hi hk, stage_pos hi0 (by omega)]
        exact congrArg (fun z => smul fwd z (W (wx ido 0 i))) (bf2_1 fwd (fun b => A (ix ido 2 i b k)))
    · rintro n - ⟨j, hj, rfl⟩
      interval_cases j <;> simp

theorem pass3_ok (fwd : Bool) {ido l1 : ℕ} {A W : ℕ → ℂ} {ch : List ℂ} (hido : 0 < ido)
    (hc : ch.length = ido * 3 * l1) :
    pass3 fwd ido l1 (tab (ido * 3 * l1) A) ch (tab (2 * (ido - 1)) W)
      = .ok (tab (ido * 3 * l1) (stageV fwd 3 ido l1 A W)) := by
  unfold pass3
  refine passLoop_ok hido ?_ ?_ hc
  · intro k hk
    reads
    apply Fills.mono
    · stores
      · rw [Nat.mul_right_comm]; exact ix_lt (by omega) (by omega) (by omega)
      · rw [stageV_ix (by omega) hk, stage_zero]
        exact bf3_0 fwd (fun b => A (ix ido 3 0 b k))
      · rw [Nat.mul_right_comm]; exact ix_lt (by omega) (by omega) (by omega)
      · rw [stageV_ix (by omega) hk, stage_zero]
        exact bf3_1 fwd (fun b => A (ix ido 3 0 b k))
      · rw [Nat.mul_right_comm]; exact ix_lt (by omega) (by omega) (by omega)
      · rw [stageV_ix (by omega) hk, stage_zero]
        exact bf3_2 fwd (fun b => A (ix ido 3 0 b k))
    · rintro n - ⟨j, hj, rfl⟩
      interval_cases j <;> simp
  · intro k i hk hi0 hi
    reads
    apply Fills.mono
    · stores
      · rw [Nat.mul_right_comm]; exact ix_lt (by omega) (by omega) (by omega)
      · rw [stageV_ix hi hk, stage_first]
        exact bf3_0 fwd (fun b => A (ix ido 3 i b k))
      · rw [Nat.mul_right_comm]; exact ix_lt (by omega) (by omega) (by omega)
      · rw [stageV_ix hi hk, stage_pos hi0 (by omega)]
        exact congrArg (fun z => smul fwd z (W (wx ido 0 i))) (bf3_1 fwd (fun b => A (ix ido 3 i b k)))
      · rw [Nat.mul_right_comm]; exact ix_lt (by omega) (by omega) (by omega)
      · rw [stageV_ix hi hk, stage_pos hi0 (by omega)]
        exact congrArg (fun z => smul fwd z (W (wx ido 1 i))) (bf3_2 fwd (fun b => A (ix ido 3 i b k)))
    · rintro n - ⟨j, hj, rfl⟩
      interval_cases j <;> simp

theorem pass4_ok (fwd : Bool) {ido l1 : ℕ} {A W : ℕ → ℂ} {ch : List ℂ} (hido : 0 < ido)
    (hc : ch.length = ido * 4 * l1) :
    pass4 fwd ido l1 (tab (ido * 4 * l1) A) ch (tab (3 * (ido - 1)) W)
      = .ok (tab (ido * 4 * l1) (stageV fwd 4 ido l1 A W)) := by
  unfold pass4
  refine passLoop_ok hido ?_ ?_ hc
  · intro k hk
    reads
    apply Fills.mono
    · stores
      · rw [Nat.mul_right_comm]; exact ix_lt (by omega) (by omega) (by omega)
      · rw [stageV_ix (by omega) hk, stage_zero]
        exact bf4_0 fwd (fun b => A (ix ido 4 0 b k))
      · rw [Nat.mul_right_comm]; exact ix_lt (by omega) (by omega) (by omega)
      · rw [stageV_ix (by omega) hk, stage_zero]
        exact bf4_2 fwd (fun b => A (ix ido 4 0 b k))
      · rw [Nat.mul_right_comm]; exact ix_lt (by omega) (by omega) (by omega)
      · rw [stageV_ix (by omega) hk, stage_zero]
        exact bf4_1 fwd (fun b => A (ix ido 4 0 b k))
      · rw [Nat.mul_right_comm]; exact ix_lt (by omega) (by omega) (by omega)
      · rw [stageV_ix (by omega) hk, stage_zero]
        exact bf4_3 fwd (fun b => A (ix ido 4 0 b k))
    · rintro n - ⟨j, hj, rfl⟩
      interval_cases j <;> simp
  · intro k i hk hi0 hi
    reads
    apply Fills.mono
    · stores
      · rw [Nat.mul_right_comm]; exact ix_lt (by omega) (by omega) (by omega)
      · rw [stageV_ix hi hk, stage_first]
        exact bf4_0 fwd (fun b => A (ix ido 4 i b k))
      · rw [Nat.mul_right_comm]; exact ix_lt (by omega) (by omega) (by omega)
      · rw [stageV_ix hi hk, stage_pos hi0 (by omega)]
        exact congrArg (fun z => smul fwd z (W (wx ido 0 i))) (bf4_1 fwd (fun b => A (ix ido 4 i b k)))
      · rw [Nat.mul_right_comm]; exact ix_lt (by omega) (by omega) (by omega)
      · rw [stageV_ix hi hk, stage_pos hi0 (by omega)]
        exact congrArg (fun z => smul fwd z (W (wx ido 1 i))) (bf4_2 fwd (fun b => A (ix ido 4 i b k)))
      · rw [Nat.mul_right_comm]; exact ix_lt (by omega) (by omega) (by omega)
      · rw [stageV_ix hi hk, stage_pos hi0 (by omega)]
        exact congrArg (fun z => smul fwd z (W (wx ido 2 i))) (bf4_3 fwd (fun b => A (ix ido 4 i b k)))
    · rintro n - ⟨j, hj, rfl⟩
      interval_cases j <;> simp

theorem pass5_ok (fwd : Bool) {ido l1 : ℕ} {A W : ℕ → ℂ} {ch : List ℂ} (hido : 0 < ido)
    (hc : ch.length = ido * 5 * l1) :
    pass5 fwd ido l1 (tab (ido * 5 * l1) A) ch (tab (4 * (ido - 1)) W)
      = .ok (tab (ido * 5 * l1) (stageV fwd 5 ido l1 A W)) := by
  unfold pass5
  refine passLoop_ok hido ?_ ?_ hc
  · intro k hk
    reads
    apply Fills.mono
    · stores
      · rw [Nat.mul_right_comm]; exact ix_lt (by omega) (by omega) (by omega)
      · rw [stageV_ix (by omega) hk, stage_zero]
        exact bf5_0 fwd (fun b => A (ix ido 5 0 b k))
      · rw [Nat.mul_right_comm]; exact ix_lt (by omega) (by omega) (by omega)
      · rw [stageV_ix (by omega) hk, stage_zero]
        exact bf5_1 fwd (fun b => A (ix ido 5 0 b k))
      · rw [Nat.mul_right_comm]; exact ix_lt (by omega) (by omega) (by omega)
      · rw [stageV_ix (by omega) hk, stage_zero]
        exact bf5_4 fwd (fun b => A (ix ido 5 0 b k))
      · rw [Nat.mul_right_comm]; exact ix_lt (by omega) (by omega) (by omega)
      · rw [stageV_ix (by omega) hk, stage_zero]
        exact bf5_2 fwd (fun b => A (ix ido 5 0 b k))
      · rw [Nat.mul_right_comm]; exact ix_lt (by omega) (by omega) (by omega)
      · rw [stageV_ix (by omega) hk, stage_zero]
        exact bf5_3 fwd (fun b => A (ix ido 5 0 b k))
    · rintro n - ⟨j, hj, rfl⟩
      interval_cases j <;> simp
  · intro k i hk hi0 hi
    reads
    apply Fills.mono
    · stores
      · rw [Nat.mul_right_comm]; exact ix_lt (by omega) (by omega) (by omega)
      · rw [stageV_ix hi hk, stage_first]
        exact bf5_0 fwd (fun b => A (ix ido 5 i b k))
      · rw [Nat.mul_right_comm]; exact ix_lt (by omega) (by omega) (by omega)
      · rw [stageV_ix hi hk, stage_pos hi0 (by omega)]
        exact congrArg (fun z => smul fwd z (W (wx ido 0 i))) (bf5_1 fwd (fun b => A (ix ido 5 i b k)))
      · rw [Nat.mul_right_comm]; exact ix_lt (by omega) (by omega) (by omega)
      · rw [stageV_ix hi hk, stage_pos hi0 (by omega)]
        exact congrArg (fun z => smul fwd z (W (wx ido 3 i))) (bf5_4 fwd (fun b => A (ix ido 5 i b k)))
      · rw [Nat.mul_right_comm]; exact ix_lt (by omega) (by omega) (by omega)
      · rw [stageV_ix hi hk, stage_pos hi0 (by omega)]
        exact congrArg (fun z => smul fwd z (W (wx ido 1 i))) (bf5_2 fwd (fun b => A (ix ido 5 i b k)))
      · rw [Nat.mul_right_comm]; exact ix_lt (by omega) (by omega) (by omega)
      · rw [stageV_ix hi hk, stage_pos hi0 (by omega)]
        exact congrArg (fun z => smul fwd z (W (wx ido 2 i))) (bf5_3 fwd (fun b => A (ix ido 5 i b k)))
    · rintro n - ⟨j, hj, rfl⟩
      interval_cases j <;> simp

theorem pass7_ok (fwd : Bool) {ido l1 : ℕ} {A W : ℕ → ℂ} {ch : List ℂ} (hido : 0 < ido)
    (hc : ch.length = ido * 7 * l1) :
    pass7 fwd ido l1 (tab (ido * 7 * l1) A) ch (tab (6 * (ido - 1)) W)
      = .ok (tab (ido * 7 * l1) (stageV fwd 7 ido l1 A W)) := by
  unfold pass7
  refine passLoop_ok hido ?_ ?_ hc
  · intro k hk
    reads
    apply Fills.mono
    · stores
      · rw [Nat.mul_right_comm]; exact ix_lt (by omega) (by omega) (by omega)
      · rw [stageV_ix (by omega) hk, stage_zero]
        exact bf7_0 fwd (fun b => A (ix ido 7 0 b k))
      · rw [Nat.mul_right_comm]; exact ix_lt (by omega) (by omega) (by omega)
      · rw [stageV_ix (by omega) hk, stage_zero]
        exact bf7_1 fwd (fun b => A (ix ido 7 0 b k))
      · rw [Nat.mul_right_comm]; exact ix_lt (by omega) (by omega) (by omega)
      · rw [stageV_ix (by omega) hk, stage_zero]
        exact bf7_6 fwd (fun b => A (ix ido 7 0 b k))
      · rw [Nat.mul_right_comm]; exact ix_lt (by omega) (by omega) (by omega)
      · rw [stageV_ix (by omega) hk, stage_zero]
        exact bf7_2 fwd (fun b => A (ix ido 7 0 b k))
      · rw [Nat.mul_right_comm]; exact ix_lt (by omega) (by omega) (by omega)
      · rw [stageV_ix (by omega) hk, stage_zero]
        exact bf7_5 fwd (fun b => A (ix ido 7 0 b k))
      · rw [Nat.mul_right_comm]; exact ix_lt (by omega) (by omega) (by omega)
      · rw [stageV_ix (by omega) hk, stage_zero]
        exact bf7_3 fwd (fun b => A (ix ido 7 0 b k))
      · rw [Nat.mul_right_comm]; exact ix_lt (by omega) (by omega) (by omega)
      · rw [stageV_ix (by omega) hk, stage_zero]
        exact bf7_4 fwd (fun b => A (ix ido 7 0 b k))
    · rintro n - ⟨j, hj, rfl⟩
      interval_cases j <;> simp
  · intro k i hk hi0 hi
    reads
    apply Fills.mono
    · stores
      · rw [Nat.mul_right_comm]; exact ix_lt (by omega) (by omega) (by omega)
      · rw [stageV_ix hi hk, stage_first]
        exact bf7_0 fwd (fun b => A (ix ido 7 i b k))
      · rw [Nat.mul_right_comm]; exact ix_lt (by omega) (by omega) (by omega)
      · rw [stageV_ix hi hk, stage_pos hi0 (by omega)]
        exact congrArg (fun z => smul fwd z (W (wx ido 0 i))) (bf7_1 fwd (fun b => A (ix ido 7 i b k)))
      · rw [Nat.mul_right_comm]; exact ix_lt (by omega) (by omega) (by omega)
      · rw [stageV_ix hi hk, stage_pos hi0 (by omega)]
        exact congrArg (fun z => smul fwd z (W (wx ido 5 i))) (bf7_6 fwd (fun b => A (ix ido 7 i b k)))
      · rw [Nat.mul_right_comm]; exact ix_lt (by omega) (by omega) (by omega)
      · rw [stageV_ix hi hk, stage_pos hi0 (by omega)]
        exact congrArg (fun z => smul fwd z (W (wx ido 1 i))) (bf7_2 fwd (fun b => A (ix ido 7 i b k)))
      · rw [Nat.mul_right_comm]; exact ix_lt (by omega) (by omega) (by omega)
      · rw [stageV_ix hi hk, stage_pos hi0 (by omega)]
        exact congrArg (fun z => smul fwd z (W (wx ido 4 i))) (bf7_5 fwd (fun b => A (ix ido 7 i b k)))
      · rw [Nat.mul_right_comm]; exact ix_lt (by omega) (by omega) (by omega)
      · rw [stageV_ix hi hk, stage_pos hi0 (by omega)]
        exact congrArg (fun z => smul fwd z (W (wx ido 2 i))) (bf7_3 fwd (fun b => A (ix ido 7 i b k)))
      · rw [Nat.mul_right_comm]; exact ix_lt (by omega) (by omega) (by omega)
      · rw [stageV_ix hi hk, stage_pos hi0 (by omega)]
        exact congrArg (fun z => smul fwd z (W (wx ido 3 i))) (bf7_4 fwd (fun b => A (ix ido 7 i b k)))
    · rintro n - ⟨j, hj, rfl⟩
      interval_cases j <;> simp

theorem pass8_ok (fwd : Bool) {ido l1 : ℕ} {A W : ℕ → ℂ} {ch : List ℂ} (hido : 0 < ido)
    (hc : ch.length = ido * 8 * l1) :
    pass8 fwd ido l1 (tab (ido * 8 * l1) A) ch (tab (7 * (ido - 1)) W)
      = .ok (tab (ido * 8 * l1) (stageV fwd 8 ido l1 A W)) := by
  unfold pass8
  refine passLoop_ok hido ?_ ?_ hc
  · intro k hk
    reads
    apply Fills.mono
    · stores
      · rw [Nat.mul_right_comm]; exact ix_lt (by omega) (by omega) (by omega)
      · rw [stageV_ix (by omega) hk, stage_zero]
        exact bf8_0 fwd (fun b => A (ix ido 8 0 b k))
      · rw [Nat.mul_right_comm]; exact ix_lt (by omega) (by omega) (by omega)
      · rw [stageV_ix (by omega) hk, stage_zero]
        exact bf8_4 fwd (fun b => A (ix ido 8 0 b k))
      · rw [Nat.mul_right_comm]; exact ix_lt (by omega) (by omega) (by omega)
      · rw [stageV_ix (by omega) hk, stage_zero]
        exact bf8_2 fwd (fun b => A (ix ido 8 0 b k))
      · rw [Nat.mul_right_comm]; exact ix_lt (by omega) (by omega) (by omega)
      · rw [stageV_ix (by omega) hk, stage_zero]
        exact bf8_6 fwd (fun b => A (ix ido 8 0 b k))
      · rw [Nat.mul_right_comm]; exact ix_lt (by omega) (by omega) (by omega)
      · rw [stageV_ix (by omega) hk, stage_zero]
        exact bf8_1 fwd (fun b => A (ix ido 8 0 b k))
      · rw [Nat.mul_right_comm]; exact ix_lt (by omega) (by omega) (by omega)
      · rw [stageV_ix (by omega) hk, stage_zero]
        exact bf8_5 fwd (fun b => A (ix ido 8 0 b k))
      · rw [Nat.mul_right_comm]; exact ix_lt (by omega) (by omega) (by omega)
      · rw [stageV_ix (by omega) hk, stage_zero]
        exact bf8_3 fwd (fun b => A (ix ido 8 0 b k))
      · rw [Nat.mul_right_comm]; exact ix_lt (by omega) (by omega) (by omega)
      · rw [stageV_ix (by omega) hk, stage_zero]
        exact bf8_7 fwd (fun b => A (ix ido 8 0 b k))
    · rintro n - ⟨j, hj, rfl⟩
      interval_cases j <;> simp
  · intro k i hk hi0 hi
    reads
    apply Fills.mono
    · stores
      · rw [Nat.mul_right_comm]; exact ix_lt (by omega) (by omega) (by omega)
      · rw [stageV_ix hi hk, stage_first]
        exact bf8_0 fwd (fun b => A (ix ido 8 i b k))
      · rw [Nat.mul_right_comm]; exact ix_lt (by omega) (by omega) (by omega)
      · rw [stageV_ix hi hk, stage_pos hi0 (by omega)]
        exact congrArg (fun z => smul fwd z (W (wx ido 3 i))) (bf8_4 fwd (fun b => A (ix ido 8 i b k)))
      · rw [Nat.mul_right_comm]; exact ix_lt (by omega) (by omega) (by omega)
      · rw [stageV_ix hi hk, stage_pos hi0 (by omega)]
        exact congrArg (fun z => smul fwd z (W (wx ido 1 i))) (bf8_2 fwd (fun b => A (ix ido 8 i b k)))
      · rw [Nat.mul_right_comm]; exact ix_lt (by omega) (by omega) (by omega)
      · rw [stageV_ix hi hk, stage_pos hi0 (by omega)]
        exact congrArg (fun z => smul fwd z (W (wx ido 5 i))) (bf8_6 fwd (fun b => A (ix ido 8 i b k)))
      · rw [Nat.mul_right_comm]; exact ix_lt (by omega) (by omega) (by omega)
      · rw [stageV_ix hi hk, stage_pos hi0 (by omega)]
        exact congrArg (fun z => smul fwd z (W (wx ido 0 i))) (bf8_1 fwd (fun b => A (ix ido 8 i b k)))
      · rw [Nat.mul_right_comm]; exact ix_lt (by omega) (by omega) (by omega)
      · rw [stageV_ix hi hk, stage_pos hi0 (by omega)]
        exact congrArg (fun z => smul fwd z (W (wx ido 4 i))) (bf8_5 fwd (fun b => A (ix ido 8 i b k)))
      · rw [Nat.mul_right_comm]; exact ix_lt (by omega) (by omega) (by omega)
      · rw [stageV_ix hi hk, stage_pos hi0 (by omega)]
        exact congrArg (fun z => smul fwd z (W (wx ido 2 i))) (bf8_3 fwd (fun b => A (ix ido 8 i b k)))
      · rw [Nat.mul_right_comm]; exact ix_lt (by omega) (by omega) (by omega)
      · rw [stageV_ix hi hk, stage_pos hi0 (by omega)]
        exact congrArg (fun z => smul fwd z (W (wx ido 6 i))) (bf8_7 fwd (fun b => A (ix ido 8 i b k)))
    · rintro n - ⟨j, hj, rfl⟩
      interval_cases j <;> simp

theorem pass11_ok (fwd : Bool) {ido l1 : ℕ} {A W : ℕ → ℂ} {ch : List ℂ} (hido : 0 < ido)
    (hc : ch.length = ido * 11 * l1) :
    pass11 fwd ido l1 (tab (ido * 11 * l1) A) ch (tab (10 * (ido - 1)) W)
      = .ok (tab (ido * 11 * l1) (stageV fwd 11 ido l1 A W)) := by
  unfold pass11
  refine passLoop_ok hido ?_ ?_ hc
  · intro k hk
    reads
    apply Fills.mono
    · stores
      · rw [Nat.mul_right_comm]; exact ix_lt (by omega) (by omega) (by omega)
      · rw [stageV_ix (by omega) hk, stage_zero]
        exact bf11_0 fwd (fun b => A (ix ido 11 0 b k))
      · rw [Nat.mul_right_comm]; exact ix_lt (by omega) (by omega) (by omega)
      · rw [stageV_ix (by omega) hk, stage_zero]
        exact bf11_1 fwd (fun b => A (ix ido 11 0 b k))
      · rw [Nat.mul_right_comm]; exact ix_lt (by omega) (by omega) (by omega)
      · rw [stageV_ix (by omega) hk, stage_zero]
        exact bf11_10 fwd (fun b => A (ix ido 11 0 b k))
      · rw [Nat.mul_right_comm]; exact ix_lt (by omega) (by omega) (by omega)
      · rw [stageV_ix (by omega) hk, stage_zero]
        exact bf11_2 fwd (fun b => A (ix ido 11 0 b k))
      · rw [Nat.mul_right_comm]; exact ix_lt (by omega) (by omega) (by omega)
      · rw [stageV_ix (by omega) hk, stage_zero]
        exact bf11_9 fwd (fun b => A (ix ido 11 0 b k))
      · rw [Nat.mul_right_comm]; exact ix_lt (by omega) (by omega) (by omega)
      · rw [stageV_ix (by omega) hk, stage_zero]
        exact bf11_3 fwd (fun b => A (ix ido 11 0 b k))
      · rw [Nat.mul_right_comm]; exact ix_lt (by omega) (by omega) (by omega)
      · rw [stageV_ix (by omega) hk, stage_zero]
        exact bf11_8 fwd (fun b => A (ix ido 11 0 b k))
      · rw [Nat.mul_right_comm]; exact ix_lt (by omega) (by omega) (by omega)
      · rw [stageV_ix (by omega) hk, stage_zero]
        exact bf11_4 fwd (fun b => A (ix ido 11 0 b k))
      · rw [Nat.mul_right_comm]; exact ix_lt (by omega) (by omega) (by omega)
      · rw [stageV_ix (by omega) hk, stage_zero]
        exact bf11_7 fwd (fun b => A (ix ido 11 0 b k))
      · rw [Nat.mul_right_comm]; exact ix_lt (by omega) (by omega) (by omega)
      · rw [stageV_ix (by omega) hk, stage_zero]
        exact bf11_5 fwd (fun b => A (ix ido 11 0 b k))
      · rw [Nat.mul_right_comm]; exact ix_lt (by omega) (by omega) (by omega)
      · rw [stageV_ix (by omega) hk, stage_zero]
        exact bf11_6 fwd (fun b => A (ix ido 11 0 b k))
    · rintro n - ⟨j, hj, rfl⟩
      interval_cases j <;> simp
  · intro k i hk hi0 hi
    reads
    apply Fills.mono
    · stores
      · rw [Nat.mul_right_comm]; exact ix_lt (by omega) (by omega) (by omega)
      · rw [stageV_ix hi hk, stage_first]
        exact bf11_0 fwd (fun b => A (ix ido 11 i b k))
      · rw [Nat.mul_right_comm]; exact ix_lt (by omega) (by omega) (by omega)
      · rw [stageV_ix hi hk, stage_pos hi0 (by omega)]
        exact congrArg (fun z => smul fwd z (W (wx ido 0 i))) (bf11_1 fwd (fun b => A (ix ido 11 i b k)))
      · rw [Nat.mul_right_comm]; exact ix_lt (by omega) (by omega) (by omega)
      · rw [stageV_ix hi hk, stage_pos hi0 (by omega)]
        exact congrArg (fun z => smul fwd z (W (wx ido 9 i))) (bf11_10 fwd (fun b => A (ix ido 11 i b k)))
      · rw [Nat.mul_right_comm]; exact ix_lt (by omega) (by omega) (by omega)
      · rw [stageV_ix hi hk, stage_pos hi0 (by omega)]
        exact congrArg (fun z => smul fwd z (W (wx ido 1 i))) (bf11_2 fwd (fun b => A (ix ido 11 i b k)))
      · rw [Nat.mul_right_comm]; exact ix_lt (by omega) (by omega) (by omega)
      · rw [stageV_ix hi hk, stage_pos hi0 (by omega)]
        exact congrArg (fun z => smul fwd z (W (wx ido 8 i))) (bf11_9 fwd (fun b => A (ix ido 11 i b k)))
      · rw [Nat.mul_right_comm]; exact ix_lt (by omega) (by omega) (by omega)
      · rw [stageV_ix hi hk, stage_pos hi0 (by omega)]
        exact congrArg (fun z => smul fwd z (W (wx ido 2 i))) (bf11_3 fwd (fun b => A (ix ido 11 i b k)))
      · rw [Nat.mul_right_comm]; exact ix_lt (by omega) (by omega) (by omega)
      · rw [stageV_ix hi hk, stage_pos hi0 (by omega)]
        exact congrArg (fun z => smul fwd z (W (wx ido 7 i))) (bf11_8 fwd (fun b => A (ix ido 11 i b k)))
      · rw [Nat.mul_right_comm]; exact ix_lt (by omega) (by omega) (by omega)
      · rw [stageV_ix hi hk, stage_pos hi0 (by omega)]
        exact congrArg (fun z => smul fwd z (W (wx ido 3 i))) (bf11_4 fwd (fun b => A (ix ido 11 i b k)))
      · rw [Nat.mul_right_comm]; exact ix_lt (by omega) (by omega) (by omega)
      · rw [stageV_ix hi hk, stage_pos hi0 (by omega)]
        exact congrArg (fun z => smul fwd z (W (wx ido 6 i))) (bf11_7 fwd (fun b => A (ix ido 11 i b k)))
      · rw [Nat.mul_right_comm]; exact ix_lt (by omega) (by omega) (by omega)
      · rw [stageV_ix hi hk, stage_pos hi0 (by omega)]
        exact congrArg (fun z => smul fwd z (W (wx ido 4 i))) (bf11_5 fwd (fun b => A (ix ido 11 i b k)))
      · rw [Nat.mul_right_comm]; exact ix_lt (by omega) (by omega) (by omega)
      · rw [stageV_ix hi hk, stage_pos hi0 (by omega)]
        exact congrArg (fun z => smul fwd z (W (wx ido 5 i))) (bf11_6 fwd (fun b => A (ix ido 11 i b k)))
    · rintro n - ⟨j, hj, rfl⟩
      interval_cases j <;> simp

end Verif.Pocket
