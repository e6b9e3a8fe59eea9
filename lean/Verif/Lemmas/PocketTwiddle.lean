import Verif.Lemmas.PocketGeneric

/-! # The roots of unity and the table of twiddle factors -/

set_option linter.unusedSimpArgs false
set_option linter.unusedSectionVars false
set_option linter.unusedVariables false
set_option linter.unnecessarySeqFocus false

namespace Verif.Pocket
open Complex

theorem w_zero (fwd : Bool) (n : ℕ) : w fwd n 0 = 1 := by
  apply Complex.ext <;> simp [w, cR_zero, cI_zero]

theorem w_add (fwd : Bool) (n a b : ℕ) : w fwd n (a + b) = w fwd n a * w fwd n b := by
  have e : 2 * Real.pi * ((a + b : ℕ) : ℝ) / n = 2 * Real.pi * a / n + 2 * Real.pi * b / n := by
    push_cast; ring
  apply Complex.ext
  · simp only [w, cR, cI, e, Real.cos_add, Complex.mul_re]
    cases fwd <;> simp
  · simp only [w, cR, cI, e, Real.sin_add, Complex.mul_im]
    cases fwd <;> simp <;> ring

theorem w_mod (fwd : Bool) (n m : ℕ) : w fwd n m = w fwd n (m % n) := by
  unfold w
  rw [cR_mod, cI_mod]

theorem w_mul_self (fwd : Bool) (n m : ℕ) : w fwd n (n * m) = 1 := by
  rw [w_mod, Nat.mul_mod_right, w_zero]

theorem w_scale (fwd : Bool) {n c : ℕ} (hc : 0 < c) (m : ℕ) : w fwd (n * c) (m * c) = w fwd n m := by
  have e : 2 * Real.pi * ((m * c : ℕ) : ℝ) / ((n * c : ℕ) : ℝ) = 2 * Real.pi * m / n := by
    have : (c : ℝ) ≠ 0 := by positivity
    push_cast
    rw [← mul_assoc, mul_div_mul_right _ _ this]
  unfold w cR cI
  rw [e]

theorem w_true (n m : ℕ) : w true n m = (starRingEnd ℂ) (w false n m) := by
  apply Complex.ext <;> simp [w, cI]

theorem w_norm (fwd : Bool) (n m : ℕ) : w fwd n m * w (!fwd) n m = 1 := by
  apply Complex.ext
  · have := Real.sin_sq_add_cos_sq (2 * Real.pi * m / n)
    cases fwd <;> simp [w, cR, cI] <;> linear_combination this
  · cases fwd <;> simp [w, cR, cI] <;> ring

theorem smul_w (fwd : Bool) (v : ℂ) (n m : ℕ) : smul fwd v (w false n m) = v * w fwd n m := by
  cases fwd <;> apply Complex.ext <;> simp [smul, w, cI] <;> ring

/-! ### the table -/

theorem octant_ok {x n : ℕ} (hn : 0 < n) (hx : x ≤ n) : octant x n (0.25 * Real.pi / n) = w false n x := by
  have hn' : (n : ℝ) ≠ 0 := by positivity
  have hw : w false n x = ⟨Real.cos ((8 * x : ℕ) * (0.25 * Real.pi / n)), Real.sin ((8 * x : ℕ) * (0.25 * Real.pi / n))⟩ := by
    have : ((8 * x : ℕ) : ℝ) * (0.25 * Real.pi / n) = 2 * Real.pi * x / n := by
      push_cast; ring
    rw [this]
    simp [w, cR, cI]
  rw [hw]
  obtain ⟨y, hy⟩ : ∃ y, y = 8 * x := ⟨_, rfl⟩
  have hy8 : y ≤ 8 * n := by omega
  obtain ⟨t, ht⟩ : ∃ t, t = 0.25 * Real.pi / (n : ℝ) := ⟨_, rfl⟩
  have hq : ((2 * n : ℕ) : ℝ) * t = Real.pi / 2 := by rw [ht]; push_cast; field_simp; norm_num
  have hq' : 2 * (n : ℝ) * t = Real.pi / 2 := by rw [← hq]; push_cast; ring
  unfold octant
  simp only [← hy, ← ht]
  split
  · split
    · split
      · rfl
      · rename_i h1 h2 h3
        have e : ((2 * n - y : ℕ) : ℝ) * t = Real.pi / 2 - y * t := by
          rw [Nat.cast_sub (by omega), sub_mul, hq]
        rw [e, Real.sin_pi_div_two_sub, Real.cos_pi_div_two_sub]
    · rename_i h1 h2
      split
      · have e : (y : ℝ) * t = ((y - 2 * n : ℕ) : ℝ) * t + Real.pi / 2 := by
          rw [Nat.cast_sub (by omega), sub_mul, hq]; ring
        rw [e, Real.sin_add_pi_div_two, Real.cos_add_pi_div_two]
      · have e : (y : ℝ) * t = Real.pi - ((2 * n - (y - 2 * n) : ℕ) : ℝ) * t := by
          rw [Nat.cast_sub (by omega), Nat.cast_sub (by omega)]; push_cast; linear_combination (2 : ℝ) * hq'
        rw [e, Real.sin_pi_sub, Real.cos_pi_sub]
  · rename_i h1
    split
    · split
      · have e : (y : ℝ) * t = 2 * Real.pi - ((8 * n - y : ℕ) : ℝ) * t := by
          rw [Nat.cast_sub (by omega)]; push_cast; linear_combination (4 : ℝ) * hq'
        rw [e, Real.sin_two_pi_sub, Real.cos_two_pi_sub]
      · have e : (y : ℝ) * t = 2 * Real.pi - (Real.pi / 2 - ((2 * n - (8 * n - y) : ℕ) : ℝ) * t) := by
          rw [Nat.cast_sub (by omega), Nat.cast_sub (by omega)]; push_cast; linear_combination (3 : ℝ) * hq'
        rw [e, Real.sin_two_pi_sub, Real.cos_two_pi_sub, Real.sin_pi_div_two_sub, Real.cos_pi_div_two_sub]
    · split
      · have e : (y : ℝ) * t = 2 * Real.pi - (((8 * n - y - 2 * n : ℕ) : ℝ) * t + Real.pi / 2) := by
          rw [Nat.cast_sub (by omega), Nat.cast_sub (by omega)]; push_cast; linear_combination (3 : ℝ) * hq'
        rw [e, Real.sin_two_pi_sub, Real.cos_two_pi_sub, Real.sin_add_pi_div_two, Real.cos_add_pi_div_two]
      · have e : (y : ℝ) * t = 2 * Real.pi - (Real.pi - ((2 * n - (8 * n - y - 2 * n) : ℕ) : ℝ) * t) := by
          rw [Nat.cast_sub (by omega), Nat.cast_sub (by omega), Nat.cast_sub (by omega)]; push_cast
          linear_combination (2 : ℝ) * hq'
        rw [e, Real.sin_two_pi_sub, Real.cos_two_pi_sub, Real.sin_pi_sub, Real.cos_pi_sub]

theorem sincos_ok {n : ℕ} (hn : 0 < n) :
    ∃ t, sincos n = .ok t ∧ ∀ idx, idx ≤ n → t.get idx = .ok (w false n idx) := by
  obtain ⟨s, e1, ⟨hs1, hs2⟩, hs3⟩ := whileN_measure
    (cond := fun s : ℕ => decide (2 ^ s * 2 ^ s < (n + 2) / 2)) (body := fun s => .ok (s + 1))
    (fun s => 1 ≤ s ∧ (2 ≤ s → 2 ^ (s - 1) * 2 ^ (s - 1) < (n + 2) / 2)) (fun s => (n + 2) / 2 + 1 - s) (by
      intro s ⟨h1, h2⟩ hc
      simp only [decide_eq_true_eq] at hc
      refine ⟨_, rfl, ⟨by omega, fun _ => by simpa using hc⟩, ?_⟩
      have : s < 2 ^ s := Nat.lt_two_pow_self
      have h3 : 2 ^ s * 1 ≤ 2 ^ s * 2 ^ s := Nat.mul_le_mul_left _ (by omega)
      omega) ((n + 2) / 2 + 1) 1 (by omega) ⟨le_rfl, by omega⟩
  simp only [decide_eq_false_iff_not, not_lt] at hs3
  obtain ⟨m, hm⟩ : ∃ m, m = 2 ^ s := ⟨_, rfl⟩
  have hm2 : 2 ≤ m := by
    rw [hm]; calc 2 = 2 ^ 1 := rfl
      _ ≤ 2 ^ s := Nat.pow_le_pow_right (by omega) hs1
  have hmn : m - 1 ≤ n := by
    by_cases h2 : 2 ≤ s
    · have h3 := hs2 h2
      have h4 : m = 2 * 2 ^ (s - 1) := by
        rw [hm, ← pow_succ']; congr 1; omega
      have h5 : 2 ^ (s - 1) * 1 ≤ 2 ^ (s - 1) * 2 ^ (s - 1) := Nat.mul_le_mul_left _ Nat.one_le_two_pow
      omega
    · have : s = 1 := by omega
      rw [hm, this]; omega
  refine ⟨⟨n, s, tab m (fun i => w false n i), tab (((n + 2) / 2 + (m - 1)) / m) (fun i => w false n (i * m))⟩, ?_, ?_⟩
  · unfold sincos
    simp only [e1, Out.ok_bind, ← hm, Nat.sub_add_cancel (show 1 ≤ m by omega), Out.pure_def]
    congr 2
    · apply tab_congr
      intro i hi
      split
      · rename_i h0; rw [h0, w_zero]; rfl
      · exact octant_ok hn (by omega)
    · apply tab_congr
      intro i hi
      split
      · rename_i h0; rw [h0, Nat.zero_mul, w_zero]; rfl
      · apply octant_ok hn
        have := (Nat.lt_div_iff_mul_lt (by omega)).mp hi
        have : m - 1 < m := by omega
        omega
  · intro idx hidx
    have key : ∀ j, 2 * j ≤ n →
        ld (tab m (fun i => w false n i)) (j % m) = .ok (w false n (j % m)) ∧
        ld (tab (((n + 2) / 2 + (m - 1)) / m) (fun i => w false n (i * m))) (j / m) = .ok (w false n (j / m * m)) ∧
        w false n (j % m) * w false n (j / m * m) = w false n j := by
      intro j hj
      refine ⟨ld_tab (Nat.mod_lt _ (by omega)), ld_tab ?_, ?_⟩
      · have h1 : (j + m) / m = j / m + 1 := Nat.add_div_right _ (by omega)
        have h2 : (j + m) / m ≤ ((n + 2) / 2 + (m - 1)) / m := Nat.div_le_div_right (by omega)
        omega
      · rw [← w_add]; congr 1
        exact Nat.mod_add_div' j m
    unfold SinCos.get
    simp only [← hm]
    split
    · rename_i h
      obtain ⟨k1, k2, k3⟩ := key idx h
      rw [k1, Out.ok_bind, k2, Out.ok_bind, ← k3]
      rfl
    · rename_i h
      obtain ⟨k1, k2, k3⟩ := key (n - idx) (by omega)
      rw [k1, Out.ok_bind, k2, Out.ok_bind, Out.pure_def]
      congr 1
      have k4 : w false n idx = (starRingEnd ℂ) (w false n (n - idx)) := by
        rw [← w_true, w_refl (q := 1) hn (show idx + (n - idx) = 1 * n by omega), w_eq]
        simp [cI]
        ring
      rw [k4, ← k3]
      apply Complex.ext
      · simp
      · simp; ring

end Verif.Pocket
