import Verif.Lemmas.BinaryFormat

/-!
Rounding to a binary format: relative error of numbers that are not subnormal, monotonicity, exactness on numbers of the format.
-/

set_option linter.unusedVariables false
set_option linter.unusedSimpArgs false

namespace Verif

theorem binRound_zero (p : ℕ) (emin : ℤ) : binRound p emin 0 = 0 := by simp [binRound]

theorem binRound_rel (p : ℕ) (emin : ℤ) {x : ℝ} (hx : (2 : ℝ) ^ (emin + p) ≤ |x|) :
    |binRound p emin x - x| ≤ (2 : ℝ) ^ (-(p : ℤ)) * |x| := by
  have hax : 0 < |x| := lt_of_lt_of_le (by positivity) hx
  have hlog : emin + p ≤ Int.log 2 |x| := by
    rw [← Int.zpow_le_iff_le_log (by norm_num) hax]
    exact_mod_cast hx
  set e := binExp p emin x with he
  have e1 : e = Int.log 2 |x| - p + 1 := by
    rw [he, binExp]
    exact max_eq_left (by omega)
  have hpos : (0 : ℝ) < 2 ^ e := by positivity
  have h0 : |binRound p emin x - x| ≤ 2 ^ (e - 1) := by
    have h1 : binRound p emin x - x = -((x / 2 ^ e - round (x / 2 ^ e)) * 2 ^ e) := by
      unfold binRound
      rw [← he]
      field_simp
      ring
    rw [h1, abs_neg, abs_mul, abs_of_pos hpos]
    have h2 := abs_sub_round (x / 2 ^ e)
    have h3 := mul_le_mul_of_nonneg_right h2 hpos.le
    rw [zpow_sub_one₀ (by norm_num : (2 : ℝ) ≠ 0)]
    linarith
  refine h0.trans ?_
  have h3 := Int.zpow_log_le_self (b := 2) (by norm_num) hax
  have h4 : (2 : ℝ) ^ (e - 1) = 2 ^ (-(p : ℤ)) * 2 ^ Int.log 2 |x| := by
    rw [← zpow_add₀ (by norm_num : (2 : ℝ) ≠ 0)]
    congr 1
    omega
  rw [h4]
  refine mul_le_mul_of_nonneg_left ?_ (by positivity)
  exact_mod_cast h3

theorem round_mono' {a b : ℝ} (h : a ≤ b) : round a ≤ round b := by
  rw [round_eq, round_eq]
  exact Int.floor_mono (by linarith)

/-- Rounding to a grid does not cross a point of the grid. -/
theorem round_grid_le {x g : ℝ} {e k : ℤ} (hg : g = k * 2 ^ e) (h : x ≤ g) : (round (x / 2 ^ e) : ℝ) * 2 ^ e ≤ g := by
  have hp : (0 : ℝ) < 2 ^ e := by positivity
  have : round (x / 2 ^ e) ≤ k := by
    have := round_mono' ((div_le_div_iff_of_pos_right hp).2 h)
    rwa [hg, mul_div_assoc, div_self hp.ne', mul_one, round_intCast] at this
  rw [hg]
  exact mul_le_mul_of_nonneg_right (by exact_mod_cast this) hp.le

theorem le_round_grid {x g : ℝ} {e k : ℤ} (hg : g = k * 2 ^ e) (h : g ≤ x) : g ≤ (round (x / 2 ^ e) : ℝ) * 2 ^ e := by
  have hp : (0 : ℝ) < 2 ^ e := by positivity
  have : k ≤ round (x / 2 ^ e) := by
    have := round_mono' ((div_le_div_iff_of_pos_right hp).2 h)
    rwa [hg, mul_div_assoc, div_self hp.ne', mul_one, round_intCast] at this
  rw [hg]
  exact mul_le_mul_of_nonneg_right (by exact_mod_cast this) hp.le

/-- A power of two is on every finer grid. -/
theorem pow_on_grid {l e : ℤ} (h : e ≤ l) : ∃ k : ℤ, (2 : ℝ) ^ l = k * 2 ^ e := by
  obtain ⟨d, hd⟩ : ∃ d : ℕ, l = d + e := ⟨(l - e).toNat, by omega⟩
  refine ⟨2 ^ d, ?_⟩
  rw [hd, zpow_add₀ (by norm_num : (2 : ℝ) ≠ 0), zpow_natCast]
  push_cast
  rfl

theorem binExp_mono (p : ℕ) (emin : ℤ) {x y : ℝ} (hx : 0 < |x|) (h : |x| ≤ |y|) : binExp p emin x ≤ binExp p emin y := by
  have := Int.log_mono_right (b := 2) hx h
  unfold binExp
  omega

/-- Where the grids differ a power of two on both separates the numbers. -/
theorem binExp_sep (p : ℕ) (hp : 0 < p) (emin : ℤ) {x y : ℝ} (hx : 0 < |x|) (hy : 0 < |y|) (h : binExp p emin x < binExp p emin y) :
    ∃ g : ℝ, |x| ≤ g ∧ g ≤ |y| ∧ (∃ k : ℤ, g = k * 2 ^ binExp p emin x) ∧ (∃ k : ℤ, g = k * 2 ^ binExp p emin y) := by
  have hl : Int.log 2 |x| < Int.log 2 |y| := by
    unfold binExp at h
    omega
  have hey : binExp p emin y = Int.log 2 |y| - p + 1 := by
    unfold binExp at h ⊢
    omega
  refine ⟨2 ^ Int.log 2 |y|, ?_, ?_, pow_on_grid (by omega), pow_on_grid (by omega)⟩
  · have h1 := (Int.lt_zpow_succ_log_self (b := 2) (by norm_num) |x|).le
    refine h1.trans ?_
    push_cast
    exact zpow_le_zpow_right₀ (by norm_num) (by omega)
  · exact_mod_cast Int.zpow_log_le_self (b := 2) (by norm_num) hy

theorem binRound_nonpos (p : ℕ) (emin : ℤ) {x : ℝ} (hx : x ≤ 0) : binRound p emin x ≤ 0 := by
  have := round_grid_le (x := x) (g := 0) (e := binExp p emin x) (k := 0) (by simp) hx
  simpa [binRound] using this

/-- Rounding is monotone. -/
theorem binRound_mono (p : ℕ) (hp : 0 < p) (emin : ℤ) : Monotone (binRound p emin) := by
  intro x y hxy
  rcases le_or_gt x 0 with hx | hx
  · rcases le_or_gt 0 y with hy | hy
    · exact (binRound_nonpos p emin hx).trans (binRound_nonneg p emin hy)
    · have hay : 0 < |y| := abs_pos.2 hy.ne
      have hle : |y| ≤ |x| := by rw [abs_of_neg hy, abs_of_nonpos hx]; linarith
      rcases (binExp_mono p emin hay hle).eq_or_lt with h | h
      · unfold binRound
        rw [h]
        have hpos : (0 : ℝ) < 2 ^ binExp p emin x := by positivity
        have := round_mono' ((div_le_div_iff_of_pos_right hpos).2 hxy)
        exact mul_le_mul_of_nonneg_right (by exact_mod_cast this) hpos.le
      · obtain ⟨g, h1, h2, ⟨k, hk⟩, ⟨m, hm⟩⟩ := binExp_sep p hp emin hay (hay.trans_le hle) h
        rw [abs_of_neg hy] at h1
        rw [abs_of_nonpos hx] at h2
        have a := round_grid_le (x := x) (g := -g) (e := binExp p emin x) (k := -m) (by rw [hm]; push_cast; ring) (by linarith)
        have b := le_round_grid (x := y) (g := -g) (e := binExp p emin y) (k := -k) (by rw [hk]; push_cast; ring) (by linarith)
        exact a.trans b
  · have hy : 0 < y := by linarith
    have hax : 0 < |x| := abs_pos.2 hx.ne'
    have hle : |x| ≤ |y| := by rw [abs_of_pos hx, abs_of_pos hy]; exact hxy
    rcases (binExp_mono p emin hax hle).eq_or_lt with h | h
    · unfold binRound
      rw [h]
      have hpos : (0 : ℝ) < 2 ^ binExp p emin y := by positivity
      have := round_mono' ((div_le_div_iff_of_pos_right hpos).2 hxy)
      exact mul_le_mul_of_nonneg_right (by exact_mod_cast this) hpos.le
    · obtain ⟨g, h1, h2, ⟨k, hk⟩, ⟨m, hm⟩⟩ := binExp_sep p hp emin hax (hax.trans_le hle) h
      rw [abs_of_pos hx] at h1
      rw [abs_of_pos hy] at h2
      exact (round_grid_le hk h1).trans (le_round_grid hm h2)

/-- Integers of up to `p` digits are exact. -/
theorem binRound_int (p : ℕ) (emin : ℤ) (hemin : emin ≤ 0) (n : ℤ) (hn : |n| < 2 ^ p) : binRound p emin n = n := by
  rcases eq_or_ne n 0 with rfl | h0
  · simp [binRound]
  have ha : 0 < |(n : ℝ)| := abs_pos.2 (by exact_mod_cast h0)
  have hl : Int.log 2 |(n : ℝ)| < p := by
    rw [← Int.lt_zpow_iff_log_lt (by norm_num) ha]
    rw [zpow_natCast]
    push_cast
    exact_mod_cast hn
  have he : binExp p emin n ≤ 0 := by
    unfold binExp
    omega
  obtain ⟨k, hk⟩ := pow_on_grid he
  have e1 : (n : ℝ) = ((n * k : ℤ) : ℝ) * 2 ^ binExp p emin n := by
    rw [zpow_zero] at hk
    push_cast
    rw [mul_assoc, ← hk, mul_one]
  unfold binRound
  have hpos : (0 : ℝ) < 2 ^ binExp p emin n := by positivity
  have : (n : ℝ) / 2 ^ binExp p emin n = ((n * k : ℤ) : ℝ) := by
    rw [div_eq_iff hpos.ne']
    exact e1
  rw [this, round_intCast]
  exact e1.symm

end Verif
