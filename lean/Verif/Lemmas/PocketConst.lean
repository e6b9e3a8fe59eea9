import Verif.Model.PocketConst
import Mathlib.Analysis.SpecialFunctions.Trigonometric.Bounds
import Mathlib.Analysis.SpecialFunctions.Exp
import Mathlib.Analysis.Real.Pi.Bounds
import Mathlib.Tactic.IntervalCases

/-!
# The trigonometric literals of the bundled FFT
-/

set_option linter.unusedVariables false
set_option linter.unusedSimpArgs false

namespace Verif.Pocket
open Complex

/-- the remainder of a power after its linear part -/
theorem pow_linear (w : ℂ) {d : ℝ} (hd : ‖w - 1‖ ≤ d) (h0 : 0 ≤ d) (n : ℕ) :
    ‖w ^ n - 1 - n * (w - 1)‖ ≤ (1 + d) ^ n - 1 - n * d := by
  induction n with
  | zero => simp
  | succ n ih =>
    have e : w ^ (n + 1) - 1 - ((n + 1 : ℕ) : ℂ) * (w - 1)
        = w * (w ^ n - 1 - n * (w - 1)) + n * ((w - 1) * (w - 1)) := by push_cast; ring
    have hw : ‖w‖ ≤ 1 + d := by
      calc ‖w‖ = ‖1 + (w - 1)‖ := by congr 1; ring
        _ ≤ ‖(1 : ℂ)‖ + ‖w - 1‖ := norm_add_le _ _
        _ ≤ 1 + d := by simpa using hd
    rw [e]
    have h1 : ‖w * (w ^ n - 1 - n * (w - 1))‖ ≤ (1 + d) * ((1 + d) ^ n - 1 - n * d) := by
      rw [norm_mul]
      exact mul_le_mul hw ih (norm_nonneg _) (by linarith)
    have h2 : ‖(n : ℂ) * ((w - 1) * (w - 1))‖ ≤ n * (d * d) := by
      rw [norm_mul, norm_mul, Complex.norm_natCast]
      exact mul_le_mul_of_nonneg_left (mul_le_mul hd hd (norm_nonneg _) h0) (Nat.cast_nonneg n)
    calc _ ≤ _ := norm_add_le _ _
      _ ≤ (1 + d) * ((1 + d) ^ n - 1 - n * d) + n * (d * d) := add_le_add h1 h2
      _ = _ := by push_cast; ring

/-- a number near a root of unity whose power is nearly one is very near -/
theorem near_root {n : ℕ} {z ζ : ℂ} (hζ : ζ ^ n = 1) (hn : ‖ζ‖ = 1) {q : ℝ} (hq : q ≤ 1) (hd : n * ‖z - ζ‖ ≤ q) :
    n * ‖z - ζ‖ * (1 - q) ≤ ‖z ^ n - 1‖ := by
  have hζ0 : ζ ≠ 0 := fun h => by simp [h] at hn
  have e1 : ‖z / ζ - 1‖ = ‖z - ζ‖ := by
    rw [div_sub_one hζ0, norm_div, hn, div_one]
  have e2 : (z / ζ) ^ n = z ^ n := by rw [div_pow, hζ, div_one]
  obtain ⟨d, hdd⟩ : ∃ d, d = ‖z - ζ‖ := ⟨_, rfl⟩
  have h0 : 0 ≤ d := hdd ▸ norm_nonneg _
  have h := pow_linear (z / ζ) (d := d) (by rw [e1, hdd]) h0 n
  rw [e2] at h
  rw [← hdd] at hd ⊢
  have h1 : (n : ℝ) * d = ‖(n : ℂ) * (z / ζ - 1)‖ := by rw [norm_mul, e1, Complex.norm_natCast, hdd]
  have h2 : ‖(n : ℂ) * (z / ζ - 1)‖ ≤ ‖z ^ n - 1‖ + ‖z ^ n - 1 - n * (z / ζ - 1)‖ := by
    have := norm_sub_le (z ^ n - 1) (z ^ n - 1 - n * (z / ζ - 1))
    simpa using this
  have h3 : (1 + d) ^ n ≤ Real.exp (n * d) := by
    rw [Real.exp_nat_mul]
    apply pow_le_pow_left₀ (by linarith)
    have := Real.add_one_le_exp d
    linarith
  have hnd : 0 ≤ (n : ℝ) * d := mul_nonneg (Nat.cast_nonneg n) h0
  have h4 := Real.abs_exp_sub_one_sub_id_le (x := n * d) (by rw [abs_of_nonneg hnd]; linarith)
  have h5 := (abs_le.1 h4).2
  have h6 : (n * d) ^ 2 ≤ n * d * q := by rw [sq]; exact mul_le_mul_of_nonneg_left hd hnd
  linarith

theorem near_pow {z ζ : ℂ} (hn : ‖ζ‖ = 1) {d : ℝ} (hd : ‖z - ζ‖ ≤ d) (k : ℕ) : ‖z ^ k - ζ ^ k‖ ≤ (1 + d) ^ k - 1 := by
  have hζ0 : ζ ≠ 0 := fun h => by simp [h] at hn
  have h0 : 0 ≤ d := (norm_nonneg _).trans hd
  have e1 : ‖z / ζ - 1‖ ≤ d := by
    rw [div_sub_one hζ0, norm_div, hn, div_one]; exact hd
  have h := pow_linear (z / ζ) e1 h0 k
  have e : z ^ k - ζ ^ k = ζ ^ k * ((z / ζ) ^ k - 1) := by
    rw [div_pow, mul_sub, mul_div_cancel₀ _ (pow_ne_zero k hζ0), mul_one]
  rw [e, norm_mul, norm_pow, hn, one_pow, one_mul]
  calc ‖(z / ζ) ^ k - 1‖ = ‖((z / ζ) ^ k - 1 - k * (z / ζ - 1)) + k * (z / ζ - 1)‖ := by congr 1; ring
    _ ≤ _ := norm_add_le _ _
    _ ≤ ((1 + d) ^ k - 1 - k * d) + k * d := by
        apply add_le_add h
        rw [norm_mul, Complex.norm_natCast]
        exact mul_le_mul_of_nonneg_left e1 (Nat.cast_nonneg k)
    _ = _ := by ring

/-- powers of Gaussian integers -/
def gpow (p : ℤ × ℤ) : ℕ → ℤ × ℤ
  | 0 => (1, 0)
  | n + 1 => let q := gpow p n; (q.1 * p.1 - q.2 * p.2, q.1 * p.2 + q.2 * p.1)

def toC (p : ℤ × ℤ) : ℂ := ⟨p.1, p.2⟩

theorem gpow_toC (p : ℤ × ℤ) (n : ℕ) : toC (gpow p n) = toC p ^ n := by
  induction n with
  | zero => apply Complex.ext <;> simp [gpow, toC]
  | succ n ih =>
    rw [pow_succ, ← ih]
    apply Complex.ext <;> simp [gpow, toC]

/-- the literal as a complex number -/
noncomputable def lit (n j : ℕ) : ℂ := ⟨litR n j, litI n j⟩

theorem lit_toC (n j : ℕ) : lit n j = toC (litNum n j) / 10 ^ 34 := by
  have e : (10 ^ 34 : ℂ) = ((10 ^ 34 : ℝ) : ℂ) := by push_cast; rfl
  rw [e]
  apply Complex.ext
  · rw [Complex.div_ofReal_re]; rfl
  · rw [Complex.div_ofReal_im]; rfl

theorem norm_toC (p : ℤ × ℤ) : ‖toC p‖ ≤ ((p.1.natAbs + p.2.natAbs : ℕ) : ℝ) := by
  refine (Complex.norm_le_abs_re_add_abs_im _).trans (le_of_eq ?_)
  push_cast
  simp [toC, Nat.cast_natAbs]

/-- a bound of the difference of two quotients of Gaussian integers, by integer arithmetic -/
theorem gauss_sub (p q : ℤ × ℤ) (m N r : ℕ) (h : ((p.1 - q.1 * 10 ^ m).natAbs + (p.2 - q.2 * 10 ^ m).natAbs) * N ≤ r) :
    ‖toC p - toC q * 10 ^ m‖ * N ≤ r := by
  have e : toC p - toC q * 10 ^ m = toC (p.1 - q.1 * 10 ^ m, p.2 - q.2 * 10 ^ m) := by
    have e : (10 ^ m : ℂ) = ((10 ^ m : ℝ) : ℂ) := by push_cast; rfl
    rw [e]
    apply Complex.ext
    · simp only [toC, Complex.sub_re, Complex.re_mul_ofReal]; push_cast; ring
    · simp only [toC, Complex.sub_im, Complex.im_mul_ofReal]; push_cast; ring
  rw [e]
  calc _ ≤ _ := mul_le_mul_of_nonneg_right (norm_toC _) (Nat.cast_nonneg N)
    _ ≤ (r : ℝ) := by exact_mod_cast h

/-- how far the power of a literal is from one -/
theorem lit_pow (n j N r : ℕ)
    (h : (((gpow (litNum n j) n).1 - 1 * 10 ^ (34 * n)).natAbs + ((gpow (litNum n j) n).2 - 0 * 10 ^ (34 * n)).natAbs) * N
      ≤ r * 10 ^ (34 * n)) : ‖lit n j ^ n - 1‖ * N ≤ r := by
  have h1 := gauss_sub (gpow (litNum n j) n) (1, 0) (34 * n) N (r * 10 ^ (34 * n)) h
  have e1 : toC (1, 0) = 1 := by apply Complex.ext <;> simp [toC]
  rw [gpow_toC, e1, one_mul] at h1
  have hp : (0 : ℝ) < 10 ^ (34 * n) := by positivity
  have e2 : lit n j ^ n - 1 = (toC (litNum n j) ^ n - 10 ^ (34 * n)) / 10 ^ (34 * n) := by
    rw [lit_toC, div_pow, ← pow_mul, sub_div, div_self (pow_ne_zero _ (by norm_num))]
  rw [e2, norm_div, norm_pow, Complex.norm_ofNat, div_mul_eq_mul_div, div_le_iff₀ hp]
  push_cast at h1
  exact h1

/-- how far one literal is from a power of another -/
theorem lit_lit (n j k N r : ℕ)
    (h : (((gpow (litNum n 1) k).1 - (litNum n j).1 * 10 ^ (34 * (k - 1))).natAbs +
        ((gpow (litNum n 1) k).2 - (litNum n j).2 * 10 ^ (34 * (k - 1))).natAbs) * N
      ≤ r * 10 ^ (34 * k)) (hk : 0 < k) : ‖lit n j - lit n 1 ^ k‖ * N ≤ r := by
  have h1 := gauss_sub (gpow (litNum n 1) k) (litNum n j) (34 * (k - 1)) N (r * 10 ^ (34 * k)) h
  rw [gpow_toC] at h1
  have hp : (0 : ℝ) < 10 ^ (34 * k) := by positivity
  have e2 : lit n 1 ^ k - lit n j = (toC (litNum n 1) ^ k - toC (litNum n j) * 10 ^ (34 * (k - 1))) / 10 ^ (34 * k) := by
    rw [lit_toC, lit_toC, div_pow, ← pow_mul, sub_div]
    congr 1
    rw [div_eq_div_iff (pow_ne_zero _ (by norm_num)) (pow_ne_zero _ (by norm_num)), mul_assoc, ← pow_add]
    congr 2; omega
  rw [norm_sub_rev, e2, norm_div, norm_pow, Complex.norm_ofNat, div_mul_eq_mul_div, div_le_iff₀ hp]
  push_cast at h1
  exact h1

/-- the exact value -/
noncomputable def exact (n j : ℕ) : ℂ := ⟨cR n j, cI false n j⟩

theorem exact_exp (n j : ℕ) : exact n j = Complex.exp ((2 * Real.pi * j / n : ℝ) * Complex.I) := by
  apply Complex.ext
  · rw [Complex.exp_ofReal_mul_I_re]; rfl
  · rw [Complex.exp_ofReal_mul_I_im]; simp [exact, cI]

theorem exact_norm (n j : ℕ) : ‖exact n j‖ = 1 := by
  rw [exact_exp, Complex.norm_exp_ofReal_mul_I]

theorem exact_mul (n j : ℕ) : exact n j = exact n 1 ^ j := by
  rw [exact_exp, exact_exp, ← Complex.exp_nat_mul]
  congr 1
  push_cast; ring

theorem exact_pow {n : ℕ} (hn : n ≠ 0) (j : ℕ) : exact n j ^ n = 1 := by
  rw [exact_exp, ← Complex.exp_nat_mul, Complex.exp_eq_one_iff]
  refine ⟨j, ?_⟩
  have : (n : ℂ) ≠ 0 := Nat.cast_ne_zero.2 hn
  push_cast
  field_simp

/-- a bracket from the Taylor polynomials -/
theorem taylor_near {x c s e : ℝ} (h0 : 0 ≤ x) (h1 : x ≤ 1) (hc : |1 - x ^ 2 / 2 - c| + x ^ 4 * (5 / 96) ≤ e)
    (hs : |x - x ^ 3 / 6 - s| + x ^ 4 * (5 / 96) ≤ e) : |c - Real.cos x| ≤ e ∧ |s - Real.sin x| ≤ e := by
  have a0 : |x| = x := abs_of_nonneg h0
  have h2 := Real.cos_bound (x := x) (by rw [a0]; exact h1)
  have h3 := Real.sin_bound (x := x) (by rw [a0]; exact h1)
  rw [a0] at h2 h3
  constructor
  · rw [abs_sub_comm]
    calc |Real.cos x - c| = |(Real.cos x - (1 - x ^ 2 / 2)) + (1 - x ^ 2 / 2 - c)| := by congr 1; ring
      _ ≤ _ := abs_add_le _ _
      _ ≤ _ := by linarith
  · rw [abs_sub_comm]
    calc |Real.sin x - s| = |(Real.sin x - (x - x ^ 3 / 6)) + (x - x ^ 3 / 6 - s)| := by congr 1; ring
      _ ≤ _ := abs_add_le _ _
      _ ≤ _ := by
        have : x ^ 5 / 100 ≤ x ^ 4 * (5 / 96) := by
          have h4 : 0 ≤ x ^ 4 := by positivity
          have h5 : x ^ 5 ≤ x ^ 4 := by
            rw [pow_succ]; exact mul_le_of_le_one_right h4 h1
          linarith
        linarith

/-- from a bracket of the first literal to all literals of a radix -/
theorem lit_first {n : ℕ} (hn : n ≠ 0) (h : n * ‖lit n 1 - exact n 1‖ ≤ 4 / 5) (hp : ‖lit n 1 ^ n - 1‖ * (10 ^ 30 : ℕ) ≤ (1 : ℕ)) :
    ‖lit n 1 - exact n 1‖ ≤ 5 / 10 ^ 30 := by
  have h1 := near_root (exact_pow hn 1) (exact_norm n 1) (by norm_num) h
  have hn1 : (1 : ℝ) ≤ n := by exact_mod_cast Nat.one_le_iff_ne_zero.2 hn
  have h2 : ‖lit n 1 - exact n 1‖ ≤ n * ‖lit n 1 - exact n 1‖ := le_mul_of_one_le_left (norm_nonneg _) hn1
  push_cast at hp
  rw [← le_div_iff₀ (by norm_num)] at hp
  linarith

theorem lit_all {n j : ℕ} (hn : n ≠ 0) (hn' : n ≤ 11) (hj : j ≤ 5) (h : ‖lit n 1 - exact n 1‖ ≤ 5 / 10 ^ 30)
    (hl : ‖lit n j - lit n 1 ^ j‖ * (10 ^ 30 : ℕ) ≤ (1 : ℕ)) (hp : ‖lit n j ^ n - 1‖ * (10 ^ 34 : ℕ) ≤ (5 * n : ℕ)) :
    ‖lit n j - exact n j‖ ≤ 1 / 10 ^ 33 := by
  have h1 := near_pow (exact_norm n 1) h j
  rw [← exact_mul] at h1
  have h2 : ((1 : ℝ) + 5 / 10 ^ 30) ^ j ≤ (1 + 5 / 10 ^ 30) ^ 5 := pow_le_pow_right₀ (by norm_num) hj
  have h3 : ((1 : ℝ) + 5 / 10 ^ 30) ^ 5 - 1 ≤ 1 / 10 ^ 28 := by norm_num
  push_cast at hl
  rw [← le_div_iff₀ (by norm_num)] at hl
  have h4 : ‖lit n j - exact n j‖ ≤ 1 / 10 ^ 10 := by
    calc ‖lit n j - exact n j‖ = ‖(lit n j - lit n 1 ^ j) + (lit n 1 ^ j - exact n j)‖ := by congr 1; ring
      _ ≤ _ := norm_add_le _ _
      _ ≤ 1 / 10 ^ 30 + 1 / 10 ^ 28 := by linarith
      _ ≤ _ := by norm_num
  have hn2 : (n : ℝ) ≤ 11 := by exact_mod_cast hn'
  have h5 : (n : ℝ) * ‖lit n j - exact n j‖ ≤ 1 / 2 := by
    calc _ ≤ 11 * (1 / 10 ^ 10 : ℝ) := mul_le_mul hn2 h4 (norm_nonneg _) (by norm_num)
      _ ≤ _ := by norm_num
  have h6 := near_root (exact_pow hn j) (exact_norm n j) (by norm_num) h5
  push_cast at hp
  rw [← le_div_iff₀ (by norm_num)] at hp
  have hn0 : (0 : ℝ) < n := by exact_mod_cast Nat.pos_of_ne_zero hn
  have h7 : (n : ℝ) * (‖lit n j - exact n j‖ - 1 / 10 ^ 33) ≤ 0 := by
    linarith
  have := nonpos_of_mul_nonpos_right h7 hn0
  linarith

theorem norm_of_parts {z w : ℂ} {e : ℝ} (h1 : |z.re - w.re| ≤ e) (h2 : |z.im - w.im| ≤ e) : ‖z - w‖ ≤ 2 * e := by
  have := Complex.norm_le_abs_re_add_abs_im (z - w)
  rw [Complex.sub_re, Complex.sub_im] at this
  linarith

theorem norm_sq_parts {z w : ℂ} {a b e : ℝ} (h1 : |z.re - w.re| ≤ a) (h2 : |z.im - w.im| ≤ b) (he : 0 ≤ e)
    (h : a ^ 2 + b ^ 2 ≤ e ^ 2) : ‖z - w‖ ≤ e := by
  apply le_of_sq_le_sq _ he
  rw [← Complex.normSq_eq_norm_sq, Complex.normSq_apply, Complex.sub_re, Complex.sub_im]
  have g1 := sq_le_sq' (abs_le.1 h1).1 (abs_le.1 h1).2
  have g2 := sq_le_sq' (abs_le.1 h2).1 (abs_le.1 h2).2
  nlinarith

theorem bracket7 : (7 : ℕ) * ‖lit 7 1 - exact 7 1‖ ≤ 4 / 5 := by
  have p1 := Real.pi_gt_d4
  have p2 := Real.pi_lt_d4
  have hx : 2 * Real.pi * ((1 : ℕ) : ℝ) / ((7 : ℕ) : ℝ) = 2 * Real.pi / 7 := by push_cast; ring
  obtain ⟨x, hxx⟩ : ∃ x, x = 2 * Real.pi / 7 := ⟨_, rfl⟩
  have x1 : 0.8975 < x := by rw [hxx]; linarith
  have x2 : x < 0.8977 := by rw [hxx]; linarith
  have e2 : x ^ 2 ≤ 0.8977 ^ 2 := pow_le_pow_left₀ (by linarith) x2.le 2
  have e2' : 0.8975 ^ 2 ≤ x ^ 2 := pow_le_pow_left₀ (by norm_num) x1.le 2
  have e3 : x ^ 3 ≤ 0.8977 ^ 3 := pow_le_pow_left₀ (by linarith) x2.le 3
  have e3' : 0.8975 ^ 3 ≤ x ^ 3 := pow_le_pow_left₀ (by norm_num) x1.le 3
  have e4 : x ^ 4 ≤ 0.8977 ^ 4 := pow_le_pow_left₀ (by linarith) x2.le 4
  have l1 : litR 7 1 = 0.6234898018587335305250048840042398 := by norm_num [litR, litNum]
  have l2 : litI 7 1 = 0.7818314824680298087084445266740578 := by norm_num [litI, litNum]
  have c1 : |1 - x ^ 2 / 2 - litR 7 1| ≤ 0.027 := by rw [l1, abs_le]; norm_num at *; constructor <;> linarith
  have c2 : |x - x ^ 3 / 6 - litI 7 1| ≤ 0.006 := by rw [l2, abs_le]; norm_num at *; constructor <;> linarith
  have c3 : x ^ 4 * (5 / 96) ≤ 0.034 := by norm_num at *; linarith
  obtain ⟨h1, h2⟩ := taylor_near (x := x) (c := litR 7 1) (s := litI 7 1) (e := 0.061) (by linarith) (by linarith)
    (by linarith) (by linarith)
  rw [abs_sub_comm] at h1 h2
  have c5 : (exact 7 1).re = Real.cos x := by rw [hxx, ← hx]; rfl
  have c6 : (exact 7 1).im = Real.sin x := by rw [hxx, ← hx]; simp [exact, cI]
  have := norm_sq_parts (z := lit 7 1) (w := exact 7 1) (a := 0.061) (b := 0.04) (by rw [c5, abs_sub_comm]; exact h1)
    (by
      rw [c6, abs_sub_comm]
      have h3 := Real.sin_bound (x := x) (by rw [abs_of_pos (by linarith)]; linarith)
      rw [abs_of_pos (by linarith : 0 < x)] at h3
      have e5 : x ^ 5 ≤ 0.8977 ^ 5 := pow_le_pow_left₀ (by linarith) x2.le 5
      calc |Real.sin x - (lit 7 1).im| = |(Real.sin x - (x - x ^ 3 / 6)) + (x - x ^ 3 / 6 - litI 7 1)| := by congr 1; simp [lit]
        _ ≤ _ := abs_add_le _ _
        _ ≤ _ := by norm_num at *; linarith) (e := 0.1) (by norm_num) (by norm_num)
  push_cast
  linarith

theorem bracket11 : (11 : ℕ) * ‖lit 11 1 - exact 11 1‖ ≤ 4 / 5 := by
  have p1 := Real.pi_gt_d4
  have p2 := Real.pi_lt_d4
  have hx : 2 * Real.pi * ((1 : ℕ) : ℝ) / ((11 : ℕ) : ℝ) = 2 * Real.pi / 11 := by push_cast; ring
  obtain ⟨x, hxx⟩ : ∃ x, x = 2 * Real.pi / 11 := ⟨_, rfl⟩
  have x1 : 0.571 < x := by rw [hxx]; linarith
  have x2 : x < 0.572 := by rw [hxx]; linarith
  have e2 : x ^ 2 ≤ 0.572 ^ 2 := pow_le_pow_left₀ (by linarith) x2.le 2
  have e2' : 0.571 ^ 2 ≤ x ^ 2 := pow_le_pow_left₀ (by norm_num) x1.le 2
  have e3 : x ^ 3 ≤ 0.572 ^ 3 := pow_le_pow_left₀ (by linarith) x2.le 3
  have e3' : 0.571 ^ 3 ≤ x ^ 3 := pow_le_pow_left₀ (by norm_num) x1.le 3
  have e4 : x ^ 4 ≤ 0.572 ^ 4 := pow_le_pow_left₀ (by linarith) x2.le 4
  have l1 : litR 11 1 = 0.8412535328311811688618116489193677 := by norm_num [litR, litNum]
  have l2 : litI 11 1 = 0.5406408174555975821076359543186917 := by norm_num [litI, litNum]
  have c1 : |1 - x ^ 2 / 2 - litR 11 1| ≤ 0.006 := by rw [l1, abs_le]; norm_num at *; constructor <;> linarith
  have c2 : |x - x ^ 3 / 6 - litI 11 1| ≤ 0.002 := by rw [l2, abs_le]; norm_num at *; constructor <;> linarith
  have c3 : x ^ 4 * (5 / 96) ≤ 0.006 := by norm_num at *; linarith
  obtain ⟨h1, h2⟩ := taylor_near (x := x) (c := litR 11 1) (s := litI 11 1) (e := 0.012) (by linarith) (by linarith)
    (by linarith) (by linarith)
  have c5 : (exact 11 1).re = Real.cos x := by rw [hxx, ← hx]; rfl
  have c6 : (exact 11 1).im = Real.sin x := by rw [hxx, ← hx]; simp [exact, cI]
  have := norm_of_parts (z := lit 11 1) (w := exact 11 1) (e := 0.012) (by rw [c5]; exact h1) (by rw [c6]; exact h2)
  push_cast
  linarith

theorem bracket5 : (5 : ℕ) * ‖lit 5 1 - exact 5 1‖ ≤ 4 / 5 := by
  have hx : 2 * Real.pi * ((1 : ℕ) : ℝ) / ((5 : ℕ) : ℝ) = 2 * (Real.pi / 5) := by push_cast; ring
  have c5 : (exact 5 1).re = Real.cos (2 * (Real.pi / 5)) := by rw [← hx]; rfl
  have c6 : (exact 5 1).im = Real.sin (2 * (Real.pi / 5)) := by rw [← hx]; simp [exact, cI]
  have l1 : (lit 5 1).re = 0.3090169943749474241022934171828191 := by norm_num [lit, litR, litNum]
  have l2 : (lit 5 1).im = 0.9510565162951535721164393333793821 := by norm_num [lit, litI, litNum]
  have s0 : (2.236 : ℝ) ≤ √5 := Real.le_sqrt_of_sq_le (by norm_num)
  have s1 : √5 ≤ (2.237 : ℝ) := Real.sqrt_le_iff.2 ⟨by norm_num, by norm_num⟩
  have s2 : √5 * √5 = 5 := Real.mul_self_sqrt (by norm_num)
  have hc : Real.cos (2 * (Real.pi / 5)) = (√5 - 1) / 4 := by
    rw [Real.cos_two_mul, Real.cos_pi_div_five]
    linear_combination (1 / 8 : ℝ) * s2
  have hs : 0 ≤ Real.sin (2 * (Real.pi / 5)) :=
    Real.sin_nonneg_of_nonneg_of_le_pi (by positivity) (by have := Real.pi_pos; linarith)
  have hs2 := Real.sin_sq_add_cos_sq (2 * (Real.pi / 5))
  rw [hc] at hs2
  have := norm_of_parts (z := lit 5 1) (w := exact 5 1) (e := 0.01)
    (by rw [c5, hc, l1, abs_le]; constructor <;> linarith)
    (by
      rw [c6, l2, abs_le]
      constructor <;> nlinarith)
  push_cast
  linarith

theorem lit_three : |litI 3 1 - cI false 3 1| ≤ 1 / 10 ^ 33 ∧ litR 3 1 = cR 3 1 := by
  have e : 2 * Real.pi * ((1 : ℕ) : ℝ) / ((3 : ℕ) : ℝ) = Real.pi - Real.pi / 3 := by push_cast; ring
  constructor
  · unfold cI
    rw [e, Real.sin_pi_sub, Real.sin_pi_div_three]
    have h1 : (1.7320508075688772935274463415058723 : ℝ) ≤ √3 := Real.le_sqrt_of_sq_le (by norm_num)
    have h2 : √3 ≤ (1.7320508075688772935274463415058726 : ℝ) := Real.sqrt_le_iff.2 ⟨by norm_num, by norm_num⟩
    have l2 : litI 3 1 = 0.8660254037844386467637231707529362 := by norm_num [litI, litNum]
    rw [l2, abs_le]
    norm_num at *
    constructor <;> linarith
  · unfold cR
    rw [e, Real.cos_pi_sub, Real.cos_pi_div_three]
    norm_num [litR, litNum]

theorem lit_hsqt2 : |litHsqt2 - hsqt2| ≤ 1 / 10 ^ 33 := by
  have e : hsqt2 = √2 / 2 := by
    unfold hsqt2
    rw [div_eq_div_iff (by positivity) (by norm_num), one_mul, Real.mul_self_sqrt (by norm_num)]
  rw [e]
  have h1 : (1.4142135623730950488016887242096979 : ℝ) ≤ √2 := Real.le_sqrt_of_sq_le (by norm_num)
  have h2 : √2 ≤ (1.4142135623730950488016887242096982 : ℝ) := Real.sqrt_le_iff.2 ⟨by norm_num, by norm_num⟩
  unfold litHsqt2
  rw [abs_le]
  norm_num at *
  constructor <;> linarith

theorem lit_sqrt2 : |litSqrt2 - √2| ≤ 1 / 10 ^ 33 := by
  have h1 : (1.4142135623730950488016887242096979 : ℝ) ≤ √2 := Real.le_sqrt_of_sq_le (by norm_num)
  have h2 : √2 ≤ (1.4142135623730950488016887242096982 : ℝ) := Real.sqrt_le_iff.2 ⟨by norm_num, by norm_num⟩
  unfold litSqrt2
  rw [abs_le]
  norm_num at *
  constructor <;> linarith

theorem first5 : ‖lit 5 1 - exact 5 1‖ ≤ 5 / 10 ^ 30 :=
  lit_first (by norm_num) bracket5 (lit_pow 5 1 _ _ (by decide +kernel))

theorem first7 : ‖lit 7 1 - exact 7 1‖ ≤ 5 / 10 ^ 30 :=
  lit_first (by norm_num) bracket7 (lit_pow 7 1 _ _ (by decide +kernel))

theorem first11 : ‖lit 11 1 - exact 11 1‖ ≤ 5 / 10 ^ 30 :=
  lit_first (by norm_num) bracket11 (lit_pow 11 1 _ _ (by decide +kernel))

theorem lit_near {n j : ℕ} (h : (n = 5 ∧ 1 ≤ j ∧ j ≤ 2) ∨ (n = 7 ∧ 1 ≤ j ∧ j ≤ 3) ∨ (n = 11 ∧ 1 ≤ j ∧ j ≤ 5)) :
    ‖lit n j - exact n j‖ ≤ 1 / 10 ^ 33 := by
  rcases h with ⟨rfl, h1, h2⟩ | ⟨rfl, h1, h2⟩ | ⟨rfl, h1, h2⟩
  · interval_cases j <;>
      exact lit_all (by norm_num) (by norm_num) (by norm_num) first5 (lit_lit 5 _ _ _ _ (by decide +kernel) (by norm_num))
        (lit_pow 5 _ _ _ (by decide +kernel))
  · interval_cases j <;>
      exact lit_all (by norm_num) (by norm_num) (by norm_num) first7 (lit_lit 7 _ _ _ _ (by decide +kernel) (by norm_num))
        (lit_pow 7 _ _ _ (by decide +kernel))
  · interval_cases j <;>
      exact lit_all (by norm_num) (by norm_num) (by norm_num) first11 (lit_lit 11 _ _ _ _ (by decide +kernel) (by norm_num))
        (lit_pow 11 _ _ _ (by decide +kernel))

end Verif.Pocket
