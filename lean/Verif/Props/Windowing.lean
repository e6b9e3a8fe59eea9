import Verif.Model.Windowing
import Verif.Lemmas.Spaces
import Verif.Props.Statistics
import Verif.Props.Spaces
import Mathlib.Analysis.SpecialFunctions.Trigonometric.Bounds
import Mathlib.Analysis.SpecialFunctions.Exponential
import Mathlib.Analysis.SpecialFunctions.Trigonometric.Sinc

/-!
# C46: window functions
-/

namespace Verif

/-- the first `n` values read the same backwards -/
def Palindrome (n : ℕ) (w : ℕ → ℝ) : Prop := ∀ i, i < n → w (n - 1 - i) = w i

/-! ### the grid -/

theorem linDivisor_pos (n : ℕ) (b : Bool) : (0 : ℝ) < linDivisor n b := by
  have : 0 < linDivisor n b := by unfold linDivisor; omega
  exact_mod_cast this

theorem linDivisor_true {n : ℕ} (hn : 2 ≤ n) : (linDivisor n true : ℝ) = (n : ℝ) - 1 := by
  have : linDivisor n true = n - 1 := by unfold linDivisor; simp; omega
  rw [this, Nat.cast_sub (by omega), Nat.cast_one]

theorem grid_reverse {n i : ℕ} (hi : i < n) (hn : 2 ≤ n) (a b : ℝ) :
    a + ((n - 1 - i : ℕ) : ℝ) * ((b - a) / linDivisor n true) = a + b - (a + (i : ℝ) * ((b - a) / linDivisor n true)) := by
  have h := linDivisor_true hn
  have hp := linDivisor_pos n true
  rw [h] at hp ⊢
  have : ((n - 1 - i : ℕ) : ℝ) = (n : ℝ) - 1 - i := by
    rw [Nat.cast_sub (by omega), Nat.cast_sub (by omega), Nat.cast_one]
  rw [this]
  field_simp
  ring

/-- a function of the grid that is symmetric about the middle gives a palindrome -/
theorem palindrome_of_grid (n : ℕ) (a b : ℝ) (f : ℝ → ℝ) (hf : ∀ x, f (a + b - x) = f x) :
    Palindrome n (fun i => f (a + (i : ℝ) * ((b - a) / linDivisor n true))) := by
  intro i hi
  by_cases hn : 2 ≤ n
  · simp only [grid_reverse hi hn]
    exact hf _
  · have h1 : n - 1 - i = i := by omega
    rw [h1]

theorem grid_mem {n i : ℕ} (hi : i < n) {a b : ℝ} (h : a ≤ b) :
    a ≤ a + (i : ℝ) * ((b - a) / linDivisor n true) ∧ a + (i : ℝ) * ((b - a) / linDivisor n true) ≤ b := by
  have hd := linDivisor_pos n true
  have hle : (i : ℝ) ≤ linDivisor n true := by
    have : i ≤ linDivisor n true := by
      unfold linDivisor
      simp
      omega
    exact_mod_cast this
  have e2 : (i : ℝ) * ((b - a) / linDivisor n true) = (i : ℝ) / linDivisor n true * (b - a) := by ring
  have hq0 : 0 ≤ (i : ℝ) / linDivisor n true := by positivity
  have hq1 : (i : ℝ) / linDivisor n true ≤ 1 := by rw [div_le_one hd]; exact hle
  rw [e2]
  constructor
  · have := mul_nonneg hq0 (sub_nonneg.2 h)
    linarith
  · have := mul_le_mul_of_nonneg_right hq1 (sub_nonneg.2 h)
    linarith

variable (e : Exec) (mem : List ℝ) (out : Span) (hw : out.Within mem)
include hw

/-! ### cosine windows -/

/-- **C46** Hamming window: exactly the output is overwritten, with `0.54 - 0.46 cos(2πi/(n-1))`, a palindrome between 0.08 and 1. -/
theorem C46_hamming : ∃ (mem' : List ℝ) (w : ℕ → ℝ), hammingWindow e mem out = .ok mem' ∧ Writes mem mem' out w ∧
    (2 ≤ out.size → ∀ i, i < out.size → w i = 0.54 - 0.46 * Real.cos (2 * Real.pi * i / ((out.size : ℝ) - 1))) ∧
    Palindrome out.size w ∧ ∀ i, i < out.size → 0.08 ≤ w i ∧ w i ≤ 1 := by
  obtain ⟨m1, e1, h1⟩ := linSpace_writes e hw (Writes.refl mem out hw) 0 (2 * Real.pi) true
  obtain ⟨m2, e2, h2⟩ := functionInto_writes e Real.cos hw h1
  obtain ⟨m3, e3, h3⟩ := compoundVS_writes e .mul (-0.46) hw h2
  obtain ⟨m4, e4, h4⟩ := compoundVS_writes e .add 0.54 hw h3
  refine ⟨m4, _, ?_, h4, ?_, ?_, ?_⟩
  · unfold hammingWindow
    rw [e1, Out.ok_bind, e2, Out.ok_bind, e3, Out.ok_bind, e4]
  · intro hn i _
    simp only [ArithOp.apply, linDivisor_true hn]
    rw [show 0 + (i : ℝ) * ((2 * Real.pi - 0) / ((out.size : ℝ) - 1)) = 2 * Real.pi * i / ((out.size : ℝ) - 1) by ring]
    ring
  · refine palindrome_of_grid out.size 0 (2 * Real.pi) (fun x => Real.cos x * (-0.46) + 0.54) ?_
    intro x
    simp only [zero_add, Real.cos_two_pi_sub]
  · intro i _
    simp only [ArithOp.apply]
    have ha := Real.neg_one_le_cos (0 + (i : ℝ) * ((2 * Real.pi - 0) / linDivisor out.size true))
    have hb := Real.cos_le_one (0 + (i : ℝ) * ((2 * Real.pi - 0) / linDivisor out.size true))
    constructor <;> linarith

/-- **C46** Blackman window -/
theorem C46_blackman : ∃ (mem' : List ℝ) (w : ℕ → ℝ), blackmanWindow e mem out = .ok mem' ∧ Writes mem mem' out w ∧
    (2 ≤ out.size → ∀ i, i < out.size → w i = 0.42 - 0.5 * Real.cos (2 * Real.pi * i / ((out.size : ℝ) - 1)) +
      0.08 * Real.cos (4 * Real.pi * i / ((out.size : ℝ) - 1))) ∧
    Palindrome out.size w ∧ ∀ i, i < out.size → 0 ≤ w i ∧ w i ≤ 1 := by
  obtain ⟨m1, e1, h1⟩ := linSpace_writes e hw (Writes.refl mem out hw) 0 (2 * Real.pi) true
  obtain ⟨m2, e2, h2⟩ := forEach_writes (g' := fun i => (fun x => 0.42 - 0.5 * Real.cos x + 0.08 * Real.cos (2 * x))
      (0 + (i : ℝ) * ((2 * Real.pi - 0) / linDivisor out.size true)))
    (fun kreal => pure (0.42 - 0.5 * Real.cos kreal + 0.08 * Real.cos (2 * kreal))) hw h1 (fun i _ => rfl)
  refine ⟨m2, _, ?_, h2, ?_, ?_, ?_⟩
  · unfold blackmanWindow
    rw [e1, Out.ok_bind, e2]
  · intro hn i _
    simp only [linDivisor_true hn]
    rw [show 0 + (i : ℝ) * ((2 * Real.pi - 0) / ((out.size : ℝ) - 1)) = 2 * Real.pi * i / ((out.size : ℝ) - 1) by ring,
      show 2 * (2 * Real.pi * i / ((out.size : ℝ) - 1)) = 4 * Real.pi * i / ((out.size : ℝ) - 1) by ring]
  · refine palindrome_of_grid out.size 0 (2 * Real.pi) (fun x => 0.42 - 0.5 * Real.cos x + 0.08 * Real.cos (2 * x)) ?_
    intro x
    simp only [zero_add, Real.cos_two_pi_sub, Real.cos_two_mul]
  · intro i _
    simp only [Real.cos_two_mul]
    have ha := Real.neg_one_le_cos (0 + (i : ℝ) * ((2 * Real.pi - 0) / linDivisor out.size true))
    have hb := Real.cos_le_one (0 + (i : ℝ) * ((2 * Real.pi - 0) / linDivisor out.size true))
    constructor <;> nlinarith

/-- **C46** Blackman–Harris window -/
theorem C46_blackmanHarris : ∃ (mem' : List ℝ) (w : ℕ → ℝ), blackmanHarrisWindow e mem out = .ok mem' ∧
    Writes mem mem' out w ∧
    (2 ≤ out.size → ∀ i, i < out.size → w i = 0.35875 - 0.48829 * Real.cos (2 * Real.pi * i / ((out.size : ℝ) - 1)) +
      0.14128 * Real.cos (4 * Real.pi * i / ((out.size : ℝ) - 1)) -
      0.01168 * Real.cos (6 * Real.pi * i / ((out.size : ℝ) - 1))) ∧
    Palindrome out.size w ∧ ∀ i, i < out.size → 0.00006 ≤ w i ∧ w i ≤ 1 := by
  obtain ⟨m1, e1, h1⟩ := linSpace_writes e hw (Writes.refl mem out hw) 0 (2 * Real.pi) true
  obtain ⟨m2, e2, h2⟩ := forEach_writes (g' := fun i => (fun x => 0.35875 - 0.48829 * Real.cos x + 0.14128 * Real.cos (2 * x)
        + (-0.01168) * Real.cos (3 * x))
      (0 + (i : ℝ) * ((2 * Real.pi - 0) / linDivisor out.size true)))
    (fun kreal => pure (0.35875 - 0.48829 * Real.cos kreal + 0.14128 * Real.cos (2 * kreal)
      + (-0.01168) * Real.cos (3 * kreal))) hw h1 (fun i _ => rfl)
  refine ⟨m2, _, ?_, h2, ?_, ?_, ?_⟩
  · unfold blackmanHarrisWindow
    rw [e1, Out.ok_bind, e2]
  · intro hn i _
    simp only [linDivisor_true hn]
    rw [show 0 + (i : ℝ) * ((2 * Real.pi - 0) / ((out.size : ℝ) - 1)) = 2 * Real.pi * i / ((out.size : ℝ) - 1) by ring,
      show 2 * (2 * Real.pi * i / ((out.size : ℝ) - 1)) = 4 * Real.pi * i / ((out.size : ℝ) - 1) by ring,
      show 3 * (2 * Real.pi * i / ((out.size : ℝ) - 1)) = 6 * Real.pi * i / ((out.size : ℝ) - 1) by ring]
    ring
  · refine palindrome_of_grid out.size 0 (2 * Real.pi) (fun x => 0.35875 - 0.48829 * Real.cos x + 0.14128 * Real.cos (2 * x)
        + (-0.01168) * Real.cos (3 * x)) ?_
    intro x
    simp only [zero_add, Real.cos_two_pi_sub, Real.cos_two_mul, Real.cos_three_mul]
  · intro i _
    simp only [Real.cos_two_mul, Real.cos_three_mul]
    have ha := Real.neg_one_le_cos (0 + (i : ℝ) * ((2 * Real.pi - 0) / linDivisor out.size true))
    have hb := Real.cos_le_one (0 + (i : ℝ) * ((2 * Real.pi - 0) / linDivisor out.size true))
    generalize Real.cos (0 + (i : ℝ) * ((2 * Real.pi - 0) / linDivisor out.size true)) = c at *
    constructor
    · nlinarith [mul_nonneg (sub_nonneg.2 hb) (sq_nonneg (c - 1)), mul_nonneg (sub_nonneg.2 hb) (sub_nonneg.2 hb),
        mul_nonneg (sub_nonneg.2 hb) (sq_nonneg (c + 1))]
    · nlinarith [mul_nonneg (neg_le_iff_add_nonneg.1 ha) (sq_nonneg (c - 1)), mul_nonneg (neg_le_iff_add_nonneg.1 ha) (sq_nonneg (c + 1)),
        mul_nonneg (neg_le_iff_add_nonneg.1 ha) (sub_nonneg.2 hb)]

/-- **C46** Flat top window; its values are between -0.0706 and 1.000000003 (it is not meant to be positive). -/
theorem C46_flatTop (hn : 2 ≤ out.size) (hmax : out.size < 2 ^ 64) : ∃ (mem' : List ℝ) (w : ℕ → ℝ), flatTopWindow e mem out = .ok mem' ∧
    Writes mem mem' out w ∧
    (∀ i, i < out.size → w i = 0.21557895 - 0.41663158 * Real.cos (2 * Real.pi * i / ((out.size : ℝ) - 1)) +
      0.277263158 * Real.cos (4 * Real.pi * i / ((out.size : ℝ) - 1)) -
      0.083578947 * Real.cos (6 * Real.pi * i / ((out.size : ℝ) - 1)) +
      0.006947368 * Real.cos (8 * Real.pi * i / ((out.size : ℝ) - 1))) ∧
    Palindrome out.size w ∧ ∀ i, i < out.size → -0.0706 ≤ w i ∧ w i ≤ 1.000000003 := by
  have hn' : (2 : ℝ) ≤ out.size := by exact_mod_cast hn
  have hN : ((out.size : ℝ) - 1) ≠ 0 := by linarith
  have hu : ((usub out.size 1 : ℕ) : ℝ) = (out.size : ℝ) - 1 := by
    rw [usub, if_pos (by omega), Nat.cast_sub (by omega), Nat.cast_one]
  obtain ⟨m1, e1, h1⟩ := linSpace_writes e hw (Writes.refl mem out hw) 0 ((usub out.size 1 : ℕ) : ℝ) true
  obtain ⟨m2, e2, h2⟩ := forEach_writes (g' := fun i => (fun x => 0.21557895 + (-0.41663158) * Real.cos x + 0.277263158 * Real.cos (2 * x)
        + (-0.083578947) * Real.cos (3 * x) + 0.006947368 * Real.cos (4 * x))
      (0 + (i : ℝ) * ((2 * Real.pi - 0) / linDivisor out.size true)))
    (fun kreal => pure (0.21557895 + (-0.41663158) * Real.cos (2 * Real.pi / ((out.size : ℝ) - 1) * kreal)
    + 0.277263158 * Real.cos (4 * Real.pi / ((out.size : ℝ) - 1) * kreal)
    + (-0.083578947) * Real.cos (6 * Real.pi / ((out.size : ℝ) - 1) * kreal)
    + 0.006947368 * Real.cos (8 * Real.pi / ((out.size : ℝ) - 1) * kreal))) hw h1 (fun i _ => by
      rw [linDivisor_true hn, hu, Out.pure_def]
      congr 1
      simp only [zero_add, sub_zero, div_self hN, mul_one]
      congr 1
      · congr 1
        · congr 1
          · congr 3
            ring
          · congr 2
            ring
        · congr 2
          ring
      · congr 2
        ring)
  refine ⟨m2, _, ?_, h2, ?_, ?_, ?_⟩
  · unfold flatTopWindow
    simp only []
    rw [fdiv_ok hN, Out.ok_bind, fdiv_ok hN, Out.ok_bind, fdiv_ok hN, Out.ok_bind, fdiv_ok hN, Out.ok_bind, e1, Out.ok_bind, e2]
  · intro i _
    simp only [linDivisor_true hn]
    rw [show 0 + (i : ℝ) * ((2 * Real.pi - 0) / ((out.size : ℝ) - 1)) = 2 * Real.pi * i / ((out.size : ℝ) - 1) by ring,
      show 2 * (2 * Real.pi * i / ((out.size : ℝ) - 1)) = 4 * Real.pi * i / ((out.size : ℝ) - 1) by ring,
      show 3 * (2 * Real.pi * i / ((out.size : ℝ) - 1)) = 6 * Real.pi * i / ((out.size : ℝ) - 1) by ring,
      show 4 * (2 * Real.pi * i / ((out.size : ℝ) - 1)) = 8 * Real.pi * i / ((out.size : ℝ) - 1) by ring]
    ring
  · refine palindrome_of_grid out.size 0 (2 * Real.pi) (fun x => 0.21557895 + (-0.41663158) * Real.cos x + 0.277263158 * Real.cos (2 * x)
        + (-0.083578947) * Real.cos (3 * x) + 0.006947368 * Real.cos (4 * x)) ?_
    intro x
    have h4 : ∀ y : ℝ, Real.cos (4 * y) = 2 * (2 * Real.cos y ^ 2 - 1) ^ 2 - 1 := by
      intro y
      rw [show 4 * y = 2 * (2 * y) by ring, Real.cos_two_mul, Real.cos_two_mul]
    simp only [zero_add, Real.cos_two_pi_sub, Real.cos_two_mul, Real.cos_three_mul, h4]
  · intro i _
    have h4 : ∀ y : ℝ, Real.cos (4 * y) = 2 * (2 * Real.cos y ^ 2 - 1) ^ 2 - 1 := by
      intro y
      rw [show 4 * y = 2 * (2 * y) by ring, Real.cos_two_mul, Real.cos_two_mul]
    constructor
    · simp only [Real.cos_two_mul, Real.cos_three_mul, h4]
      have ha := Real.neg_one_le_cos (0 + (i : ℝ) * ((2 * Real.pi - 0) / linDivisor out.size true))
      have hb := Real.cos_le_one (0 + (i : ℝ) * ((2 * Real.pi - 0) / linDivisor out.size true))
      generalize Real.cos (0 + (i : ℝ) * ((2 * Real.pi - 0) / linDivisor out.size true)) = c at *
      nlinarith [mul_nonneg (sq_nonneg (c - 0.2075)) (sub_nonneg.2 hb), mul_nonneg (sq_nonneg (c - 0.2075)) (sq_nonneg (c - 1)),
        sq_nonneg (c - 0.2075)]
    · generalize 0 + (i : ℝ) * ((2 * Real.pi - 0) / linDivisor out.size true) = x
      have h1 := Real.neg_one_le_cos x
      have h2 := Real.cos_le_one (2 * x)
      have h3 := Real.neg_one_le_cos (3 * x)
      have h4 := Real.cos_le_one (4 * x)
      simp only []
      linarith

omit hw in
/-- **C46** A flat top window of one sample is not a number (the library divides by `n - 1`). -/
theorem C46_flatTop_one (h1 : out.size = 1) : flatTopWindow e mem out = .ub := by
  unfold flatTopWindow
  simp only [h1]
  rw [fdiv_zero (by norm_num)]
  rfl

/-! ### other windows -/

/-- **C46** Rectangular window -/
theorem C46_rectangular : ∃ mem', rectangularWindow mem out = .ok mem' ∧ Writes mem mem' out (fun _ => 1) :=
  fill_writes mem out (fun _ => (1 : ℝ)) hw

/-- **C46** Triangular window -/
theorem C46_triangular : ∃ (mem' : List ℝ) (w : ℕ → ℝ), triangularWindow e mem out = .ok mem' ∧ Writes mem mem' out w ∧
    (2 ≤ out.size → ∀ i, i < out.size → w i = 1 - |2 * (i : ℝ) / ((out.size : ℝ) - 1) - 1|) ∧
    Palindrome out.size w ∧ ∀ i, i < out.size → 0 ≤ w i ∧ w i ≤ 1 := by
  obtain ⟨m1, e1, h1⟩ := linSpace_writes e hw (Writes.refl mem out hw) 0 2 true
  obtain ⟨m2, e2, h2⟩ := compoundVS_writes e .sub 1 hw h1
  obtain ⟨m3, e3, h3⟩ := functionInto_writes e (fun x => |x|) hw h2
  obtain ⟨m4, e4, h4⟩ := compoundVS_writes e .mul (-1) hw h3
  obtain ⟨m5, e5, h5⟩ := compoundVS_writes e .add 1 hw h4
  refine ⟨m5, _, ?_, h5, ?_, ?_, ?_⟩
  · unfold triangularWindow
    rw [e1, Out.ok_bind, e2, Out.ok_bind, e3, Out.ok_bind, e4, Out.ok_bind, e5]
  · intro hn i _
    simp only [ArithOp.apply, linDivisor_true hn]
    rw [show 0 + (i : ℝ) * ((2 - 0) / ((out.size : ℝ) - 1)) = 2 * (i : ℝ) / ((out.size : ℝ) - 1) by ring]
    ring
  · refine palindrome_of_grid out.size 0 2 (fun x => |x - 1| * (-1) + 1) ?_
    intro x
    rw [show 0 + 2 - x - 1 = -(x - 1) by ring, abs_neg]
  · intro i hi
    simp only [ArithOp.apply]
    obtain ⟨ha, hb⟩ := grid_mem hi (a := 0) (b := 2) (by norm_num)
    generalize 0 + (i : ℝ) * ((2 - 0) / linDivisor out.size true) = x at *
    have h1 : |x - 1| ≤ 1 := by rw [abs_le]; constructor <;> linarith
    have h2 := abs_nonneg (x - 1)
    constructor <;> linarith

/-- **C46** Gaussian window of at least two samples with nonzero sigma: `exp(-x²/(2σ²))` for `x` from -1 to 1. -/
theorem C46_gaussian (hn : 2 ≤ out.size) (sigma : ℝ) (hs : sigma ≠ 0) : ∃ (mem' : List ℝ) (w : ℕ → ℝ),
    gaussianWindow e mem out sigma = .ok mem' ∧ Writes mem mem' out w ∧
    (∀ i, i < out.size → w i = Real.exp (-(2 * (i : ℝ) / ((out.size : ℝ) - 1) - 1) ^ 2 / (2 * sigma ^ 2))) ∧
    Palindrome out.size w ∧ ∀ i, i < out.size → Real.exp (-1 / (2 * sigma ^ 2)) ≤ w i ∧ w i ≤ 1 := by
  have hn' : (2 : ℝ) ≤ out.size := by exact_mod_cast hn
  obtain ⟨M, hM⟩ : ∃ M : ℝ, M = ((out.size : ℝ) - 1) / 2 := ⟨_, rfl⟩
  have hM0 : 0 < M := by rw [hM]; linarith
  have hN0 : (out.size : ℝ) - 1 ≠ 0 := by linarith
  have hden : sigma * M ≠ 0 := mul_ne_zero hs hM0.ne'
  obtain ⟨m1, e1, h1⟩ := linSpace_writes e hw (Writes.refl mem out hw) (-M) M true
  obtain ⟨m2, e2, h2⟩ := compoundVS_writes e .mul (1 / (sigma * M)) hw h1
  obtain ⟨m3, e3, h3⟩ := arithVV_self_writes e .mul hw h2
  obtain ⟨m4, e4, h4⟩ := compoundVS_writes e .mul (-0.5) hw h3
  obtain ⟨m5, e5, h5⟩ := functionInto_writes e Real.exp hw h4
  have form : ∀ x : ℝ, x * (1 / (sigma * M)) * (x * (1 / (sigma * M))) * (-0.5) = -(x / M) ^ 2 / (2 * sigma ^ 2) := by
    intro x
    field_simp
    ring
  refine ⟨m5, _, ?_, h5, ?_, ?_, ?_⟩
  · unfold gaussianWindow
    simp only []
    rw [fdiv_ok (by norm_num), Out.ok_bind, ← hM, e1, Out.ok_bind, fdiv_ok hden, Out.ok_bind, e2, Out.ok_bind, e3, Out.ok_bind, e4,
      Out.ok_bind, e5]
  · intro i _
    simp only [ArithOp.apply, form, linDivisor_true hn]
    congr 3
    rw [hM]
    field_simp
    ring
  · refine palindrome_of_grid out.size (-M) M (fun x => Real.exp (x * (1 / (sigma * M)) * (x * (1 / (sigma * M))) * (-0.5))) ?_
    intro x
    simp only [form]
    congr 3
    ring
  · intro i hi
    simp only [ArithOp.apply, form]
    obtain ⟨ha, hb⟩ := grid_mem hi (a := -M) (b := M) (by linarith)
    generalize -M + (i : ℝ) * ((M - -M) / linDivisor out.size true) = x at *
    have hx : (x / M) ^ 2 ≤ 1 := by
      rw [sq_le_one_iff_abs_le_one, abs_div, abs_of_pos hM0, div_le_one hM0, abs_le]
      exact ⟨ha, hb⟩
    constructor
    · apply Real.exp_le_exp.2
      apply div_le_div_of_nonneg_right _ (by positivity)
      linarith
    · rw [Real.exp_le_one_iff]
      apply div_nonpos_of_nonpos_of_nonneg
      · have := sq_nonneg (x / M)
        linarith
      · positivity

/-- **C46** A Gaussian window of one sample, or with sigma zero, is not a number. -/
theorem C46_gaussian_degenerate (sigma : ℝ) (h : out.size = 1 ∨ sigma = 0) : gaussianWindow e mem out sigma = .ub := by
  unfold gaussianWindow
  simp only []
  rw [fdiv_ok (by norm_num), Out.ok_bind]
  obtain ⟨m1, e1, -⟩ := linSpace_writes e hw (Writes.refl mem out hw) (-(((out.size : ℝ) - 1) / 2)) (((out.size : ℝ) - 1) / 2) true
  rw [e1, Out.ok_bind, fdiv_zero]
  · rfl
  · rcases h with h | h
    · rw [h]
      norm_num
    · rw [h, zero_mul]

/-- **C46** Lanczos window: `sin x / x` for `x` from -π to π -/
theorem C46_lanczos : ∃ (mem' : List ℝ) (w : ℕ → ℝ), lanczosWindow e mem out = .ok mem' ∧ Writes mem mem' out w ∧
    (2 ≤ out.size → ∀ i, i < out.size → w i = Real.sinc (Real.pi * (2 * (i : ℝ) / ((out.size : ℝ) - 1) - 1))) ∧
    Palindrome out.size w ∧ ∀ i, i < out.size → 0 ≤ w i ∧ w i ≤ 1 := by
  obtain ⟨m1, e1, h1⟩ := linSpace_writes e hw (Writes.refl mem out hw) (-Real.pi) Real.pi true
  obtain ⟨m2, e2, h2⟩ := forEach_writes (g' := fun i => Real.sinc
      (-Real.pi + (i : ℝ) * ((Real.pi - -Real.pi) / linDivisor out.size true)))
    (fun kreal => open Classical in if kreal ≠ 0 then fdiv (Real.sin kreal) kreal else pure 1) hw h1 (fun i _ => by
      generalize -Real.pi + (i : ℝ) * ((Real.pi - -Real.pi) / linDivisor out.size true) = x
      by_cases hx : x = 0
      · subst hx
        simp
      · rw [if_pos hx, fdiv_ok hx, Real.sinc_of_ne_zero hx])
  refine ⟨m2, _, ?_, h2, ?_, ?_, ?_⟩
  · unfold lanczosWindow
    rw [e1, Out.ok_bind, e2]
  · intro hn i _
    simp only [linDivisor_true hn]
    congr 1
    ring
  · refine palindrome_of_grid out.size (-Real.pi) Real.pi Real.sinc ?_
    intro x
    rw [show -Real.pi + Real.pi - x = -x by ring, Real.sinc_neg]
  · intro i hi
    obtain ⟨ha, hb⟩ := grid_mem hi (a := -Real.pi) (b := Real.pi) (by linarith [Real.pi_pos])
    generalize -Real.pi + (i : ℝ) * ((Real.pi - -Real.pi) / linDivisor out.size true) = x at *
    refine ⟨?_, Real.sinc_le_one x⟩
    rcases lt_trichotomy x 0 with hx | hx | hx
    · rw [← Real.sinc_neg, Real.sinc_of_ne_zero (by linarith)]
      exact div_nonneg (Real.sin_nonneg_of_nonneg_of_le_pi (by linarith) (by linarith)) (by linarith)
    · rw [hx, Real.sinc_zero]
      norm_num
    · rw [Real.sinc_of_ne_zero hx.ne']
      exact div_nonneg (Real.sin_nonneg_of_nonneg_of_le_pi (by linarith) (by linarith)) (by linarith)

/-! ### Kaiser -/

omit hw in
theorem besselI0_summable (x : ℝ) : Summable fun k : ℕ => ((x / 2) ^ k / (k.factorial : ℝ)) ^ 2 := by
  have h := Real.summable_pow_div_factorial (|x / 2| ^ 2)
  refine Summable.of_nonneg_of_le (fun k => by positivity) (fun k => ?_) h
  rw [div_pow, ← pow_mul, mul_comm k 2, pow_mul, sq_abs]
  apply div_le_div_of_nonneg_left (by positivity) (by positivity)
  have : (1 : ℝ) ≤ k.factorial := by exact_mod_cast Nat.one_le_iff_ne_zero.2 (Nat.factorial_ne_zero k)
  nlinarith

omit hw in
theorem besselI0_one_le (x : ℝ) : 1 ≤ besselI0 x := by
  unfold besselI0
  have := (besselI0_summable x).le_tsum 0 (fun k _ => by positivity)
  simpa using this

omit hw in
theorem besselI0_mono {x y : ℝ} (hx : 0 ≤ x) (h : x ≤ y) : besselI0 x ≤ besselI0 y := by
  unfold besselI0
  refine (besselI0_summable x).tsum_le_tsum (fun k => ?_) (besselI0_summable y)
  apply pow_le_pow_left₀ (by positivity)
  apply div_le_div_of_nonneg_right _ (by positivity)
  apply pow_le_pow_left₀ (by positivity)
  linarith

/-- **C46** Kaiser window: `I₀(πα√(1-x²)) / I₀(πα)` for `x` from -1 to 1 -/
theorem C46_kaiser (alpha : ℝ) (ha : 0 ≤ alpha) : ∃ (mem' : List ℝ) (w : ℕ → ℝ), kaiserWindow e mem out alpha = .ok mem' ∧
    Writes mem mem' out w ∧
    (2 ≤ out.size → ∀ i, i < out.size → w i =
      besselI0 (Real.pi * alpha * Real.sqrt (1 - (2 * (i : ℝ) / ((out.size : ℝ) - 1) - 1) ^ 2)) / besselI0 (Real.pi * alpha)) ∧
    Palindrome out.size w ∧ ∀ i, i < out.size → 1 / besselI0 (Real.pi * alpha) ≤ w i ∧ w i ≤ 1 := by
  have hpa : 0 ≤ Real.pi * alpha := mul_nonneg Real.pi_pos.le ha
  have hI : 0 < besselI0 (Real.pi * alpha) := lt_of_lt_of_le one_pos (besselI0_one_le _)
  obtain ⟨m1, e1, h1⟩ := linSpace_writes e hw (Writes.refl mem out hw) (-1) 1 true
  obtain ⟨m2, e2, h2⟩ := forEach_writes (g' := fun i => (fun x : ℝ => besselI0 (Real.pi * alpha * Real.sqrt (max 0 (1 - x * x))) /
      besselI0 (Real.pi * alpha)) (-1 + (i : ℝ) * ((1 - -1) / linDivisor out.size true)))
    (fun kreal => do
      let piAlpha := Real.pi * alpha
      let arg := Real.sqrt (max 0 (1 - kreal * kreal))
      let num ← cylBesselI0 (piAlpha * arg)
      let den ← cylBesselI0 piAlpha
      fdiv num den) hw h1 (fun i _ => by
        simp only []
        rw [cylBesselI0, if_neg (not_lt.2 (mul_nonneg hpa (Real.sqrt_nonneg _))), Out.ok_bind, cylBesselI0, if_neg (not_lt.2 hpa),
          Out.ok_bind, fdiv_ok hI.ne'])
  refine ⟨m2, _, ?_, h2, ?_, ?_, ?_⟩
  · unfold kaiserWindow
    rw [e1, Out.ok_bind, e2]
  · intro hn i hi
    obtain ⟨hl, hr⟩ := grid_mem hi (a := -1) (b := 1) (by norm_num)
    simp only []
    have hx : -1 + (i : ℝ) * ((1 - -1) / linDivisor out.size true) = 2 * (i : ℝ) / ((out.size : ℝ) - 1) - 1 := by
      rw [linDivisor_true hn]
      ring
    rw [hx] at hl hr ⊢
    rw [max_eq_right (by nlinarith), sq]
  · refine palindrome_of_grid out.size (-1) 1 (fun x : ℝ => besselI0 (Real.pi * alpha * Real.sqrt (max 0 (1 - x * x))) /
      besselI0 (Real.pi * alpha)) ?_
    intro x
    rw [show (-1 + 1 - x) * (-1 + 1 - x) = x * x by ring]
  · intro i _
    simp only []
    generalize -1 + (i : ℝ) * ((1 - -1) / linDivisor out.size true) = x
    constructor
    · exact div_le_div_of_nonneg_right (besselI0_one_le _) hI.le
    · rw [div_le_one hI]
      apply besselI0_mono (mul_nonneg hpa (Real.sqrt_nonneg _))
      have : Real.sqrt (max 0 (1 - x * x)) ≤ 1 := by
        rw [Real.sqrt_le_left (by norm_num), one_pow]
        apply max_le (by norm_num)
        nlinarith
      nlinarith

omit hw in
theorem forN_throws {σ : Type} {body : ℕ → σ → Out σ} {s : σ} : ∀ n, 0 < n → body 0 s = .throws → forN n body s = .throws
  | 1, _, h => by
    show (forN 0 body s >>= body 0) = _
    exact h
  | n + 2, _, h => by
    show (forN (n + 1) body s >>= body (n + 1)) = _
    rw [forN_throws (n + 1) (by omega) h]
    rfl

/-- **C46** A negative parameter of the Kaiser window is refused by the standard library, as soon as there is a sample. -/
theorem C46_kaiser_negative (alpha : ℝ) (ha : alpha < 0) (hn : 0 < out.size) : kaiserWindow e mem out alpha = .throws := by
  have hpa : Real.pi * alpha < 0 := mul_neg_of_pos_of_neg Real.pi_pos ha
  obtain ⟨m1, e1, h1⟩ := linSpace_writes e hw (Writes.refl mem out hw) (-1) 1 true
  unfold kaiserWindow
  rw [e1, Out.ok_bind]
  unfold forEach
  apply forN_throws _ hn
  simp only []
  rw [rd_some (h1.written 0 hn), Out.ok_bind]
  norm_num
  rw [cylBesselI0, if_neg (lt_irrefl _), Out.ok_bind, cylBesselI0, if_pos hpa]
  rfl

/-! ### gains -/

omit hw in
/-- **C46** CoherentGain is the average of the window, EnergyGain the average of its squares. -/
theorem C46_gains {c : Kern} (hc : c.Ok) (w : List ℝ) (h : w ≠ []) :
    ∃ g p, coherentGain c w = .ok g ∧ energyGain c w = .ok p ∧ g = avg w ∧ p = avg (w.map fun a => a ^ 2) ∧ g ^ 2 ≤ p ∧
      ((∀ a ∈ w, 0 ≤ a ∧ a ≤ 1) → 0 ≤ g ∧ p ≤ g ∧ g ≤ 1) := by
  have hl := length_ne_zero h
  have hl' : (0 : ℝ) < w.length := lt_of_le_of_ne (by positivity) (Ne.symm hl)
  refine ⟨avg w, avg (w.map fun a => a ^ 2), ?_, ?_, rfl, rfl, ?_, ?_⟩
  · unfold coherentGain
    rw [C41_sum hc, Out.ok_bind, fdiv_ok hl]
    rfl
  · unfold energyGain
    rw [C41_sumSquare hc, Out.ok_bind, fdiv_ok hl, avg, List.length_map]
  · have := (C41_variance hc w h).2
    rw [avg_sq_dev h] at this
    linarith
  · intro hr
    refine ⟨avg_nonneg fun a ha => (hr a ha).1, ?_, ?_⟩
    · unfold avg
      rw [List.length_map]
      apply div_le_div_of_nonneg_right _ hl'.le
      conv_rhs => rw [← List.map_id w]
      apply List.sum_le_sum
      intro a ha
      have := hr a ha
      simp only [id]
      nlinarith
    · unfold avg
      rw [div_le_one hl']
      have : (w.map fun a => a).sum ≤ (w.map fun _ => (1 : ℝ)).sum := List.sum_le_sum fun a ha => (hr a ha).2
      simpa using this

-- a Hamming window of eight samples in a larger memory
example (e : Exec) : ∃ mem' w, hammingWindow e (List.replicate 10 7) ⟨1, 8⟩ = .ok mem' ∧
    Writes (List.replicate 10 7) mem' ⟨1, 8⟩ w ∧ w 0 = 0.08 ∧ w 7 = 0.08 := by
  obtain ⟨m, w, h1, h2, h3, h4, -⟩ := C46_hamming e (List.replicate 10 7) ⟨1, 8⟩ (by simp [Span.Within])
  have h0 : w 0 = 0.08 := by
    rw [h3 (by simp) 0 (by simp)]
    norm_num
  exact ⟨m, w, h1, h2, h0, (h4 0 (by simp)).trans h0⟩

omit hw in
/-- **C46** The allocating form of a window function returns exactly what the function writes into any output of that length. -/
theorem C46_allocating {window : List ℝ → Span → Out (List ℝ)} {w : ℕ → ℕ → ℝ}
    (h : ∀ mem out, out.Within mem → ∃ mem', window mem out = .ok mem' ∧ Writes mem mem' out (w out.size)) (length : ℕ) :
    windowNew window length = .ok ((List.range length).map (w length)) := by
  obtain ⟨m, e1, h1⟩ := h (List.replicate length 0) ⟨0, length⟩ (by simp [Span.Within])
  unfold windowNew
  rw [e1, h1.whole (by simp)]

-- for instance the rectangular window of three samples
example : windowNew rectangularWindow 3 = .ok [1, 1, 1] :=
  C46_allocating (window := rectangularWindow) (w := fun _ _ => 1) (fun mem out hw => C46_rectangular mem out hw) 3

end Verif
