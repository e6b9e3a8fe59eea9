import Verif.Spec.RateChange
import Verif.Lemmas.FFT
import Verif.Lemmas.Resample
import Mathlib.Analysis.Convex.Deriv
import Mathlib.Analysis.SpecialFunctions.Trigonometric.Deriv

set_option linter.unusedSimpArgs false
set_option linter.unusedVariables false
set_option linter.style.longLine false

namespace Verif
open Complex Finset

theorem exp_image (P : ℕ) (hP : 0 < P) (w : ℝ) (n : ℤ) (k : ℕ) :
    exp ((imageOf P w k * n : ℝ) * I) = exp ((w * n / P : ℝ) * I) * rootOfUnity P (n * k) := by
  unfold rootOfUnity imageOf
  rw [← exp_add]
  congr 1
  push_cast
  ring

/-- a comb: the images add up on the multiples of `P` and cancel elsewhere -/
theorem comb (P : ℕ) (hP : 0 < P) (w : ℝ) (n : ℤ) :
    ∑ k ∈ range P, exp ((imageOf P w k * n : ℝ) * I) = if (P : ℤ) ∣ n then (P : ℂ) * exp ((w * n / P : ℝ) * I) else 0 := by
  simp only [exp_image P hP]
  rw [← mul_sum, ru_sum P hP.ne']
  split
  · ring
  · ring

theorem sum_range_mul {M : Type*} [AddCommMonoid M] (N P : ℕ) (hP : 0 < P) (f : ℕ → M) (hf : ∀ i, i % P ≠ 0 → f i = 0) :
    ∑ i ∈ range (N * P), f i = ∑ i ∈ range N, f (i * P) := by
  induction N with
  | zero => simp
  | succ N ih =>
    rw [sum_range_succ, ← ih, Nat.succ_mul, sum_range_add]
    congr 1
    rw [sum_eq_single 0]
    · simp
    · intro b hb h0
      apply hf
      have := mem_range.1 hb
      rw [Nat.mul_comm, Nat.mul_add_mod, Nat.mod_eq_of_lt this]
      exact h0
    · intro h
      exact absurd (mem_range.2 hP) h

theorem spectrum_zeroStuffed (x : List ℂ) (P : ℕ) (hP : 0 < P) (w : ℝ) : spectrum (zeroStuffed x P) w = spectrum x (w * P) := by
  unfold spectrum
  rw [zeroStuffed_length, sum_range_mul _ _ hP]
  · refine sum_congr rfl fun i hi => ?_
    rw [sig_zeroStuffed _ _ _ hP, if_pos (Nat.mul_mod_left _ _), Nat.mul_div_cancel _ hP]
    congr 2
    push_cast
    ring
  · intro i hi
    rw [sig_zeroStuffed _ _ _ hP, if_neg hi, zero_mul]

theorem dft_zeroStuffed (x : List ℂ) (P : ℕ) (hP : 0 < P) (k : ℤ) : dftAt (zeroStuffed x P) k = dftAt x k := by
  unfold dftAt
  rw [zeroStuffed_length, sum_range_mul _ _ hP]
  · refine sum_congr rfl fun i hi => ?_
    rw [sig_zeroStuffed _ _ _ hP, if_pos (Nat.mul_mod_left _ _), Nat.mul_div_cancel _ hP]
    congr 1
    unfold rootOfUnity
    congr 1
    have : (P : ℂ) ≠ 0 := by exact_mod_cast hP.ne'
    have : (x.length : ℂ) ≠ 0 := by
      have := mem_range.1 hi
      exact_mod_cast (show x.length ≠ 0 by omega)
    push_cast
    field_simp
  · intro i hi
    rw [sig_zeroStuffed _ _ _ hP, if_neg hi, zero_mul]

/-- a sum over the multiples of `r` below `n` -/
theorem sum_multiples {M : Type*} [AddCommMonoid M] (n r K : ℕ) (hr : 0 < r) (h1 : K * r < n + r) (h2 : n ≤ K * r) (f : ℕ → M) :
    ∑ i ∈ range n, (if r ∣ i then f i else 0) = ∑ k ∈ range K, f (k * r) := by
  have e := sum_range_mul K r hr (fun i => if r ∣ i then f i else 0) (fun i hi => if_neg (fun h => hi (Nat.mod_eq_zero_of_dvd h)))
  simp only [dvd_mul_left, if_true] at e
  rw [← e]
  apply sum_subset (range_mono h2)
  intro i hi hn
  have hi := mem_range.1 hi
  have hn : ¬ i < n := fun h => hn (mem_range.2 h)
  rw [if_neg]
  rintro ⟨c, rfl⟩
  have : r * c < r * K := by rw [mul_comm r K]; exact hi
  have := Nat.lt_of_mul_lt_mul_left this
  have h3 : (c + 1) * r ≤ K * r := Nat.mul_le_mul_right _ this
  have : (c + 1) * r = r * c + r := by ring
  omega

theorem spectrum_decimated (x : List ℂ) (r K : ℕ) (hr : 0 < r) (h1 : K * r < x.length + r) (h2 : x.length ≤ K * r) (w : ℝ) :
    (r : ℂ) * spectrum ((List.range K).map fun k => sig x (k * r)) w = ∑ l ∈ range r, spectrum x (imageOf r w l) := by
  unfold spectrum
  rw [sum_comm]
  have e : ∀ j ∈ range x.length, ∑ l ∈ range r, sig x j * exp (-(imageOf r w l * j) * I) =
      if r ∣ j then (r : ℂ) * (sig x j * exp (-(w * j / r) * I)) else 0 := by
    intro j _
    rw [← mul_sum]
    have c := comb r hr w (-(j : ℤ))
    have e2 : ∀ l ∈ range r, exp (-(imageOf r w l * j) * I) = exp ((imageOf r w l * ((-(j : ℤ) : ℤ) : ℝ) : ℝ) * I) := by
      intro l _
      push_cast
      congr 1
      ring
    rw [sum_congr rfl e2, c]
    simp only [Int.dvd_neg, Int.natCast_dvd_natCast]
    split
    · push_cast
      rw [show (w : ℂ) * -j / r = -(w * j / r) by ring]
      ring
    · ring
  rw [sum_congr rfl e, sum_multiples _ _ K hr h1 h2, mul_sum]
  have hl : ((List.range K).map fun k => sig x (k * r)).length = K := by simp
  rw [hl]
  refine sum_congr rfl fun k hk => ?_
  have hk := mem_range.1 hk
  have hr' : (r : ℂ) ≠ 0 := by exact_mod_cast hr.ne'
  have e3 : sig ((List.range K).map fun k => sig x (k * r)) k = sig x (k * r) := by
    change sig (reg K _) k = _
    rw [sig_reg, if_pos hk]
  rw [e3]
  congr 4
  push_cast
  field_simp

theorem dft_eq_spectrum (x : List ℂ) (k : ℤ) : dftAt x k = spectrum x (2 * Real.pi * k / x.length) := by
  unfold dftAt spectrum rootOfUnity
  refine sum_congr rfl fun j _ => ?_
  congr 2
  push_cast
  ring

theorem dft_decimated (x : List ℂ) (r M : ℕ) (hr : 0 < r) (hM : 0 < M) (hl : x.length = M * r) (k : ℤ) :
    (r : ℂ) * dftAt ((List.range M).map fun k => sig x (k * r)) k = ∑ l ∈ range r, dftAt x (k + l * M) := by
  rw [dft_eq_spectrum, spectrum_decimated x r M hr (by omega) (by omega)]
  refine sum_congr rfl fun l _ => ?_
  rw [dft_eq_spectrum, hl]
  congr 1
  unfold imageOf
  have : (r : ℝ) ≠ 0 := by exact_mod_cast hr.ne'
  have : (M : ℝ) ≠ 0 := by exact_mod_cast hM.ne'
  simp only [List.length_map, List.length_range]
  push_cast
  field_simp

/-- the samples are determined by the bins -/
theorem dft_inj (x x' : List ℂ) (hl : x.length = x'.length) (h : ∀ k : ℕ, k < x.length → dftAt x k = dftAt x' k) : x = x' := by
  rcases Nat.eq_zero_or_pos x.length with h0 | h0
  · rw [List.length_eq_zero_iff.1 h0, List.length_eq_zero_iff.1 (hl.symm.trans h0)]
  have inv : ∀ (y : List ℂ), y.length = x.length → ∀ j, j < x.length →
      (x.length : ℂ) * sig y j = ∑ k ∈ range x.length, dftAt y k * rootOfUnity x.length (j * k) := by
    intro y hy j hj
    unfold dftAt
    rw [hy]
    simp only [sum_mul]
    rw [sum_comm]
    have e : ∀ i ∈ range x.length, ∑ k ∈ range x.length, sig y i * rootOfUnity x.length (-((i : ℤ) * k)) * rootOfUnity x.length (j * k) =
        if i = j then (x.length : ℂ) * sig y i else 0 := by
      intro i hi
      have hi := mem_range.1 hi
      have e2 : ∀ k ∈ range x.length, sig y i * rootOfUnity x.length (-((i : ℤ) * k)) * rootOfUnity x.length (j * k) =
          sig y i * rootOfUnity x.length (((j : ℤ) - i) * k) := by
        intro k _
        rw [mul_assoc, ← ru_add]
        congr 2
        ring
      rw [sum_congr rfl e2, ← mul_sum, ru_sum _ h0.ne']
      by_cases hij : i = j
      · subst hij
        simp [mul_comm]
      · rw [if_neg hij, if_neg, mul_zero]
        rintro ⟨c, hc⟩
        have h3 : c = 0 := by
          by_contra hne
          have : (x.length : ℤ) ≤ |(x.length : ℤ) * c| := by
            rw [abs_mul, abs_of_nonneg (by omega)]
            exact le_mul_of_one_le_right (by omega) (Int.one_le_abs hne)
          rw [← hc] at this
          have : |(j : ℤ) - i| < x.length := by rw [abs_lt]; constructor <;> omega
          omega
        rw [h3] at hc
        omega
    rw [sum_congr rfl e, sum_ite_eq' , if_pos (mem_range.2 hj)]
  apply list_ext_sig hl
  intro j hj
  have a := inv x rfl j hj
  have b := inv x' hl.symm j hj
  have hn : (x.length : ℂ) ≠ 0 := by exact_mod_cast h0.ne'
  apply mul_left_cancel₀ hn
  rw [a, b]
  exact sum_congr rfl fun k hk => by rw [h k (mem_range.1 hk)]

/-! ### filtering the zero-stuffed sinusoid -/

theorem convAt_taps {R : Type*} [CommRing R] (u h : List R) (m : ℕ) (hm : h.length ≤ m + 1) :
    convAt u h m = ∑ j ∈ range h.length, sig h j * sig u (m - j) := by
  rw [convAt_comm]
  unfold convAt
  symm
  apply sum_subset (range_mono hm)
  intro i hi hn
  rw [sig_of_ge (by simpa using hn), zero_mul]

theorem sig_sinusoid (A w φ : ℝ) (L n : ℕ) (h : n < L) : sig (sinusoid A w φ L) n = A * Real.cos (w * n + φ) := by
  change sig (reg L _) n = _
  rw [sig_reg, if_pos h]

theorem stuffed_sinusoid (A w φ : ℝ) (L P n : ℕ) (hP : 0 < P) (hn : n < L * P) :
    (P : ℝ) * sig (zeroStuffed (sinusoid A w φ L) P) n = (∑ k ∈ range P, (A * exp ((imageOf P w k * n + φ) * I))).re := by
  have c := comb P hP w n
  have e : ∀ k ∈ range P, (A : ℂ) * exp ((imageOf P w k * n + φ) * I) =
      (A * exp (φ * I)) * exp ((imageOf P w k * ((n : ℤ) : ℝ) : ℝ) * I) := by
    intro k _
    rw [mul_assoc, ← exp_add]
    push_cast
    congr 2
    ring
  rw [sum_congr rfl e, ← mul_sum, c, sig_zeroStuffed _ _ _ hP]
  simp only [Int.natCast_dvd_natCast]
  by_cases hd : n % P = 0
  · rw [if_pos hd, if_pos (Nat.dvd_of_mod_eq_zero hd)]
    obtain ⟨i, rfl⟩ := Nat.dvd_of_mod_eq_zero hd
    rw [Nat.mul_div_cancel_left _ hP, sig_sinusoid _ _ _ _ _ (by rw [mul_comm] at hn; exact Nat.lt_of_mul_lt_mul_right hn)]
    have hP' : (P : ℝ) ≠ 0 := by exact_mod_cast hP.ne'
    have e2 : (A : ℂ) * exp (φ * I) * (P * exp (((w * ((P * i : ℕ) : ℤ) / P : ℝ) : ℂ) * I)) =
        ((P * A : ℝ) : ℂ) * exp (((w * i + φ : ℝ) : ℂ) * I) := by
      rw [show ((w * i + φ : ℝ) : ℂ) * I = φ * I + ((w * ((P * i : ℕ) : ℤ) / P : ℝ) : ℂ) * I by
        rw [show w * (((P * i : ℕ) : ℤ) : ℝ) / P = w * i by push_cast; field_simp]
        push_cast
        ring, exp_add]
      push_cast
      ring
    rw [e2, re_ofReal_mul, exp_ofReal_mul_I_re]
    ring
  · rw [if_neg hd, if_neg (fun h => hd (Nat.mod_eq_zero_of_dvd h))]
    simp

/-- the filter acts on every image separately -/
theorem conv_stuffed_sinusoid (h : List ℝ) (A w φ : ℝ) (L P m : ℕ) (hP : 0 < P) (h1 : h.length ≤ m + 1) (h2 : m < L * P) :
    (P : ℝ) * convAt (zeroStuffed (sinusoid A w φ L) P) h m =
      (∑ k ∈ range P, tapsResponse h (imageOf P w k) * (A * exp ((imageOf P w k * m + φ) * I))).re := by
  rw [convAt_taps _ _ _ h1, mul_sum]
  unfold tapsResponse
  simp only [sum_mul]
  rw [sum_comm, re_sum]
  refine sum_congr rfl fun j hj => ?_
  have hj := mem_range.1 hj
  have := stuffed_sinusoid A w φ L P (m - j) hP (by omega)
  rw [← mul_assoc, mul_comm (P : ℝ), mul_assoc, this, ← re_ofReal_mul, mul_sum]
  congr 1
  refine sum_congr rfl fun k _ => ?_
  rw [show ∀ a b c d : ℂ, a * b * (c * d) = a * (c * (b * d)) by intros; ring, ← exp_add, Nat.cast_sub (by omega : j ≤ m)]
  congr 3
  ring

/-- what a filter that passes the frequency and stops the images makes of the sinusoid, with a delay of `d` samples -/
theorem images_error (h : List ℝ) (A w φ d : ℝ) (P : ℕ) (hP : 0 < P) (m : ℝ) :
    |(∑ k ∈ range P, tapsResponse h (imageOf P w k) * (A * exp ((imageOf P w k * m + φ) * I))).re - A * Real.cos (w / P * (m - d) + φ)| ≤
      |A| * (‖tapsResponse h (w / P) * exp (w / P * d * I) - 1‖ + ∑ k ∈ Ico 1 P, ‖tapsResponse h (imageOf P w k)‖) := by
  have e0 : imageOf P w 0 = w / P := by simp [imageOf]
  have e1 : A * Real.cos (w / P * (m - d) + φ) = ((A : ℂ) * exp (((w / P * (m - d) + φ : ℝ) : ℂ) * I)).re := by
    rw [re_ofReal_mul, exp_ofReal_mul_I_re]
  rw [e1, ← sub_re, range_eq_Ico, sum_eq_sum_Ico_succ_bot hP, e0]
  have e2 : tapsResponse h (w / P) * (A * exp ((((w / P : ℝ) : ℂ) * m + φ) * I)) =
      tapsResponse h (w / P) * exp (w / P * d * I) * (A * exp (((w / P * (m - d) + φ : ℝ) : ℂ) * I)) := by
    rw [show (((w / P : ℝ) : ℂ) * m + φ) * I = w / P * d * I + ((w / P * (m - d) + φ : ℝ) : ℂ) * I by push_cast; ring, exp_add]
    ring
  rw [e2, zero_add]
  have e3 : ∀ a b c : ℂ, a * b + c - b = (a - 1) * b + c := by intros; ring
  rw [e3]
  refine (abs_re_le_norm _).trans ((norm_add_le _ _).trans ?_)
  rw [mul_add]
  have nA : ∀ t : ℝ, ‖(A : ℂ) * exp (t * I)‖ = |A| := by
    intro t
    rw [norm_mul, norm_exp_ofReal_mul_I, mul_one, norm_real, Real.norm_eq_abs]
  gcongr
  · rw [norm_mul, nA, mul_comm]
  · refine (norm_sum_le _ _).trans ?_
    rw [mul_sum]
    refine sum_le_sum fun k _ => ?_
    rw [norm_mul, mul_comm]
    have := nA (imageOf P w k * m + φ)
    push_cast at this
    rw [this]

/-! ### the error of linear interpolation -/

theorem lerp_le (f f' f'' : ℝ → ℝ) (h1 : ∀ t, HasDerivAt f (f' t) t) (h2 : ∀ t, HasDerivAt f' (f'' t) t) (C : ℝ) (hC : ∀ t, f'' t ≤ C)
    (a s : ℝ) (hs0 : 0 ≤ s) (hs1 : s ≤ 1) : (1 - s) * f a + s * f (a + 1) - f (a + s) ≤ C / 2 * (s * (1 - s)) := by
  have hd1 : ∀ t, HasDerivAt (fun t => f t - C / 2 * t ^ 2) (f' t - C * t) t := by
    intro t
    have := (h1 t).sub ((hasDerivAt_pow 2 t).const_mul (C / 2))
    exact this.congr_deriv (by simp; ring)
  have hd2 : ∀ t, HasDerivAt (fun t => f' t - C * t) (f'' t - C) t := by
    intro t
    have := (h2 t).sub ((hasDerivAt_id t).const_mul C)
    exact this.congr_deriv (by simp)
  have hder : deriv (fun t => f t - C / 2 * t ^ 2) = fun t => f' t - C * t := funext fun t => (hd1 t).deriv
  have hder2 : deriv (fun t => f' t - C * t) = fun t => f'' t - C := funext fun t => (hd2 t).deriv
  have hc : ConcaveOn ℝ Set.univ (fun t => f t - C / 2 * t ^ 2) := by
    apply concaveOn_univ_of_deriv2_nonpos
    · exact fun t => (hd1 t).differentiableAt
    · rw [hder]
      exact fun t => (hd2 t).differentiableAt
    · intro t
      simp only [Function.iterate_succ, Function.iterate_zero, Function.comp, id]
      rw [hder, hder2]
      linarith [hC t]
  have := hc.2 (Set.mem_univ a) (Set.mem_univ (a + 1)) (by linarith : (0 : ℝ) ≤ 1 - s) hs0 (by ring)
  simp only [smul_eq_mul] at this
  rw [show (1 - s) * a + s * (a + 1) = a + s by ring] at this
  nlinarith

theorem lerp_sinusoid (A θ ψ a s : ℝ) (hs0 : 0 ≤ s) (hs1 : s ≤ 1) :
    |(1 - s) * (A * Real.cos (θ * a + ψ)) + s * (A * Real.cos (θ * (a + 1) + ψ)) - A * Real.cos (θ * (a + s) + ψ)| ≤
      |A| * (θ ^ 2 / 8) := by
  have key : ∀ A : ℝ, (1 - s) * (A * Real.cos (θ * a + ψ)) + s * (A * Real.cos (θ * (a + 1) + ψ)) - A * Real.cos (θ * (a + s) + ψ) ≤
      |A| * (θ ^ 2 / 8) := by
    intro A
    have hlin : ∀ t, HasDerivAt (fun t => θ * t + ψ) θ t := by
      intro t
      have := ((hasDerivAt_id t).const_mul θ).add_const ψ
      simpa using this
    have h := lerp_le (fun t => A * Real.cos (θ * t + ψ)) (fun t => -(A * θ) * Real.sin (θ * t + ψ))
      (fun t => -(A * θ ^ 2) * Real.cos (θ * t + ψ))
      (fun t => by
        have := ((Real.hasDerivAt_cos _).comp t (hlin t)).const_mul A
        exact this.congr_deriv (by ring))
      (fun t => by
        have := ((Real.hasDerivAt_sin _).comp t (hlin t)).const_mul (-(A * θ))
        exact this.congr_deriv (by ring))
      (|A| * θ ^ 2)
      (fun t => by
        refine (le_abs_self _).trans ?_
        rw [abs_mul, abs_neg, abs_mul, abs_of_nonneg (sq_nonneg θ)]
        exact mul_le_of_le_one_right (by positivity) (Real.abs_cos_le_one _))
      a s hs0 hs1
    refine h.trans ?_
    have : s * (1 - s) ≤ 1 / 4 := by nlinarith [sq_nonneg (s - 1 / 2)]
    have hp : 0 ≤ |A| * θ ^ 2 / 2 := by positivity
    nlinarith
  rw [abs_le]
  constructor
  · have := key (-A)
    rw [abs_neg] at this
    linarith
  · exact key A

end Verif
