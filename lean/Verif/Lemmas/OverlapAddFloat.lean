import Verif.Spec.FloatTransform
import Verif.Lemmas.OverlapAddRounded
import Verif.Lemmas.PocketFBlue
import Verif.Lemmas.FFT

/-! # Accuracy of one chunk of overlap-add -/

set_option linter.unusedSimpArgs false
set_option linter.unusedSectionVars false
set_option linter.unusedVariables false

namespace Verif.PocketF
open Finset

variable {F : Type} [Zero F] [Add F] [Sub F] [Mul F] [Fma F] [Neg F]

namespace Ola

theorem num_e {u q K X t : ℝ} (hu : 0 ≤ u) (hX : 0 ≤ X) (hK : 1 ≤ K) (hq : 64 * K ≤ q) (ht : t ≤ u * X) :
    q * (u * X + t) + 2 * t ≤ 3 * q * u * X := by
  have hq0 : 0 ≤ q := by linarith
  have a := mul_le_mul_of_nonneg_left ht hq0
  have b : 2 * (u * X) ≤ q * (u * X) := mul_le_mul_of_nonneg_right (by linarith) (by positivity)
  nlinarith

theorem num_p {u r K U V t eU eV : ℝ} (hu : 0 ≤ u) (hu2 : 192 * u ≤ 1) (hU : 0 ≤ U) (hV : 0 ≤ V) (hK : 1 ≤ K)
    (hr : 192 * K * u ≤ r) (hr0 : 0 ≤ r) (hU0 : 0 ≤ eU) (hV0 : 0 ≤ eV) (heU : eU ≤ r * U) (heV : eV ≤ r * V)
    (ht : t ≤ u * (U * V)) :
    10 * (u * ((K * U + eU) * (K * V + eV)) + t) + (K * U + eU) * eV + eU * (K * V) ≤ 11 / 5 * (r * (K + r)) * (U * V) := by
  have hW : 0 ≤ U * V := by positivity
  have a1 : K * U + eU ≤ (K + r) * U := by linarith
  have a2 : K * V + eV ≤ (K + r) * V := by linarith
  have b1 : (K * U + eU) * (K * V + eV) ≤ ((K + r) * U) * ((K + r) * V) := mul_le_mul a1 a2 (by positivity) (by positivity)
  have b2 : (K * U + eU) * eV ≤ ((K + r) * U) * (r * V) := mul_le_mul a1 heV hV0 (by positivity)
  have b3 : eU * (K * V) ≤ (r * U) * (K * V) := mul_le_mul_of_nonneg_right heU (by positivity)
  have b4 := mul_le_mul_of_nonneg_left b1 hu
  have c1 : (192 * K * u) * (K + r) ≤ r * (K + r) := mul_le_mul_of_nonneg_right hr (by positivity)
  have c2 : (192 * u) * (r * (K + r)) ≤ 1 * (r * (K + r)) := mul_le_mul_of_nonneg_right hu2 (by positivity)
  have c3 : 192 * u ≤ r * (K + r) := by
    have : 192 * u ≤ r := by nlinarith
    nlinarith
  have c4 : r * K ≤ r * (K + r) := by nlinarith
  have coef : 10 * (u * (K + r) ^ 2) + 10 * u + (K + r) * r + r * K ≤ 11 / 5 * (r * (K + r)) := by
    have e : 192 * (u * (K + r) ^ 2) = (192 * K * u) * (K + r) + (192 * u) * (r * (K + r)) := by ring
    nlinarith
  have := mul_le_mul_of_nonneg_right coef hW
  have e1 : u * (((K + r) * U) * ((K + r) * V)) = u * (K + r) ^ 2 * (U * V) := by ring
  have e2 : ((K + r) * U) * (r * V) = (K + r) * r * (U * V) := by ring
  have e3 : (r * U) * (K * V) = r * K * (U * V) := by ring
  rw [e1] at b4
  rw [e2] at b2
  rw [e3] at b3
  linarith

theorem num_final {u q r K W t p φ d : ℝ} (hu : 0 ≤ u) (hu2 : 192 * u ≤ 1) (hW : 0 ≤ W) (hK : 1 ≤ K)
    (hr : r = 3 * q * u) (hq : 64 * K ≤ q) (hp0 : 0 ≤ p) (hp : p ≤ 11 / 5 * (r * (K + r)) * W) (ht0 : 0 ≤ t)
    (ht : t ≤ u * W) (hφ0 : 0 ≤ φ) (hφ : φ * K ≤ 1 + 2 * u) (hd : d * K ≤ 2 * u) :
    φ * (q * (u * (K ^ 2 * W + p) + t)) + 2 * t + φ * (K * p) + d * (K * (K ^ 2 * W))
      ≤ 4 * (r / K) * (1 + r / K) ^ 2 * K ^ 2 * W := by
  have hK0 : 0 < K := by linarith
  have hq0 : 0 ≤ q := by linarith
  have hr0 : 0 ≤ r := by rw [hr]; positivity
  have hru : 192 * K * u ≤ r := by rw [hr]; nlinarith
  have e : 4 * (r / K) * (1 + r / K) ^ 2 * K ^ 2 * W = 4 * (r * (K + r) ^ 2 * W) / K := by field_simp
  rw [e, le_div_iff₀ hK0]
  have hφ' : φ * K ≤ 97 / 96 := by linarith
  have hφ0' : 0 ≤ φ * K := by positivity
  obtain ⟨Φ, hΦ⟩ : ∃ Φ, Φ = φ * K := ⟨_, rfl⟩
  obtain ⟨D, hD⟩ : ∃ D, D = d * K := ⟨_, rfl⟩
  have ex : (φ * (q * (u * (K ^ 2 * W + p) + t)) + 2 * t + φ * (K * p) + d * (K * (K ^ 2 * W))) * K =
      Φ * (q * u * (K ^ 2 * W) + q * u * p + q * t + K * p) + 2 * t * K + D * (K * (K ^ 2 * W)) := by
    rw [hΦ, hD]; ring
  rw [ex]
  rw [← hΦ] at hφ' hφ0'
  rw [← hD] at hd
  have hqu : q * u = r / 3 := by rw [hr]; ring
  have k1 : q * t ≤ r / 3 * W := by rw [← hqu]; nlinarith
  have k2 : q * u * p ≤ r / 3 * (11 / 5 * (r * (K + r)) * W) := by
    rw [hqu]; exact mul_le_mul_of_nonneg_left hp (by positivity)
  have k3 : K * p ≤ K * (11 / 5 * (r * (K + r)) * W) := mul_le_mul_of_nonneg_left hp hK0.le
  have hS0 : 0 ≤ q * u * (K ^ 2 * W) + q * u * p + q * t + K * p := by positivity
  have k4 : Φ * (q * u * (K ^ 2 * W) + q * u * p + q * t + K * p)
      ≤ 97 / 96 * (q * u * (K ^ 2 * W) + q * u * p + q * t + K * p) := mul_le_mul_of_nonneg_right hφ' hS0
  have k5 : D * (K * (K ^ 2 * W)) ≤ 2 * u * (K * (K ^ 2 * W)) := mul_le_mul_of_nonneg_right hd (by positivity)
  have k6 : 192 * K * u * (K ^ 2 * W) ≤ r * (K ^ 2 * W) := mul_le_mul_of_nonneg_right hru (by positivity)
  have k7 : 2 * t * K ≤ 2 * (u * W) * K := by nlinarith
  have k8 : 192 * K * u * W ≤ r * W := mul_le_mul_of_nonneg_right hru hW
  have k9 : q * u * (K ^ 2 * W) = r / 3 * (K ^ 2 * W) := by rw [hqu]
  obtain ⟨m1, hm1⟩ : ∃ m, m = r * K ^ 2 * W := ⟨_, rfl⟩
  obtain ⟨m2, hm2⟩ : ∃ m, m = r ^ 2 * K * W := ⟨_, rfl⟩
  obtain ⟨m3, hm3⟩ : ∃ m, m = r ^ 3 * W := ⟨_, rfl⟩
  obtain ⟨m0, hm0⟩ : ∃ m, m = r * W := ⟨_, rfl⟩
  have n1 : 0 ≤ m1 := by rw [hm1]; positivity
  have n2 : 0 ≤ m2 := by rw [hm2]; positivity
  have n3 : 0 ≤ m3 := by rw [hm3]; positivity
  have n0 : m0 ≤ m1 := by
    rw [hm0, hm1]
    have : r * W * 1 ≤ r * W * K ^ 2 := mul_le_mul_of_nonneg_left (one_le_pow₀ hK) (by positivity)
    linarith
  have g1 : r / 3 * (11 / 5 * (r * (K + r)) * W) = 11 / 15 * (m2 + m3) := by rw [hm2, hm3]; ring
  have g2 : K * (11 / 5 * (r * (K + r)) * W) = 11 / 5 * (m1 + m2) := by rw [hm1, hm2]; ring
  have g3 : r / 3 * (K ^ 2 * W) = m1 / 3 := by rw [hm1]; ring
  have g4 : r / 3 * W = m0 / 3 := by rw [hm0]; ring
  have g5 : 2 * u * (K * (K ^ 2 * W)) = 192 * K * u * (K ^ 2 * W) / 96 := by ring
  have g6 : 2 * (u * W) * K = 192 * K * u * W / 96 := by ring
  have g7 : r * (K ^ 2 * W) = m1 := by rw [hm1]; ring
  have g8 : 4 * (r * (K + r) ^ 2 * W) = 4 * m1 + 8 * m2 + 4 * m3 := by rw [hm1, hm2, hm3]; ring
  rw [g8]
  rw [g1] at k2
  rw [g2] at k3
  rw [g3] at k9
  rw [g4] at k1
  rw [g5] at k5
  rw [g6] at k7
  rw [g7] at k6
  rw [← hm0] at k8
  linarith

theorem sig_zipWith_mul (a b : List (Cx F)) (k : ℕ) (ha : k < a.length) (hb : k < b.length) :
    sig (List.zipWith (· * ·) a b) k = PocketF.smul false (sig a k) (sig b k) := by
  unfold sig
  simp only [List.getD_eq_getElem?_getD, List.getElem?_zipWith, List.getElem?_eq_getElem ha, List.getElem?_eq_getElem hb,
    Option.getD_some]
  rfl

theorem ru_norm (n : ℕ) (m : ℤ) : ‖rootOfUnity n m‖ = 1 := by
  unfold rootOfUnity
  rw [show (2 * Real.pi * Complex.I * m / n : ℂ) = ((2 * Real.pi * m / n : ℝ) : ℂ) * Complex.I by push_cast; ring]
  exact Complex.norm_exp_ofReal_mul_I _

theorem dft_norm {A : FloatArithNeg F} {x : List (Cx F)} {X : ℝ} {K : ℕ} (hl : x.length = K)
    (h : ∀ c ∈ x, FinC A c ∧ ‖cval A c‖ ≤ X) (g : ℕ → ℤ) :
    ‖∑ j ∈ range K, cval A (sig x j) * rootOfUnity K (g j)‖ ≤ K * X := by
  refine (norm_sum_le _ _).trans ?_
  have : ∀ j ∈ range K, ‖cval A (sig x j) * rootOfUnity K (g j)‖ ≤ X := by
    intro j hj
    rw [norm_mul, ru_norm, mul_one]
    have hj' : j < x.length := by rw [hl]; exact mem_range.1 hj
    apply (h _ _).2
    unfold sig
    rw [List.getD_eq_getElem?_getD, List.getElem?_eq_getElem hj']
    exact List.getElem_mem hj'
  refine (sum_le_sum this).trans ?_
  simp

set_option maxHeartbeats 1000000 in
theorem chunk_near (A : FloatArithNeg F) (one : F) (inv : Option F) (K : ℕ) (q G U V : ℝ)
    {fft : Bool → Option F → List (Cx F) → Out (List (Cx F))} (hT : TransformWithin A one K q G fft)
    (hK : 1 ≤ K) (hq : 64 * K ≤ q) (hG : 1 ≤ G) (hone : A.finite one ∧ A.val one = 1)
    (hinv : A.finite (inv.getD one) ∧ |A.val (inv.getD one) - 1 / K| ≤ 2 * A.u / K) (hu : 192 * A.u ≤ 1)
    (htU : A.tiny ≤ A.u * U) (htV : A.tiny ≤ A.u * V) (htW : A.tiny ≤ A.u * (U * V))
    (hHU : G * (U + A.tiny) ≤ A.huge) (hHV : G * (V + A.tiny) ≤ A.huge)
    (r : ℝ) (hr : r = 3 * q * A.u) (hHP : 5 * G * (K + r) ^ 2 * (U * V) ≤ A.huge) :
    ApproxCircularConvolution (cxAdd A) (olaPipelineComplex fft inv) K U V
      (4 * (r / K) * (1 + r / K) ^ 2 * K ^ 2 * (U * V)) := by
  intro a b ha hb haU hbV
  have u0 := A.u_nonneg
  have t0 := A.tiny_nonneg
  have hKr : (1 : ℝ) ≤ K := by exact_mod_cast hK
  have hK0 : (0 : ℝ) < K := by linarith
  have hq0 : 0 ≤ q := by linarith
  have hr0 : 0 ≤ r := by rw [hr]; positivity
  have hru : 192 * K * A.u ≤ r := by rw [hr]; nlinarith
  change ∀ x ∈ a, FinC A x ∧ ‖cval A x‖ ≤ U at haU
  change ∀ x ∈ b, FinC A x ∧ ‖cval A x‖ ≤ V at hbV
  have hU0 : 0 ≤ U := by
    obtain ⟨x, hx⟩ := List.exists_mem_of_length_pos (by omega : 0 < a.length)
    exact (norm_nonneg _).trans (haU x hx).2
  have hV0 : 0 ≤ V := by
    obtain ⟨x, hx⟩ := List.exists_mem_of_length_pos (by omega : 0 < b.length)
    exact (norm_nonneg _).trans (hbV x hx).2
  have hW0 : 0 ≤ U * V := by positivity
  have h1 : |A.val ((none : Option F).getD one)| ≤ 2 := by simp [hone.2]
  obtain ⟨fb, b1, b2, b3⟩ := hT true none b V hb hbV hone.1 h1 hHV
  obtain ⟨fa, a1, a2, a3⟩ := hT true none a U ha haU hone.1 h1 hHU
  simp only [Option.getD_none, hone.2, abs_one, one_mul, Complex.ofReal_one, if_true] at a3 b3
  set Ah : ℕ → ℂ := fun k => ∑ j ∈ range K, cval A (sig a j) * rootOfUnity K (-1 * ((j : ℤ) * k)) with hAh
  set Bh : ℕ → ℂ := fun k => ∑ j ∈ range K, cval A (sig b j) * rootOfUnity K (-1 * ((j : ℤ) * k)) with hBh
  have nA : ∀ k, ‖Ah k‖ ≤ K * U := fun k => dft_norm ha haU _
  have nB : ∀ k, ‖Bh k‖ ≤ K * V := fun k => dft_norm hb hbV _
  obtain ⟨eU, heU⟩ : ∃ e, e = q * (A.u * U + A.tiny) + 2 * A.tiny := ⟨_, rfl⟩
  obtain ⟨eV, heV⟩ : ∃ e, e = q * (A.u * V + A.tiny) + 2 * A.tiny := ⟨_, rfl⟩
  have eU0 : 0 ≤ eU := by rw [heU]; positivity
  have eV0 : 0 ≤ eV := by rw [heV]; positivity
  have eU1 : eU ≤ r * U := by rw [heU, hr]; exact num_e u0 hU0 hKr hq htU
  have eV1 : eV ≤ r * V := by rw [heV, hr]; exact num_e u0 hV0 hKr hq htV
  obtain ⟨p, hp⟩ : ∃ p, p = 10 * (A.u * ((K * U + eU) * (K * V + eV)) + A.tiny) + (K * U + eU) * eV + eU * (K * V) := ⟨_, rfl⟩
  have p0 : 0 ≤ p := by rw [hp]; positivity
  have p1 : p ≤ 11 / 5 * (r * (K + r)) * (U * V) := by rw [hp]; exact num_p u0 hu hU0 hV0 hKr hru hr0 eU0 eV0 eU1 eV1 htW
  have tW : 48 * A.tiny ≤ U * V := by
    have : A.u * (U * V) ≤ 1 / 192 * (U * V) := mul_le_mul_of_nonneg_right (by linarith) hW0
    linarith
  obtain ⟨Z, hZ⟩ : ∃ Z, Z = (K + r) ^ 2 * (U * V) := ⟨_, rfl⟩
  have hZ0 : 0 ≤ Z := by rw [hZ]; positivity
  have zW : U * V ≤ Z := by
    rw [hZ]
    have : 1 * (U * V) ≤ (K + r) ^ 2 * (U * V) := mul_le_mul_of_nonneg_right (one_le_pow₀ (by linarith)) hW0
    linarith
  have zK : K ^ 2 * (U * V) ≤ Z := by
    rw [hZ]
    exact mul_le_mul_of_nonneg_right (pow_le_pow_left₀ (by linarith) (by linarith) 2) hW0
  have zp : p ≤ 11 / 5 * Z := by
    refine p1.trans ?_
    rw [hZ]
    have : r * (K + r) * (U * V) ≤ (K + r) ^ 2 * (U * V) := mul_le_mul_of_nonneg_right (by nlinarith) hW0
    linarith
  have hHZ : 5 * Z ≤ A.huge := by
    refine le_trans ?_ hHP
    have : 1 * (5 * Z) ≤ G * (5 * Z) := mul_le_mul_of_nonneg_right hG (by positivity)
    rw [hZ] at this ⊢
    linarith
  have prodH : 4 * ((K * U + eU) * (K * V + eV) + A.tiny) ≤ A.huge := by
    refine le_trans ?_ hHZ
    have : (K * U + eU) * (K * V + eV) ≤ Z := by
      rw [hZ]
      have := mul_le_mul (show K * U + eU ≤ (K + r) * U by linarith) (show K * V + eV ≤ (K + r) * V by linarith)
        (by positivity) (by positivity)
      linarith
    linarith
  -- the product
  set P := List.zipWith (· * ·) fa fb with hP
  have hPl : P.length = K := by rw [hP, List.length_zipWith, a2, b2, min_self]
  have hPk : ∀ k, k < K → FinC A (sig P k) ∧ ‖cval A (sig P k) - Ah k * Bh k‖ ≤ p := by
    intro k hk
    rw [hP, sig_zipWith_mul _ _ _ (by omega) (by omega)]
    have := smul_close (z := Ah k) (b := Bh k) false (a3 k hk).1 (b3 k hk).1 ((a3 k hk).2.trans heU.ge) (nA k)
      ((b3 k hk).2.trans heV.ge) (nB k) hu prodH
    rw [← hp, show Pocket.smul false (Ah k) (Bh k) = Ah k * Bh k from by
      apply Complex.ext <;> simp [Pocket.smul]] at this
    exact this
  have nP : ∀ k, ‖Ah k * Bh k‖ ≤ K ^ 2 * (U * V) := by
    intro k
    rw [norm_mul]
    have := mul_le_mul (nA k) (nB k) (norm_nonneg _) (by positivity)
    linarith
  have hPb : ∀ x ∈ P, FinC A x ∧ ‖cval A x‖ ≤ K ^ 2 * (U * V) + p := by
    intro x hx
    obtain ⟨k, hk, e⟩ := mem_sig hx
    rw [← e]
    obtain ⟨f, d⟩ := hPk k (by omega)
    exact ⟨f, norm_of_close d (nP k)⟩
  -- the inverse transform
  have hφ : |A.val (inv.getD one)| * K ≤ 1 + 2 * A.u := by
    have e1 : |A.val (inv.getD one)| ≤ 1 / K + 2 * A.u / K := by
      have := abs_sub_abs_le_abs_sub (A.val (inv.getD one)) (1 / K)
      rw [abs_of_nonneg (show (0 : ℝ) ≤ 1 / K by positivity)] at this
      linarith [hinv.2]
    calc |A.val (inv.getD one)| * K ≤ (1 / K + 2 * A.u / K) * K := mul_le_mul_of_nonneg_right e1 hK0.le
      _ = _ := by field_simp
  have hd : |A.val (inv.getD one) - 1 / K| * K ≤ 2 * A.u := by
    calc |A.val (inv.getD one) - 1 / K| * K ≤ (2 * A.u / K) * K := mul_le_mul_of_nonneg_right hinv.2 hK0.le
      _ = _ := by field_simp
  have hφ2 : |A.val (inv.getD one)| ≤ 2 := by
    have := abs_nonneg (A.val (inv.getD one))
    nlinarith
  obtain ⟨c, c1, c2, c3⟩ := hT false inv P (K ^ 2 * (U * V) + p) hPl hPb hinv.1 hφ2 (by
    refine le_trans ?_ hHP
    have : K ^ 2 * (U * V) + p + A.tiny ≤ 5 * Z := by linarith
    have := mul_le_mul_of_nonneg_left this (show 0 ≤ G by linarith)
    rw [hZ] at this
    linarith)
  refine ⟨c, ?_, c2, fun k hk => ?_⟩
  · unfold olaPipelineComplex
    rw [b1, Out.ok_bind, a1, Out.ok_bind, require_true (by rw [a2, b2]), Out.ok_bind, c1]
  obtain ⟨f, d⟩ := c3 k hk
  refine ⟨f, ?_⟩
  change ‖cval A (sig c k) - ∑ i ∈ range K, cval A (sig a i) * cval A (sig b ((k + K - i) % K))‖ ≤ _
  simp only [Bool.false_eq_true, if_false, one_mul] at d
  -- the exact convolution
  have hexact : ∑ i ∈ range K, cval A (sig a i) * cval A (sig b ((k + K - i) % K)) =
      (1 / (K : ℂ)) * ∑ m ∈ range K, Ah m * Bh m * rootOfUnity K ((m : ℤ) * k) := by
    have := dft_product (a.map (cxAdd A).val) (b.map (cxAdd A).val) K (by omega) (by simpa using ha) (by simpa using hb) k hk
    simp only [sig_map_val] at this
    rw [show (cxAdd A).val = cval A from rfl] at this
    rw [← this]
    congr 1
    apply sum_congr rfl
    intro m _
    unfold dftAt
    rw [List.length_map, List.length_map, ha, hb]
    simp only [hAh, hBh, neg_mul, one_mul]
    congr 2
    · congr 1
      funext j
      rw [show sig (a.map (cval A)) j = cval A (sig a j) from sig_map_val (cxAdd A) a j]
    · apply sum_congr rfl
      intro j _
      rw [show sig (b.map (cval A)) j = cval A (sig b j) from sig_map_val (cxAdd A) b j]
    · ring
  rw [hexact]
  set E := ∑ m ∈ range K, Ah m * Bh m * rootOfUnity K ((m : ℤ) * k) with hE
  set E' := ∑ m ∈ range K, cval A (sig P m) * rootOfUnity K ((m : ℤ) * k) with hE'
  have nE : ‖E‖ ≤ K * (K ^ 2 * (U * V)) := by
    refine (norm_sum_le _ _).trans ?_
    have : ∀ m ∈ range K, ‖Ah m * Bh m * rootOfUnity K ((m : ℤ) * k)‖ ≤ K ^ 2 * (U * V) := by
      intro m _
      rw [norm_mul, ru_norm, mul_one]; exact nP m
    refine (sum_le_sum this).trans ?_
    simp
  have nEE : ‖E' - E‖ ≤ K * p := by
    rw [hE, hE', ← sum_sub_distrib]
    refine (norm_sum_le _ _).trans ?_
    have : ∀ m ∈ range K, ‖cval A (sig P m) * rootOfUnity K ((m : ℤ) * k) - Ah m * Bh m * rootOfUnity K ((m : ℤ) * k)‖ ≤ p := by
      intro m hm
      rw [← sub_mul, norm_mul, ru_norm, mul_one]; exact (hPk m (mem_range.1 hm)).2
    refine (sum_le_sum this).trans ?_
    simp
  set v : ℝ := A.val (inv.getD one) with hv
  have split : cval A (sig c k) - (1 / (K : ℂ)) * E =
      (cval A (sig c k) - v * E') + (v : ℂ) * (E' - E) + (((v - 1 / K : ℝ)) : ℂ) * E := by
    push_cast; ring
  rw [split]
  refine (norm_add_le _ _).trans ((add_le_add ((norm_add_le _ _).trans (add_le_add d le_rfl)) le_rfl).trans ?_)
  rw [norm_mul, norm_mul, Complex.norm_real, Complex.norm_real, Real.norm_eq_abs, Real.norm_eq_abs]
  have m1 := mul_le_mul_of_nonneg_left nEE (abs_nonneg v)
  have m2 := mul_le_mul_of_nonneg_left nE (abs_nonneg (v - 1 / K))
  have := num_final u0 hu hW0 hKr hr hq p0 p1 t0 htW (abs_nonneg v) hφ hd
  linarith

end Ola
end Verif.PocketF
