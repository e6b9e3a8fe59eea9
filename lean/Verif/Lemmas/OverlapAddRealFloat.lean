import Verif.Spec.FloatRealTransform
import Verif.Lemmas.OverlapAddFloat
import Verif.Props.PocketRealRounded

/-! # Accuracy of one chunk of overlap-add for real signals -/

set_option linter.unusedSimpArgs false
set_option linter.unusedSectionVars false
set_option linter.unusedVariables false

namespace Verif.PocketF
open Finset

variable {F : Type} [Zero F] [Add F] [Sub F] [Mul F] [Fma F] [Neg F]

namespace Ola

theorem hx_bins {n : ℕ} (hn : 0 < n) (Z : ℕ → ℂ) {m : ℕ} (hm : m < n) :
    Pocket.hx n (bins (halfComplex Z)) m = Pocket.hx n Z m := by
  have b : ∀ c, 0 < c → bins (halfComplex Z) c = Z c := by
    intro c hc
    unfold bins halfComplex
    rw [if_neg (by omega), if_pos (by omega), if_neg (by omega), if_neg (by omega)]
    rw [show (2 * c - 1 + 1) / 2 = c by omega, show 2 * c / 2 = c by omega]
  unfold Pocket.hx
  rw [Nat.mod_eq_of_lt hm]
  split
  · simp [bins, halfComplex]
  · rw [b m (by omega), b (n - m) (by omega)]

theorem hci_sum {n : ℕ} (hn : 0 < n) (Z : ℕ → ℂ) (j : ℕ) :
    halfComplexInverse n (halfComplex Z) j = (∑ m ∈ range n, Pocket.hx n Z m * rootOfUnity n ((m : ℤ) * j)).re := by
  rw [inverse_idft hn]
  unfold Pocket.idft
  congr 1
  apply sum_congr rfl
  intro m hm
  rw [hx_bins hn Z (mem_range.1 hm), Pocket.w_ru]
  congr 2
  simp [Pocket.sgn, mul_comm]

theorem hx_sub_norm {n : ℕ} (hn : 0 < n) {Z W : ℕ → ℂ} {p : ℝ} (h : ∀ k, k < n / 2 + 1 → ‖Z k - W k‖ ≤ p) {m : ℕ} (hm : m < n) :
    ‖Pocket.hx n Z m - Pocket.hx n W m‖ ≤ p := by
  unfold Pocket.hx
  rw [Nat.mod_eq_of_lt hm]
  have re : ∀ k, k < n / 2 + 1 → ‖((Z k).re : ℂ) - ((W k).re : ℂ)‖ ≤ p := by
    intro k hk
    rw [← Complex.ofReal_sub, Complex.norm_real, ← Complex.sub_re]
    exact (Complex.abs_re_le_norm _).trans (h k hk)
  split
  · exact re 0 (by omega)
  · split
    · exact h m (by omega)
    · split
      · exact re m (by omega)
      · rw [← map_sub, RCLike.norm_conj]
        exact h _ (by omega)

theorem hx_of_herm {n : ℕ} (hn : 0 < n) {Z : ℕ → ℂ} (hp : Z n = Z 0)
    (h : ∀ m, m ≤ n → Z (n - m) = (starRingEnd ℂ) (Z m)) {m : ℕ} (hm : m < n) :
    Pocket.hx n Z m = Z m := by
  unfold Pocket.hx
  rw [Nat.mod_eq_of_lt hm]
  split
  · rename_i h0
    subst h0
    have := h 0 (by omega)
    rw [Nat.sub_zero, hp] at this
    exact (Complex.conj_eq_iff_re.1 this.symm)
  · split
    · rfl
    · split
      · have := h m (by omega)
        rw [show n - m = m by omega] at this
        exact (Complex.conj_eq_iff_re.1 this.symm)
      · rw [h m (by omega), Complex.conj_conj]

theorem ru_conj (n : ℕ) (m : ℤ) : (starRingEnd ℂ) (rootOfUnity n m) = rootOfUnity n (-m) := by
  unfold rootOfUnity
  rw [← Complex.exp_conj]
  congr 1
  have h2 : (starRingEnd ℂ) 2 = 2 := map_ofNat _ 2
  simp [h2]

theorem ru_add_mul (n : ℕ) (hn : 0 < n) (m k : ℤ) : rootOfUnity n (m + n * k) = rootOfUnity n m := by
  unfold rootOfUnity
  have hn' : (n : ℂ) ≠ 0 := by exact_mod_cast hn.ne'
  rw [show (2 * Real.pi * Complex.I * ((m + n * k : ℤ) : ℂ) / n : ℂ)
    = 2 * Real.pi * Complex.I * m / n + k * (2 * Real.pi * Complex.I) by push_cast; field_simp, Complex.exp_add,
    Complex.exp_int_mul_two_pi_mul_I, mul_one]

theorem real_dft_herm {n : ℕ} (hn : 0 < n) (x : ℕ → ℝ) (m : ℕ) (hm : m ≤ n) :
    ∑ j ∈ range n, (x j : ℂ) * rootOfUnity n (-((j : ℤ) * (n - m : ℕ))) =
      (starRingEnd ℂ) (∑ j ∈ range n, (x j : ℂ) * rootOfUnity n (-((j : ℤ) * m))) := by
  rw [map_sum]
  apply sum_congr rfl
  intro j _
  rw [map_mul, Complex.conj_ofReal, ru_conj, neg_neg]
  congr 1
  rw [show -((j : ℤ) * ((n - m : ℕ) : ℤ)) = (j : ℤ) * m + n * (-j) by push_cast [hm]; ring, ru_add_mul n hn]

theorem real_dft_norm {A : FloatArithNeg F} {x : List F} {X : ℝ} {K : ℕ} (hl : x.length = K)
    (h : ∀ c ∈ x, A.finite c ∧ |A.val c| ≤ X) (g : ℕ → ℤ) :
    ‖∑ j ∈ range K, (A.val (sig x j) : ℂ) * rootOfUnity K (g j)‖ ≤ K * X := by
  refine (norm_sum_le _ _).trans ?_
  have : ∀ j ∈ range K, ‖(A.val (sig x j) : ℂ) * rootOfUnity K (g j)‖ ≤ X := by
    intro j hj
    rw [norm_mul, ru_norm, mul_one, Complex.norm_real]
    have hj' : j < x.length := by rw [hl]; exact mem_range.1 hj
    apply (h _ _).2
    unfold sig
    rw [List.getD_eq_getElem?_getD, List.getElem?_eq_getElem hj']
    exact List.getElem_mem hj'
  refine (sum_le_sum this).trans ?_
  simp

set_option maxHeartbeats 1000000 in
theorem chunk_near_real (A : FloatArithNeg F) (one : F) (E : RFftEnv F) (inv : Option F) (K : ℕ) (q G U V : ℝ)
    (hT : RealTransformWithin A one K q G E.fftHalf (fun f Z => E.ifftHalf f Z (decide (K % 2 = 0))))
    (hK : 1 ≤ K) (hq : 64 * K ≤ q) (hG : 1 ≤ G)
    (hinv : A.finite (inv.getD one) ∧ |A.val (inv.getD one) - 1 / K| ≤ 2 * A.u / K) (hu : 192 * A.u ≤ 1)
    (htU : A.tiny ≤ A.u * U) (htV : A.tiny ≤ A.u * V) (htW : A.tiny ≤ A.u * (U * V))
    (hHU : G * (U + A.tiny) ≤ A.huge) (hHV : G * (V + A.tiny) ≤ A.huge)
    (r : ℝ) (hr : r = 3 * q * A.u) (hHP : 5 * G * (K + r) ^ 2 * (U * V) ≤ A.huge) :
    ApproxCircularConvolution (reAdd A) (olaPipelineReal E inv) K U V
      (4 * (r / K) * (1 + r / K) ^ 2 * K ^ 2 * (U * V)) := by
  intro a b ha hb haU hbV
  have u0 := A.u_nonneg
  have t0 := A.tiny_nonneg
  have hKr : (1 : ℝ) ≤ K := by exact_mod_cast hK
  have hK0 : (0 : ℝ) < K := by linarith
  have hq0 : 0 ≤ q := by linarith
  have hr0 : 0 ≤ r := by rw [hr]; positivity
  have hru : 192 * K * A.u ≤ r := by rw [hr]; nlinarith
  replace haU : ∀ x ∈ a, A.finite x ∧ |A.val x| ≤ U := by
    intro x hx
    have := haU x hx
    refine ⟨this.1, ?_⟩
    have h2 := this.2
    change ‖(A.val x : ℂ)‖ ≤ U at h2
    rwa [Complex.norm_real] at h2
  replace hbV : ∀ x ∈ b, A.finite x ∧ |A.val x| ≤ V := by
    intro x hx
    have := hbV x hx
    refine ⟨this.1, ?_⟩
    have h2 := this.2
    change ‖(A.val x : ℂ)‖ ≤ V at h2
    rwa [Complex.norm_real] at h2
  have hU0 : 0 ≤ U := by
    obtain ⟨x, hx⟩ := List.exists_mem_of_length_pos (by omega : 0 < a.length)
    exact (abs_nonneg _).trans (haU x hx).2
  have hV0 : 0 ≤ V := by
    obtain ⟨x, hx⟩ := List.exists_mem_of_length_pos (by omega : 0 < b.length)
    exact (abs_nonneg _).trans (hbV x hx).2
  have hW0 : 0 ≤ U * V := by positivity
  obtain ⟨fb, b1, b2, b3⟩ := hT.forward b V hb hbV hHV
  obtain ⟨fa, a1, a2, a3⟩ := hT.forward a U ha haU hHU
  set Ah : ℕ → ℂ := fun k => ∑ j ∈ range K, (A.val (sig a j) : ℂ) * rootOfUnity K (-((j : ℤ) * k)) with hAh
  set Bh : ℕ → ℂ := fun k => ∑ j ∈ range K, (A.val (sig b j) : ℂ) * rootOfUnity K (-((j : ℤ) * k)) with hBh
  have nA : ∀ k, ‖Ah k‖ ≤ K * U := fun k => real_dft_norm ha haU _
  have nB : ∀ k, ‖Bh k‖ ≤ K * V := fun k => real_dft_norm hb hbV _
  obtain ⟨eU, heU⟩ : ∃ e, e = q * (A.u * U + A.tiny) + 2 * A.tiny := ⟨_, rfl⟩
  obtain ⟨eV, heV⟩ : ∃ e, e = q * (A.u * V + A.tiny) + 2 * A.tiny := ⟨_, rfl⟩
  have eU0 : 0 ≤ eU := by rw [heU]; positivity
  have eV0 : 0 ≤ eV := by rw [heV]; positivity
  have eU1 : eU ≤ r * U := by rw [heU, hr]; exact num_e u0 hU0 hKr hq htU
  have eV1 : eV ≤ r * V := by rw [heV, hr]; exact num_e u0 hV0 hKr hq htV
  obtain ⟨p, hp⟩ : ∃ p, p = 10 * (A.u * ((K * U + eU) * (K * V + eV)) + A.tiny) + (K * U + eU) * eV + eU * (K * V) := ⟨_, rfl⟩
  have p0 : 0 ≤ p := by rw [hp]; positivity
  have p1 : p ≤ 11 / 5 * (r * (K + r)) * (U * V) := by rw [hp]; exact num_p u0 hu hU0 hV0 hKr hru hr0 eU0 eV0 eU1 eV1 htW
  have tW : 48 * A.tiny ≤ U * V := by
    have : A.u * (U * V) ≤ 1 / 192 * (U * V) := mul_le_mul_of_nonneg_right (by linarith) hW0
    linarith
  obtain ⟨Z, hZ⟩ : ∃ Z, Z = (K + r) ^ 2 * (U * V) := ⟨_, rfl⟩
  have hZ0 : 0 ≤ Z := by rw [hZ]; positivity
  have zW : U * V ≤ Z := by
    rw [hZ]
    have : 1 * (U * V) ≤ (K + r) ^ 2 * (U * V) := mul_le_mul_of_nonneg_right (one_le_pow₀ (by linarith)) hW0
    linarith
  have zK : K ^ 2 * (U * V) ≤ Z := by
    rw [hZ]
    exact mul_le_mul_of_nonneg_right (pow_le_pow_left₀ (by linarith) (by linarith) 2) hW0
  have zp : p ≤ 11 / 5 * Z := by
    refine p1.trans ?_
    rw [hZ]
    have : r * (K + r) * (U * V) ≤ (K + r) ^ 2 * (U * V) := mul_le_mul_of_nonneg_right (by nlinarith) hW0
    linarith
  have hHZ : 5 * Z ≤ A.huge := by
    refine le_trans ?_ hHP
    have : 1 * (5 * Z) ≤ G * (5 * Z) := mul_le_mul_of_nonneg_right hG (by positivity)
    rw [hZ] at this ⊢
    linarith
  have prodH : 4 * ((K * U + eU) * (K * V + eV) + A.tiny) ≤ A.huge := by
    refine le_trans ?_ hHZ
    have : (K * U + eU) * (K * V + eV) ≤ Z := by
      rw [hZ]
      have := mul_le_mul (show K * U + eU ≤ (K + r) * U by linarith) (show K * V + eV ≤ (K + r) * V by linarith)
        (by positivity) (by positivity)
      linarith
    linarith
  -- the product
  set P := List.zipWith (· * ·) fa fb with hP
  have hPl : P.length = K / 2 + 1 := by rw [hP, List.length_zipWith, a2, b2, min_self]
  have hPk : ∀ k, k < K / 2 + 1 → FinC A (sig P k) ∧ ‖cval A (sig P k) - Ah k * Bh k‖ ≤ p := by
    intro k hk
    rw [hP, sig_zipWith_mul _ _ _ (by omega) (by omega)]
    have := smul_close (z := Ah k) (b := Bh k) false (a3 k hk).1 (b3 k hk).1 ((a3 k hk).2.trans heU.ge) (nA k)
      ((b3 k hk).2.trans heV.ge) (nB k) hu prodH
    rw [← hp, show Pocket.smul false (Ah k) (Bh k) = Ah k * Bh k from by
      apply Complex.ext <;> simp [Pocket.smul]] at this
    exact this
  have nP : ∀ k, ‖Ah k * Bh k‖ ≤ K ^ 2 * (U * V) := by
    intro k
    rw [norm_mul]
    have := mul_le_mul (nA k) (nB k) (norm_nonneg _) (by positivity)
    linarith
  have hPb : ∀ x ∈ P, FinC A x ∧ ‖cval A x‖ ≤ K ^ 2 * (U * V) + p := by
    intro x hx
    obtain ⟨k, hk, e⟩ := mem_sig hx
    rw [← e]
    obtain ⟨f, d⟩ := hPk k (by omega)
    exact ⟨f, norm_of_close d (nP k)⟩
  -- the inverse transform
  have hφ : |A.val (inv.getD one)| * K ≤ 1 + 2 * A.u := by
    have e1 : |A.val (inv.getD one)| ≤ 1 / K + 2 * A.u / K := by
      have := abs_sub_abs_le_abs_sub (A.val (inv.getD one)) (1 / K)
      rw [abs_of_nonneg (show (0 : ℝ) ≤ 1 / K by positivity)] at this
      linarith [hinv.2]
    calc |A.val (inv.getD one)| * K ≤ (1 / K + 2 * A.u / K) * K := mul_le_mul_of_nonneg_right e1 hK0.le
      _ = _ := by field_simp
  have hd : |A.val (inv.getD one) - 1 / K| * K ≤ 2 * A.u := by
    calc |A.val (inv.getD one) - 1 / K| * K ≤ (2 * A.u / K) * K := mul_le_mul_of_nonneg_right hinv.2 hK0.le
      _ = _ := by field_simp
  have hφ2 : |A.val (inv.getD one)| ≤ 2 := by
    have := abs_nonneg (A.val (inv.getD one))
    nlinarith
  obtain ⟨c, c1, c2, c3⟩ := hT.backward inv P (K ^ 2 * (U * V) + p) hPl hPb hinv.1 hφ2 (by
    refine le_trans ?_ hHP
    have : K ^ 2 * (U * V) + p + A.tiny ≤ 5 * Z := by linarith
    have := mul_le_mul_of_nonneg_left this (show 0 ≤ G by linarith)
    rw [hZ] at this
    linarith)
  refine ⟨c, ?_, c2, fun k hk => ?_⟩
  · unfold olaPipelineReal
    rw [b1, Out.ok_bind, a1, Out.ok_bind, require_true (by rw [a2, b2]), Out.ok_bind, ha]
    exact c1
  obtain ⟨f, d⟩ := c3 k hk
  refine ⟨f, ?_⟩
  change ‖(A.val (sig c k) : ℂ) - ∑ i ∈ range K, (A.val (sig a i) : ℂ) * (A.val (sig b ((k + K - i) % K)) : ℂ)‖ ≤ _
  -- the exact convolution
  have hexact : ∑ i ∈ range K, (A.val (sig a i) : ℂ) * (A.val (sig b ((k + K - i) % K)) : ℂ) =
      (1 / (K : ℂ)) * ∑ m ∈ range K, Ah m * Bh m * rootOfUnity K ((m : ℤ) * k) := by
    have := dft_product (a.map (reAdd A).val) (b.map (reAdd A).val) K (by omega) (by simpa using ha) (by simpa using hb) k hk
    simp only [sig_map_val] at this
    change _ = ∑ i ∈ range K, (A.val (sig a i) : ℂ) * (A.val (sig b ((k + K - i) % K)) : ℂ) at this
    rw [← this]
    congr 1
    apply sum_congr rfl
    intro m _
    unfold dftAt
    rw [List.length_map, List.length_map, ha, hb]
    simp only [hAh, hBh, sig_map_val]
    rw [mul_comm (k : ℤ)]
    rfl
  rw [hexact]
  set E1 := ∑ m ∈ range K, Ah m * Bh m * rootOfUnity K ((m : ℤ) * k) with hE1
  set E' := ∑ m ∈ range K, Pocket.hx K (fun k => cval A (sig P k)) m * rootOfUnity K ((m : ℤ) * k) with hE'
  rw [hci_sum hK, ← hE'] at d
  have hherm : ∀ m, m < K → Pocket.hx K (fun k => Ah k * Bh k) m = Ah m * Bh m := by
    intro m hm
    refine hx_of_herm hK (Z := fun k => Ah k * Bh k) ?_ ?_ hm
    · have e1 := real_dft_herm hK (fun j => A.val (sig a j)) 0 (by omega)
      have e2 := real_dft_herm hK (fun j => A.val (sig b j)) 0 (by omega)
      have f1 : Ah K = Ah 0 := by
        simp only [hAh]
        apply sum_congr rfl
        intro j _
        congr 1
        rw [show -((j : ℤ) * (K : ℤ)) = -((j : ℤ) * ((0 : ℕ) : ℤ)) + K * (-j) by push_cast; ring, ru_add_mul K hK]
      have f2 : Bh K = Bh 0 := by
        simp only [hBh]
        apply sum_congr rfl
        intro j _
        congr 1
        rw [show -((j : ℤ) * (K : ℤ)) = -((j : ℤ) * ((0 : ℕ) : ℤ)) + K * (-j) by push_cast; ring, ru_add_mul K hK]
      simp only [f1, f2]
    · intro n hn
      have e1 := real_dft_herm hK (fun j => A.val (sig a j)) n hn
      have e2 := real_dft_herm hK (fun j => A.val (sig b j)) n hn
      change Ah (K - n) = (starRingEnd ℂ) (Ah n) at e1
      change Bh (K - n) = (starRingEnd ℂ) (Bh n) at e2
      simp only [e1, e2, map_mul]
  have nE : ‖E1‖ ≤ K * (K ^ 2 * (U * V)) := by
    refine (norm_sum_le _ _).trans ?_
    have : ∀ m ∈ range K, ‖Ah m * Bh m * rootOfUnity K ((m : ℤ) * k)‖ ≤ K ^ 2 * (U * V) := by
      intro m _
      rw [norm_mul, ru_norm, mul_one]; exact nP m
    refine (sum_le_sum this).trans ?_
    simp
  have nEE : ‖E' - E1‖ ≤ K * p := by
    rw [hE1, hE', ← sum_sub_distrib]
    refine (norm_sum_le _ _).trans ?_
    have : ∀ m ∈ range K, ‖Pocket.hx K (fun k => cval A (sig P k)) m * rootOfUnity K ((m : ℤ) * k)
        - Ah m * Bh m * rootOfUnity K ((m : ℤ) * k)‖ ≤ p := by
      intro m hm
      rw [← sub_mul, norm_mul, ru_norm, mul_one, ← hherm m (mem_range.1 hm)]
      exact hx_sub_norm hK (fun k hk => (hPk k hk).2) (mem_range.1 hm)
    refine (sum_le_sum this).trans ?_
    simp
  have hreal : (1 / (K : ℂ)) * E1 = (((1 / K : ℝ) * E1.re : ℝ) : ℂ) := by
    have : ((1 / (K : ℂ)) * E1).im = 0 := by
      rw [← hexact, Complex.im_sum]
      apply sum_eq_zero
      intro i _
      simp
    apply Complex.ext
    · rw [show (1 / (K : ℂ)) = ((1 / K : ℝ) : ℂ) by push_cast; rfl, Complex.re_ofReal_mul, Complex.ofReal_re]
    · rw [this, Complex.ofReal_im]
  rw [hreal, ← Complex.ofReal_sub, Complex.norm_real, Real.norm_eq_abs]
  set v : ℝ := A.val (inv.getD one) with hv
  have split : A.val (sig c k) - (1 / K : ℝ) * E1.re =
      (A.val (sig c k) - v * E'.re) + v * (E' - E1).re + (v - 1 / K) * E1.re := by
    rw [Complex.sub_re]; ring
  rw [split]
  refine (abs_add_le _ _).trans ((add_le_add ((abs_add_le _ _).trans (add_le_add d le_rfl)) le_rfl).trans ?_)
  rw [abs_mul, abs_mul]
  have m1 := mul_le_mul_of_nonneg_left ((Complex.abs_re_le_norm _).trans nEE) (abs_nonneg v)
  have m2 := mul_le_mul_of_nonneg_left ((Complex.abs_re_le_norm _).trans nE) (abs_nonneg (v - 1 / K))
  have := num_final u0 hu hW0 hKr hr hq p0 p1 t0 htW (abs_nonneg v) hφ hd
  linarith

end Ola
end Verif.PocketF
