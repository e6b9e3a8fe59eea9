import Verif.Props.EllipticIntegrals
import Verif.Lemmas.Landen
import Mathlib.Analysis.Real.Pi.Bounds

set_option linter.unusedSimpArgs false

/-! # C71: Jacobi's amplitude and elliptic functions -/

namespace Verif

/-! ### the arithmetic-geometric mean -/

theorem fasin_ok {x : ℝ} (h : |x| ≤ 1) : fasin x = .ok (Real.arcsin x) := by rw [fasin, if_pos h]

theorem agm_gap {a b : ℝ} (hb : 0 < b) (hab : b ≤ a) {δ : ℝ} (hδ : a - b ≤ a * δ) :
    (a + b) / 2 - Real.sqrt (a * b) ≤ (a + b) / 2 * δ ^ 2 := by
  have ha : 0 < a := by linarith
  rw [Real.sqrt_mul ha.le]
  have h1 := Real.sq_sqrt ha.le
  have h2 := Real.sq_sqrt hb.le
  have p1 : 0 < Real.sqrt a := Real.sqrt_pos.mpr ha
  have p2 : 0 < Real.sqrt b := Real.sqrt_pos.mpr hb
  have p3 : Real.sqrt b ≤ Real.sqrt a := Real.sqrt_le_sqrt hab
  generalize Real.sqrt a = u at *
  generalize Real.sqrt b = v at *
  subst h1 h2
  have hδ' : (u - v) * (u + v) ≤ u * δ * u := by nlinarith
  have hd : u - v ≤ u * δ := by
    have : (u - v) * u ≤ u * δ * u := by nlinarith
    exact le_of_mul_le_mul_right this p1
  have : (u - v) ^ 2 ≤ (u * δ) ^ 2 := pow_le_pow_left₀ (by linarith) hd 2
  nlinarith [sq_nonneg (v * δ)]

/-- what the first loop of the amplitude maintains -/
structure AmInv (kc : ℝ) (s : AmState) : Prop where
  pos : 0 < s.bn
  le : s.bn ≤ s.an
  one : s.an ≤ 1
  cpos : 0 ≤ s.cn
  gap : s.an - s.bn ≤ 2 * s.cn
  back : ∀ φ, ∃ φ₀, amBackward s.factors φ = .ok φ₀ ∧ amBackward s.factors (-φ) = .ok (-φ₀) ∧
    agmI 1 kc φ₀ = agmI s.an s.bn φ / 2 ^ s.factors.length
  quarter : amBackward s.factors (2 ^ s.factors.length * (Real.pi / 2)) = .ok (Real.pi / 2)
  slow : s.factors.length ≤ 14 → s.an * (1 / 2) ^ 2 ^ (14 - s.factors.length) ≤ s.bn
  fast : 14 ≤ s.factors.length → s.an - s.bn ≤ s.an * (1 / 2) ^ 2 ^ (s.factors.length - 14)
  last : 15 ≤ s.factors.length → s.cn ≤ 1 / 2 * (1 / 2) ^ 2 ^ (s.factors.length - 15)

theorem amStep_ok {kc : ℝ} {s : AmState} (h : AmInv kc s) (hlen : s.factors.length < 29) :
    ∃ s', amStep s = .ok s' ∧ AmInv kc s' ∧ s'.factors.length = s.factors.length + 1 := by
  obtain ⟨hb, hab, h1, hc, hgap, hback, hq, hslow, hfast, _⟩ := h
  obtain ⟨a, b, c, fs⟩ := s
  simp only at *
  have ha : 0 < a := by linarith
  have hA : 0 < 1 / 2 * (a + b) := by linarith
  have hf : 1 / 2 * (a - b) / (1 / 2 * (a + b)) = (a - b) / (a + b) := by
    rw [mul_div_mul_left _ _ (by norm_num)]
  have hf0 : 0 ≤ (a - b) / (a + b) := div_nonneg (by linarith) (by linarith)
  have hf1 : (a - b) / (a + b) < 1 := by rw [div_lt_one (by linarith)]; linarith
  have hland : ∀ φ, amBackward ((a - b) / (a + b) :: fs) φ = amBackward fs (landen ((a - b) / (a + b)) φ) := by
    intro φ
    rw [amBackward, fasin_ok (landen_abs hf0 hf1 φ).le, Out.ok_bind]
    rfl
  refine ⟨⟨1 / 2 * (a + b), Real.sqrt (a * b), 1 / 2 * (a - b), (a - b) / (a + b) :: fs⟩, ?_, ?_, rfl⟩
  · simp only [amStep]
    rw [fsqrt_ok (by positivity), Out.ok_bind, fdiv_ok hA.ne', Out.ok_bind, require_true (by omega), Out.ok_bind, hf]
    rfl
  · have hsq := Real.sq_sqrt (by positivity : 0 ≤ a * b)
    have hsp : 0 < Real.sqrt (a * b) := Real.sqrt_pos.mpr (by positivity)
    have hbs : b ≤ Real.sqrt (a * b) := Real.le_sqrt_of_sq_le (by nlinarith)
    have hmean : Real.sqrt (a * b) ≤ 1 / 2 * (a + b) := by
      apply Real.sqrt_le_iff.mpr ⟨hA.le, ?_⟩
      nlinarith [sq_nonneg (a - b)]
    refine ⟨hsp, hmean, by simp only []; linarith, by simp only []; linarith, by simp only []; linarith, ?_, ?_, ?_, ?_, ?_⟩
    · intro φ
      obtain ⟨φ₀, e1, e2, e3⟩ := hback (landen ((a - b) / (a + b)) φ)
      refine ⟨φ₀, by rw [hland]; exact e1, ?_, ?_⟩
      · rw [hland]
        have : landen ((a - b) / (a + b)) (-φ) = -landen ((a - b) / (a + b)) φ := by
          simp only [landen, Real.sin_neg, mul_neg, Real.arcsin_neg]; ring
        rw [this]
        exact e2
      · rw [e3, landen_integral hb hab, List.length_cons, pow_succ]
        have : (a + b) / 2 = 1 / 2 * (a + b) := by ring
        rw [this]
        field_simp
    · rw [hland]
      have : landen ((a - b) / (a + b)) (2 ^ ((a - b) / (a + b) :: fs).length * (Real.pi / 2)) = 2 ^ fs.length * (Real.pi / 2) := by
        have e : (2 : ℝ) ^ ((a - b) / (a + b) :: fs).length * (Real.pi / 2) = ((2 ^ fs.length : ℕ) : ℝ) * Real.pi := by
          rw [List.length_cons, pow_succ]; push_cast; ring
        rw [e, landen, Real.sin_nat_mul_pi]
        push_cast
        simp
        ring
      rw [this]
      exact hq
    · intro hl
      simp only [List.length_cons] at hl ⊢
      have hs := hslow (by omega)
      have e : 14 - fs.length = (14 - (fs.length + 1)) + 1 := by omega
      rw [e, pow_succ 2, pow_mul] at hs
      have hρ : (0 : ℝ) < (1 / 2) ^ 2 ^ (14 - (fs.length + 1)) := by positivity
      generalize ((1 / 2 : ℝ) ^ 2 ^ (14 - (fs.length + 1))) = ρ at *
      have : a * ρ ≤ Real.sqrt (a * b) := Real.le_sqrt_of_sq_le (by nlinarith)
      nlinarith
    · intro hl
      simp only [List.length_cons] at hl ⊢
      by_cases h14 : fs.length = 13
      · have hs := hslow (by omega)
        rw [h14] at hs ⊢
        norm_num at hs ⊢
        have : a * (1 / 2) ≤ Real.sqrt (a * b) := Real.le_sqrt_of_sq_le (by nlinarith)
        nlinarith
      · have hs := hfast (by omega)
        have e : fs.length + 1 - 14 = (fs.length - 14) + 1 := by omega
        rw [e, pow_succ 2, pow_mul]
        have := agm_gap hb hab hs
        linarith
    · intro hl
      simp only [List.length_cons] at hl ⊢
      have hs := hfast (by omega)
      have e : fs.length + 1 - 15 = fs.length - 14 := by omega
      rw [e]
      have hρ : (0 : ℝ) < (1 / 2) ^ 2 ^ (fs.length - 14) := by positivity
      nlinarith

/-- the loop ends after at most 29 turns -/
theorem am_loop (eps : ℝ) (he : 2 * (1 / 2) ^ 2 ^ 14 ≤ eps) {kc : ℝ} (h0 : (1 / 2) ^ 2 ^ 14 ≤ kc) (h1 : kc ≤ 1) :
    ∃ s, whileN 33 (fun s : AmState => decide (|s.cn| > eps / 4)) amStep ⟨1, kc, 1 / 2 * (1 - kc), []⟩ = .ok s ∧
      AmInv kc s ∧ s.factors.length ≤ 29 ∧ s.cn ≤ eps / 4 := by
  have hkc : 0 < kc := lt_of_lt_of_le (by positivity) h0
  have hinit : AmInv kc ⟨1, kc, 1 / 2 * (1 - kc), []⟩ := by
    refine ⟨hkc, h1, le_refl _, by simp only []; linarith, by simp only []; linarith, ?_, ?_, ?_, ?_, ?_⟩
    · intro φ
      exact ⟨φ, rfl, rfl, by simp⟩
    · simp [amBackward]
    · intro _
      simpa using h0
    · intro h
      simp at h
    · intro h
      simp at h
  obtain ⟨s, e, ⟨hi, hl⟩, hc⟩ := whileN_measure (cond := fun s : AmState => decide (|s.cn| > eps / 4)) (body := amStep)
    (fun s => AmInv kc s ∧ s.factors.length ≤ 29) (fun s => 29 - s.factors.length) (by
      rintro s ⟨hi, hl⟩ hc
      have hlt : s.factors.length < 29 := by
        by_contra hge
        have e29 : s.factors.length = 29 := by omega
        have hlast := hi.last (by omega)
        rw [e29] at hlast
        rw [decide_eq_true_eq, abs_of_nonneg hi.cpos] at hc
        have e14 : 29 - 15 = 14 := rfl
        rw [e14] at hlast
        generalize ((1 / 2 : ℝ) ^ 2 ^ 14) = w at *
        linarith
      obtain ⟨s', h1, h2, h3⟩ := amStep_ok hi hlt
      exact ⟨s', h1, ⟨h2, by omega⟩, by omega⟩) 33 ⟨1, kc, 1 / 2 * (1 - kc), []⟩ (by simp) ⟨hinit, by simp⟩
  refine ⟨s, e, hi, hl, ?_⟩
  rw [decide_eq_false_iff_not, abs_of_nonneg hi.cpos] at hc
  linarith

/-! ### the amplitude -/

theorem legendreF_deriv {k : ℝ} (hk : k ^ 2 < 1) (φ : ℝ) :
    HasDerivAt (fun φ => legendreF φ k) (1 / Real.sqrt (1 - k ^ 2 * Real.sin φ ^ 2)) φ := by
  have h := agmI_deriv one_pos (Real.sqrt_pos.mpr (by linarith : 0 < 1 - k ^ 2)) φ
  have e : (fun φ => legendreF φ k) = agmI 1 (Real.sqrt (1 - k ^ 2)) := funext (legendreF_eq_agmI hk.le)
  rw [e]
  refine h.congr_deriv ?_
  rw [Real.sq_sqrt (by linarith)]
  congr 2
  have := Real.sin_sq_add_cos_sq φ
  nlinarith

/-- the integral grows at least as fast as its argument -/
theorem legendreF_expands {k : ℝ} (hk : k ^ 2 < 1) (φ ψ : ℝ) : |φ - ψ| ≤ |legendreF φ k - legendreF ψ k| := by
  have hmono : Monotone fun φ => legendreF φ k - φ := by
    apply monotone_of_deriv_nonneg
    · intro φ
      exact ((legendreF_deriv hk φ).sub (hasDerivAt_id φ)).differentiableAt
    · intro φ
      have hd : HasDerivAt (fun φ => legendreF φ k - φ) (1 / Real.sqrt (1 - k ^ 2 * Real.sin φ ^ 2) - 1) φ :=
        (legendreF_deriv hk φ).sub (hasDerivAt_id φ)
      rw [hd.deriv]
      have h1 : 0 < 1 - k ^ 2 * Real.sin φ ^ 2 := by
        have := Real.sin_sq_le_one φ
        nlinarith [sq_nonneg k, sq_nonneg (Real.sin φ)]
      have h2 : Real.sqrt (1 - k ^ 2 * Real.sin φ ^ 2) ≤ 1 := by
        apply Real.sqrt_le_one.mpr
        nlinarith [sq_nonneg k, sq_nonneg (Real.sin φ), mul_nonneg (sq_nonneg k) (sq_nonneg (Real.sin φ))]
      have := (one_le_div (Real.sqrt_pos.mpr h1)).mpr h2
      linarith
  rcases le_total φ ψ with h | h
  · have := hmono h
    simp only at this
    rw [abs_sub_comm φ, abs_sub_comm (legendreF φ k), abs_of_nonneg (by linarith : 0 ≤ ψ - φ)]
    exact le_trans (by linarith) (le_abs_self _)
  · have := hmono h
    simp only at this
    rw [abs_of_nonneg (by linarith : 0 ≤ φ - ψ)]
    exact le_trans (by linarith) (le_abs_self _)

theorem legendreF_zero (k : ℝ) : legendreF 0 k = 0 := by simp [legendreF]

/-- every number has exactly one amplitude -/
theorem C71_amplitude_unique {k : ℝ} (hk : k ^ 2 < 1) (x : ℝ) : ∃! φ, legendreF φ k = x := by
  have hcont : Continuous fun φ => legendreF φ k := continuous_iff_continuousAt.mpr fun φ => (legendreF_deriv hk φ).continuousAt
  have hzero := legendreF_zero k
  have hmono : StrictMono fun φ => legendreF φ k := by
    apply strictMono_of_deriv_pos
    intro φ
    rw [(legendreF_deriv hk φ).deriv]
    have h1 : 0 < 1 - k ^ 2 * Real.sin φ ^ 2 := by
      have := Real.sin_sq_le_one φ
      nlinarith [sq_nonneg k, sq_nonneg (Real.sin φ)]
    have := Real.sqrt_pos.mpr h1
    positivity
  have hup : x ≤ legendreF |x| k := by
    have := legendreF_expands hk |x| 0
    rw [hzero, sub_zero, sub_zero, abs_abs] at this
    have h0 := hmono.monotone (abs_nonneg x)
    simp only [hzero] at h0
    rw [abs_of_nonneg h0] at this
    exact le_trans (le_abs_self x) this
  have hdown : legendreF (-|x|) k ≤ x := by
    have := legendreF_expands hk (-|x|) 0
    rw [hzero, sub_zero, sub_zero, abs_neg, abs_abs] at this
    have h0 := hmono.monotone (neg_nonpos.mpr (abs_nonneg x))
    simp only [hzero] at h0
    rw [abs_of_nonpos h0] at this
    linarith [neg_abs_le x]
  obtain ⟨φ, -, hφ⟩ := intermediate_value_Icc (by linarith [abs_nonneg x] : -|x| ≤ |x|) hcont.continuousOn ⟨hdown, hup⟩
  exact ⟨φ, hφ, fun ψ hψ => hmono.injective (hψ.trans hφ.symm)⟩

/-- the result of the two loops -/
theorem ellipticAM_general (eps : ℝ) (he : 2 * (1 / 2) ^ 2 ^ 14 ≤ eps) (k : ℝ) (hk0 : 0 ≤ k) (hk1 : (1 / 2) ^ 2 ^ 15 ≤ 1 - k ^ 2)
    (hK : eps * legendreK k ≤ Real.pi / 2) (x : ℝ) :
    ∃ am, ellipticAM eps x k = .ok am ∧ ellipticAM eps (-x) k = .ok (-am) ∧
      |legendreF am k - x| ≤ eps * legendreK k * |x| := by
  have heps : 0 < eps := lt_of_lt_of_le (by positivity) he
  have hk2 : k ^ 2 < 1 := by
    have : (0 : ℝ) < (1 / 2) ^ 2 ^ 15 := by positivity
    linarith
  have hklt : k < 1 := by nlinarith
  have hKpos : 0 < legendreK k := by
    have := legendreF_expands hk2 (Real.pi / 2) 0
    rw [legendreF_zero, sub_zero, sub_zero] at this
    have hF : 0 ≤ legendreF (Real.pi / 2) k := by
      rw [legendreF]
      apply intervalIntegral.integral_nonneg (by positivity)
      intro θ _
      positivity
    rw [abs_of_nonneg hF, abs_of_nonneg (by positivity)] at this
    exact lt_of_lt_of_le (by positivity) this
  have hass : 0 ≤ k ∧ k ≤ 1 := ⟨hk0, hklt.le⟩
  by_cases hz : k = 0
  · subst hz
    refine ⟨x, ?_, ?_, ?_⟩
    · rw [ellipticAM, cassert_true hass, Out.ok_bind, if_neg (by norm_num), if_pos rfl]; rfl
    · rw [ellipticAM, cassert_true hass, Out.ok_bind, if_neg (by norm_num), if_pos rfl]; rfl
    · have : legendreF x 0 = x := by simp [legendreF]
      rw [this, sub_self, abs_zero]
      positivity
  · have hkc0 : (1 / 2) ^ 2 ^ 14 ≤ Real.sqrt (1 - k * k) := by
      apply Real.le_sqrt_of_sq_le
      rw [← pow_mul]
      have : 2 ^ 14 * 2 = 2 ^ 15 := by norm_num
      rw [this]
      linarith [hk1, sq k]
    have hkc1 : Real.sqrt (1 - k * k) ≤ 1 := Real.sqrt_le_one.mpr (by nlinarith)
    obtain ⟨s, hloop, hinv, hlen, hcn⟩ := am_loop eps he hkc0 hkc1
    have hrun : ∀ x, ellipticAM eps x k = amBackward s.factors (2 ^ s.factors.length * s.an * x) := by
      intro x
      simp only [ellipticAM]
      rw [cassert_true hass, Out.ok_bind, if_neg hklt.ne, if_neg hz, fsqrt_ok (by nlinarith), Out.ok_bind, hloop, Out.ok_bind,
        if_pos (by omega), Out.ok_bind]
    obtain ⟨φ₀, e1, e2, e3⟩ := hinv.back (2 ^ s.factors.length * s.an * x)
    refine ⟨φ₀, by rw [hrun]; exact e1, by rw [hrun, mul_neg]; exact e2, ?_⟩
    have hkk : k * k = k ^ 2 := by ring
    have hF : ∀ φ, legendreF φ k = agmI 1 (Real.sqrt (1 - k * k)) φ := by
      intro φ; rw [hkk]; exact legendreF_eq_agmI hk2.le φ
    have hapos : 0 < s.an := by linarith [hinv.pos, hinv.le]
    have hbpos := hinv.pos
    -- the mean is bounded below
    have hbound : Real.pi / 2 ≤ legendreK k * s.an := by
      obtain ⟨ψ, f1, -, f3⟩ := hinv.back (2 ^ s.factors.length * (Real.pi / 2))
      rw [hinv.quarter] at f1
      cases f1
      rw [legendreK, hF, f3]
      have hb := (agmI_bounds hinv.pos hinv.le (by positivity : 0 ≤ 2 ^ s.factors.length * (Real.pi / 2))).1
      have h2 : (0 : ℝ) < 2 ^ s.factors.length := by positivity
      rw [div_le_iff₀ hapos] at hb
      rw [div_mul_eq_mul_div, le_div_iff₀ h2]
      linarith
    have hgap : s.an - s.bn ≤ eps / 2 := by linarith [hinv.gap]
    -- the quotient of the means
    have hq : (s.an - s.bn) / s.bn ≤ eps * legendreK k := by
      rw [div_le_iff₀ hbpos]
      have hKK : eps * legendreK k * (s.an - s.bn) ≤ Real.pi / 4 * eps := by
        calc eps * legendreK k * (s.an - s.bn) ≤ eps * legendreK k * (eps / 2) := by
              apply mul_le_mul_of_nonneg_left hgap (by positivity)
          _ = (eps * legendreK k) * (eps / 2) := by ring
          _ ≤ Real.pi / 2 * (eps / 2) := by apply mul_le_mul_of_nonneg_right hK (by positivity)
          _ = _ := by ring
      have h3 : eps * (Real.pi / 2) ≤ eps * (legendreK k * s.an) := mul_le_mul_of_nonneg_left hbound heps.le
      have hpi := Real.pi_gt_three
      nlinarith
    have hmain : ∀ x, 0 ≤ x → |agmI s.an s.bn (2 ^ s.factors.length * s.an * x) / 2 ^ s.factors.length - x| ≤ eps * legendreK k * x := by
      intro x hx
      have h2 : (0 : ℝ) < 2 ^ s.factors.length := by positivity
      obtain ⟨l, u⟩ := agmI_bounds hinv.pos hinv.le (by positivity : 0 ≤ 2 ^ s.factors.length * s.an * x)
      have l' : x ≤ agmI s.an s.bn (2 ^ s.factors.length * s.an * x) / 2 ^ s.factors.length := by
        rw [le_div_iff₀ h2]
        calc x * 2 ^ s.factors.length = 2 ^ s.factors.length * s.an * x / s.an := by field_simp
          _ ≤ _ := l
      have u' : agmI s.an s.bn (2 ^ s.factors.length * s.an * x) / 2 ^ s.factors.length ≤ x * (s.an / s.bn) := by
        rw [div_le_iff₀ h2]
        calc _ ≤ _ := u
          _ = x * (s.an / s.bn) * 2 ^ s.factors.length := by field_simp
      rw [abs_of_nonneg (by linarith)]
      have e : s.an / s.bn = 1 + (s.an - s.bn) / s.bn := by field_simp; ring
      rw [e] at u'
      nlinarith
    rw [hF, e3]
    rcases le_total 0 x with hx | hx
    · rw [abs_of_nonneg hx]
      exact hmain x hx
    · have := hmain (-x) (by linarith)
      rw [abs_of_nonpos hx]
      rw [mul_neg, agmI_neg, neg_div, ← abs_neg] at this
      convert this using 2
      ring

/-- **C71**: for every modulus in [0, 1) (up to the precision of any floating point type) and every argument, `EllipticAM` returns,
without throwing, an angle that differs from the amplitude by at most `eps K(k) |x|`; it is odd. -/
theorem C71_amplitude (eps : ℝ) (he : 2 * (1 / 2) ^ 2 ^ 14 ≤ eps) (k : ℝ) (hk0 : 0 ≤ k) (hk1 : (1 / 2) ^ 2 ^ 15 ≤ 1 - k ^ 2)
    (hK : eps * legendreK k ≤ Real.pi / 2) (x : ℝ) :
    ∃ am φ, ellipticAM eps x k = .ok am ∧ ellipticAM eps (-x) k = .ok (-am) ∧
      legendreF φ k = x ∧ |am - φ| ≤ eps * legendreK k * |x| := by
  have hk2 : k ^ 2 < 1 := by
    have : (0 : ℝ) < (1 / 2) ^ 2 ^ 15 := by positivity
    linarith
  obtain ⟨am, e1, e2, e3⟩ := ellipticAM_general eps he k hk0 hk1 hK x
  obtain ⟨φ, hφ, -⟩ := C71_amplitude_unique hk2 x
  refine ⟨am, φ, e1, e2, hφ, le_trans (legendreF_expands hk2 am φ) ?_⟩
  rw [hφ]
  exact e3

/-- every modulus up to 0.999 meets the hypotheses with the precision of `double` -/
theorem legendreK_le {k : ℝ} (hk : k ^ 2 < 1) : legendreK k ≤ Real.pi / 2 / Real.sqrt (1 - k ^ 2) := by
  rw [legendreK, legendreF_eq_agmI hk.le]
  exact (agmI_bounds (Real.sqrt_pos.mpr (by linarith)) (Real.sqrt_le_one.mpr (by nlinarith [sq_nonneg k])) (by positivity)).2

theorem legendreK_ge {k : ℝ} (hk : k ^ 2 < 1) : Real.pi / 2 ≤ legendreK k := by
  rw [legendreK, legendreF_eq_agmI hk.le]
  have := (agmI_bounds (Real.sqrt_pos.mpr (by linarith : 0 < 1 - k ^ 2)) (Real.sqrt_le_one.mpr (by nlinarith [sq_nonneg k]))
    (by positivity : 0 ≤ Real.pi / 2)).1
  simpa using this

theorem small_pow {n : ℕ} (hn : 52 ≤ n) : (1 / 2 : ℝ) ^ n ≤ 1 / 2 ^ 52 := by
  calc (1 / 2 : ℝ) ^ n ≤ (1 / 2) ^ 52 := pow_le_pow_of_le_one (by norm_num) (by norm_num) hn
    _ = 1 / 2 ^ 52 := by norm_num

example (k : ℝ) (h0 : 0 ≤ k) (h1 : k ≤ 999 / 1000) :
    2 * (1 / 2) ^ 2 ^ 14 ≤ (1 / 2 ^ 52 : ℝ) ∧ (1 / 2) ^ 2 ^ 15 ≤ 1 - k ^ 2 ∧ (1 / 2 ^ 52 : ℝ) * legendreK k ≤ Real.pi / 2 := by
  have hk : k ^ 2 ≤ 998001 / 1000000 := by nlinarith
  refine ⟨?_, ?_, ?_⟩
  · rw [show (2 : ℝ) * (1 / 2) ^ 2 ^ 14 = (1 / 2) ^ (2 ^ 14 - 1) by
      rw [show 2 ^ 14 = (2 ^ 14 - 1) + 1 by norm_num, pow_succ]
      rw [show 2 ^ 14 - 1 + 1 - 1 = 2 ^ 14 - 1 by norm_num]
      ring]
    exact small_pow (by norm_num)
  · refine le_trans (small_pow (n := 2 ^ 15) (by norm_num)) ?_
    norm_num
    linarith
  · have h := legendreK_le (k := k) (by linarith)
    have hs : (1 / 100 : ℝ) ≤ Real.sqrt (1 - k ^ 2) := Real.le_sqrt_of_sq_le (by norm_num; linarith)
    have : Real.pi / 2 / Real.sqrt (1 - k ^ 2) ≤ Real.pi / 2 / (1 / 100) :=
      div_le_div_of_nonneg_left (by positivity) (by norm_num) hs
    have hp := Real.pi_pos
    have h2 : legendreK k ≤ Real.pi / 2 / (1 / 100) := h.trans this
    calc (1 / 2 ^ 52 : ℝ) * legendreK k ≤ (1 / 2 ^ 52 : ℝ) * (Real.pi / 2 / (1 / 100)) := by gcongr
      _ ≤ Real.pi / 2 := by norm_num; linarith

/-- **C71**: the modulus one: the amplitude is the Gudermannian, so that sn is the hyperbolic tangent and cn the hyperbolic
secant -/
theorem C71_amplitude_one (eps x : ℝ) :
    ∃ am, ellipticAM eps x 1 = .ok am ∧ Real.sin am = Real.tanh x ∧ Real.cos am = 1 / Real.cosh x ∧ |am| < Real.pi / 2 := by
  refine ⟨2 * Real.arctan (Real.exp x) - Real.pi / 2, ?_, ?_, ?_, ?_⟩
  · rw [ellipticAM, cassert_true (by norm_num), Out.ok_bind, if_pos rfl]; rfl
  · have hE := Real.exp_pos x
    rw [Real.sin_sub_pi_div_two, Real.cos_two_mul, Real.cos_sq_arctan, Real.tanh_eq_sinh_div_cosh, Real.sinh_eq, Real.cosh_eq,
      Real.exp_neg]
    generalize Real.exp x = E at *
    field_simp
    ring
  · have hE := Real.exp_pos x
    rw [Real.cos_sub_pi_div_two, Real.sin_two_mul, Real.sin_arctan, Real.cos_arctan, Real.cosh_eq, Real.exp_neg]
    have hs : 0 < 1 + Real.exp x ^ 2 := by positivity
    have hss := Real.mul_self_sqrt hs.le
    have hsp := Real.sqrt_pos.mpr hs
    have : 2 * (Real.exp x / Real.sqrt (1 + Real.exp x ^ 2)) * (1 / Real.sqrt (1 + Real.exp x ^ 2)) =
      2 * Real.exp x / (Real.sqrt (1 + Real.exp x ^ 2) * Real.sqrt (1 + Real.exp x ^ 2)) := by field_simp
    rw [this, hss]
    generalize Real.exp x = E at *
    field_simp
    ring
  · have h1 := Real.arctan_lt_pi_div_two (Real.exp x)
    have h2 : 0 < Real.arctan (Real.exp x) := Real.arctan_pos.mpr (Real.exp_pos x)
    rw [abs_lt]
    constructor <;> linarith

/-- **C71**: moduli outside [0, 1] fail the assertion -/
theorem C71_amplitude_refuses (eps x k : ℝ) (hk : k < 0 ∨ 1 < k) : ellipticAM eps x k = .assertFail := by
  rw [ellipticAM, cassert, if_neg (by rintro ⟨h1, h2⟩; rcases hk with h | h <;> linarith)]
  rfl

/-! ### sn, cn and dn -/

theorem legendreF_add_pi {k : ℝ} (hk : k ^ 2 < 1) (φ : ℝ) : legendreF (φ + Real.pi) k = legendreF φ k + 2 * legendreK k := by
  have hd : ∀ φ, HasDerivAt (fun φ => legendreF (φ + Real.pi) k - legendreF φ k) 0 φ := by
    intro φ
    have h1 := (legendreF_deriv hk (φ + Real.pi)).comp_add_const φ Real.pi
    have := h1.sub (legendreF_deriv hk φ)
    refine this.congr_deriv ?_
    rw [Real.sin_add_pi, neg_sq, sub_self]
  have h := is_const_of_deriv_eq_zero (fun φ => (hd φ).differentiableAt) (fun φ => (hd φ).deriv) φ 0
  simp only [zero_add, legendreF_zero, sub_zero] at h
  have hπ := (C70_sign_right 1 k hk).2
  rw [Real.arccos_neg, Real.arccos_one, sub_zero, legendreF_zero, sub_zero] at hπ
  linarith

theorem legendreF_add_nat {k : ℝ} (hk : k ^ 2 < 1) (φ : ℝ) (n : ℕ) :
    legendreF (φ + n * Real.pi) k = legendreF φ k + 2 * n * legendreK k := by
  induction n with
  | zero => simp
  | succ n ih =>
    rw [show φ + ((n + 1 : ℕ) : ℝ) * Real.pi = (φ + n * Real.pi) + Real.pi by push_cast; ring, legendreF_add_pi hk, ih]
    push_cast
    ring

theorem nearestEven_close (x : ℝ) : |x - nearestEven x| ≤ 1 / 2 := by
  have h := Int.fract_add_floor x
  have h0 := Int.fract_nonneg x
  have h1 := Int.fract_lt_one x
  rw [abs_le]
  unfold nearestEven
  split_ifs <;> push_cast <;> constructor <;> linarith

theorem nearestEven_nonneg {x : ℝ} (h : 0 ≤ x) : 0 ≤ nearestEven x := by
  have := Int.floor_nonneg.mpr h
  unfold nearestEven
  split_ifs <;> omega

theorem reduce_plain (fuel : ℕ) (eps x k : ℝ) (hk : k ^ 2 ≤ 1) (hx : x ≤ Real.pi / 2) :
    ellipticReduceRange fuel eps x k = .ok (x, |k|, 1, 1) := by
  have hk1 : |k| ≤ 1 := by rw [← sq_le_one_iff_abs_le_one]; exact hk
  have habs : (if k < 0 then -k else k) = |k| := by
    split_ifs with h
    · rw [abs_of_neg h]
    · rw [abs_of_nonneg (by linarith)]
  have hnk : ¬ 1 < |k| := by linarith
  simp only [ellipticReduceRange, habs, if_neg hnk]
  rw [if_neg (by linarith)]
  rfl

theorem reduce_large (eps x k : ℝ) (hk : k ^ 2 ≤ 1) (hx : Real.pi / 2 < x) (v : ℝ) (hv : 0 < v) :
    ∃ n : ℕ, |x - n * (2 * v)| ≤ v ∧ ∀ fuel, ellipticK fuel eps k = .ok (v : WithTop ℝ) →
      ellipticReduceRange fuel eps x k = .ok (x - n * (2 * v), |k|, (-1) ^ n, (-1) ^ n) := by
  have hk1 : |k| ≤ 1 := by rw [← sq_le_one_iff_abs_le_one]; exact hk
  have habs : (if k < 0 then -k else k) = |k| := by
    split_ifs with h
    · rw [abs_of_neg h]
    · rw [abs_of_nonneg (by linarith)]
  have hx0 : 0 < x := by linarith [Real.pi_pos]
  have hq := nearestEven_close (x / (2 * v))
  have hqn := nearestEven_nonneg (by positivity : 0 ≤ x / (2 * v))
  obtain ⟨n, hn⟩ := Int.eq_ofNat_of_zero_le hqn
  have hrem : remquo x ((v : WithTop ℝ).map (fun v => 2 * v)) = .ok (x - n * (2 * v), ((n : ℤ).sign * ((n % 8 : ℕ) : ℤ))) := by
    change remquo x ((2 * v : ℝ) : WithTop ℝ) = _
    simp only [remquo]
    rw [fdiv_ok (by positivity), Out.ok_bind, hn]
    rfl
  have hodd : ((n : ℤ).sign * ((n % 8 : ℕ) : ℤ)) % 2 = 1 ↔ n % 2 = 1 := by
    rcases Nat.eq_zero_or_pos n with h | h
    · subst h; simp
    · rw [Int.sign_eq_one_of_pos (by exact_mod_cast h), one_mul]
      omega
  refine ⟨n, ?_, ?_⟩
  · rw [hn] at hq
    have e : x - n * (2 * v) = (2 * v) * (x / (2 * v) - ((n : ℤ) : ℝ)) := by
      push_cast
      field_simp
    rw [e, abs_mul, abs_of_pos (by positivity : 0 < 2 * v)]
    nlinarith
  · intro fuel hK
    have hnk : ¬ 1 < |k| := by linarith
    simp only [ellipticReduceRange, habs, if_neg hnk]
    rw [if_pos hx, hK, Out.ok_bind, hrem, Out.ok_bind]
    simp only []
    by_cases h : n % 2 = 1
    · rw [if_pos (hodd.mpr h), one_mul, (Nat.odd_iff.mpr h).neg_one_pow]; rfl
    · rw [if_neg (fun hh => h (hodd.mp hh)), (Nat.even_iff.mpr (by omega)).neg_one_pow]; rfl

theorem legendreF_abs (φ k : ℝ) : legendreF φ |k| = legendreF φ k := by rw [legendreF, legendreF, sq_abs]
theorem legendreK_abs (k : ℝ) : legendreK |k| = legendreK k := by rw [legendreK, legendreK, legendreF_abs]

/-- the angle whose sine, cosine and delta are returned, and its elliptic integral -/
theorem sncndn_core (eps : ℝ) (he : 2 * (1 / 2) ^ 2 ^ 14 ≤ eps) (he1 : eps ≤ 1 / 2000) (k : ℝ) (hk1 : (1 / 2) ^ 2 ^ 15 ≤ 1 - k ^ 2)
    (hK : eps * legendreK k ≤ Real.pi / 2) (x : ℝ) :
    ∃ (N : ℕ) (θ : ℝ), (∀ fuel, N ≤ fuel → ellipticSNCNDN fuel eps x k =
        .ok (Real.sin θ, Real.cos θ, Real.sqrt (1 - k ^ 2 * Real.sin θ ^ 2))) ∧
      |legendreF θ k - x| ≤ eps * legendreK k * (3 * legendreK k + |x|) ∧
      (x ≤ Real.pi / 2 → |legendreF θ k - x| ≤ eps * legendreK k * |x|) := by
  have hpow : (0 : ℝ) < (1 / 2) ^ 2 ^ 15 := by positivity
  have heps : 0 < eps := lt_of_lt_of_le (by positivity) he
  have hk2 : k ^ 2 < 1 := by linarith
  have hKge := legendreK_ge hk2
  have hpi := Real.pi_gt_three
  have hK1 : 1 ≤ legendreK k := by linarith
  have hdn : ∀ θ, fsqrt (1 - k * k * Real.sin θ * Real.sin θ) = .ok (Real.sqrt (1 - k ^ 2 * Real.sin θ ^ 2)) := by
    intro θ
    have e : 1 - k * k * Real.sin θ * Real.sin θ = 1 - k ^ 2 * Real.sin θ ^ 2 := by ring
    rw [e]
    apply fsqrt_ok
    have := Real.sin_sq_le_one θ
    nlinarith [sq_nonneg k, sq_nonneg (Real.sin θ)]
  rcases le_or_gt x (Real.pi / 2) with hx | hx
  · obtain ⟨am, e1, -, e3⟩ := ellipticAM_general eps he |k| (abs_nonneg k) (by rw [sq_abs]; exact hk1) (by rw [legendreK_abs]; exact hK) x
    refine ⟨0, am, fun fuel _ => ?_, ?_, fun _ => by rw [legendreF_abs, legendreK_abs] at e3; exact e3⟩
    · simp only [ellipticSNCNDN]
      rw [reduce_plain fuel eps x k hk2.le hx, Out.ok_bind]
      simp only []
      rw [e1, Out.ok_bind, one_mul, one_mul, hdn, Out.ok_bind]
      rfl
    · rw [legendreF_abs, legendreK_abs] at e3
      have hx0 := abs_nonneg x
      calc |legendreF am k - x| ≤ eps * legendreK k * |x| := e3
        _ ≤ _ := by apply mul_le_mul_of_nonneg_left (by linarith) (by positivity)
  · obtain ⟨N, v, hv, hacc⟩ := C70_K eps heps he1 k hk2
    obtain ⟨hl, hu⟩ := abs_le.mp hacc
    have hv0 : 0 < v := by nlinarith
    obtain ⟨n, hr, hred⟩ := reduce_large eps x k hk2.le hx v hv0
    obtain ⟨am, e1, -, e3⟩ := ellipticAM_general eps he |k| (abs_nonneg k) (by rw [sq_abs]; exact hk1) (by rw [legendreK_abs]; exact hK)
      (x - n * (2 * v))
    rw [legendreF_abs, legendreK_abs] at e3
    refine ⟨N, am + n * Real.pi, fun fuel hf => ?_, ?_, fun h => absurd hx (not_lt.mpr h)⟩
    · simp only [ellipticSNCNDN]
      rw [hred fuel (hv fuel hf), Out.ok_bind]
      simp only []
      rw [e1, Out.ok_bind]
      have es : (-1) ^ n * Real.sin am = Real.sin (am + n * Real.pi) := (Real.sin_add_nat_mul_pi am n).symm
      have ec : (-1) ^ n * Real.cos am = Real.cos (am + n * Real.pi) := (Real.cos_add_nat_mul_pi am n).symm
      rw [es, ec, hdn, Out.ok_bind]
      rfl
    · rw [legendreF_add_nat hk2]
      have hx0 : 0 < x := by linarith
      have hn0 : (0 : ℝ) ≤ n := Nat.cast_nonneg n
      rw [abs_of_pos hx0]
      generalize legendreK k = K at *
      generalize (n : ℝ) = q at *
      have split : legendreF am k + 2 * q * K - x = (legendreF am k - (x - q * (2 * v))) + 2 * q * (K - v) := by ring
      have hvK : |2 * q * (K - v)| ≤ 2 * q * (eps / 4 * K) := by
        rw [abs_mul, abs_of_nonneg (by positivity : 0 ≤ 2 * q), abs_sub_comm]
        exact mul_le_mul_of_nonneg_left hacc (by positivity)
      have hvu : v ≤ 9 / 8 * K := by nlinarith
      have hvl : 7 / 8 * K ≤ v := by nlinarith
      have hqx : 2 * q * v ≤ x + v := by linarith [(abs_le.mp hr).1]
      have hqK : 2 * q * K ≤ 8 / 7 * (x + 9 / 8 * K) := by
        have : 2 * q * (7 / 8 * K) ≤ 2 * q * v := mul_le_mul_of_nonneg_left hvl (by positivity)
        linarith
      calc |legendreF am k + 2 * q * K - x| ≤ |legendreF am k - (x - q * (2 * v))| + |2 * q * (K - v)| := by
            rw [split]; exact abs_add_le _ _
        _ ≤ eps * K * (9 / 8 * K) + eps / 4 * (8 / 7 * (x + 9 / 8 * K)) := by
            have h1 : eps * K * |x - q * (2 * v)| ≤ eps * K * (9 / 8 * K) :=
              mul_le_mul_of_nonneg_left (hr.trans hvu) (by positivity)
            have h2 : eps / 4 * (2 * q * K) ≤ eps / 4 * (8 / 7 * (x + 9 / 8 * K)) := mul_le_mul_of_nonneg_left hqK (by positivity)
            linarith
        _ = eps * (K * (9 / 8 * K) + 2 / 7 * x + 9 / 28 * K) := by ring
        _ ≤ eps * (K * (3 * K + x)) := by
            apply mul_le_mul_of_nonneg_left _ heps.le
            nlinarith [mul_nonneg (by linarith : 0 ≤ K - 1) hx0.le]
        _ = _ := by ring

/-- **C71**: for every modulus between minus one and one and every argument, `EllipticSNCNDN` returns the sine, the cosine and the
delta of one and the same angle, which differs from the amplitude by at most `eps K(k) (3 K(k) + |x|)`. -/
theorem C71_sncndn (eps : ℝ) (he : 2 * (1 / 2) ^ 2 ^ 14 ≤ eps) (he1 : eps ≤ 1 / 2000) (k : ℝ) (hk1 : (1 / 2) ^ 2 ^ 15 ≤ 1 - k ^ 2)
    (hK : eps * legendreK k ≤ Real.pi / 2) (x : ℝ) :
    ∃ (N : ℕ) (θ φ : ℝ), (∀ fuel, N ≤ fuel → ellipticSNCNDN fuel eps x k =
        .ok (Real.sin θ, Real.cos θ, Real.sqrt (1 - k ^ 2 * Real.sin θ ^ 2))) ∧
      legendreF φ k = x ∧ |θ - φ| ≤ eps * legendreK k * (3 * legendreK k + |x|) := by
  have hk2 : k ^ 2 < 1 := by
    have : (0 : ℝ) < (1 / 2) ^ 2 ^ 15 := by positivity
    linarith
  obtain ⟨N, θ, h, hb, -⟩ := sncndn_core eps he he1 k hk1 hK x
  obtain ⟨φ, hφ, -⟩ := C71_amplitude_unique hk2 x
  refine ⟨N, θ, φ, h, hφ, (legendreF_expands hk2 θ φ).trans ?_⟩
  rw [hφ]
  exact hb

/-- the delta changes no faster than the angle -/
theorem delta_lipschitz {k : ℝ} (hk : k ^ 2 ≤ 1) (θ φ : ℝ) :
    |Real.sqrt (1 - k ^ 2 * Real.sin θ ^ 2) - Real.sqrt (1 - k ^ 2 * Real.sin φ ^ 2)| ≤ |θ - φ| := by
  have hpos : ∀ θ, 0 ≤ 1 - k ^ 2 * Real.sin θ ^ 2 := fun θ => by
    have := Real.sin_sq_le_one θ
    nlinarith [sq_nonneg k, sq_nonneg (Real.sin θ)]
  have hcos : ∀ θ, |Real.cos θ| ≤ Real.sqrt (1 - k ^ 2 * Real.sin θ ^ 2) := fun θ => by
    apply Real.le_sqrt_of_sq_le
    rw [sq_abs]
    nlinarith [Real.sin_sq_add_cos_sq θ, sq_nonneg (Real.sin θ)]
  have h1 := Real.mul_self_sqrt (hpos θ)
  have h2 := Real.mul_self_sqrt (hpos φ)
  have c1 := hcos θ
  have c2 := hcos φ
  have s1 := Real.sqrt_nonneg (1 - k ^ 2 * Real.sin θ ^ 2)
  have s2 := Real.sqrt_nonneg (1 - k ^ 2 * Real.sin φ ^ 2)
  generalize Real.sqrt (1 - k ^ 2 * Real.sin θ ^ 2) = A at *
  generalize Real.sqrt (1 - k ^ 2 * Real.sin φ ^ 2) = B at *
  have hsum : |Real.sin (φ + θ)| ≤ A + B := by
    rw [Real.sin_add]
    calc |Real.sin φ * Real.cos θ + Real.cos φ * Real.sin θ| ≤ |Real.sin φ * Real.cos θ| + |Real.cos φ * Real.sin θ| := abs_add_le _ _
      _ ≤ A + B := by
        rw [abs_mul, abs_mul]
        have t1 := Real.abs_sin_le_one φ
        have t2 := Real.abs_sin_le_one θ
        nlinarith [abs_nonneg (Real.cos θ), abs_nonneg (Real.cos φ)]
  have hprod : (A - B) * (A + B) = k ^ 2 * (Real.sin (φ - θ) * Real.sin (φ + θ)) := by
    rw [Real.sin_sub, Real.sin_add]
    nlinarith [Real.sin_sq_add_cos_sq θ, Real.sin_sq_add_cos_sq φ]
  have hdiff : |Real.sin (φ - θ)| ≤ |θ - φ| := by rw [abs_sub_comm]; exact Real.abs_sin_le_abs
  rcases (add_nonneg s1 s2).eq_or_lt with h0 | h0
  · have ea : A = 0 := by linarith
    have eb : B = 0 := by linarith
    rw [ea, eb, sub_zero, abs_zero]
    exact abs_nonneg _
  · have : |A - B| * (A + B) ≤ |θ - φ| * (A + B) := by
      calc |A - B| * (A + B) = |(A - B) * (A + B)| := by rw [abs_mul, abs_of_pos h0]
        _ = k ^ 2 * (|Real.sin (φ - θ)| * |Real.sin (φ + θ)|) := by
            rw [hprod, abs_mul, abs_mul, abs_of_nonneg (sq_nonneg k)]
        _ ≤ 1 * (|θ - φ| * (A + B)) := by
            apply mul_le_mul hk (mul_le_mul hdiff hsum (abs_nonneg _) (abs_nonneg _)) (by positivity) zero_le_one
        _ = _ := one_mul _
    exact le_of_mul_le_mul_right this h0

/-- **C71**: the three results satisfy the Pythagorean relations exactly, dn is not negative, and each differs from the value of
the function by at most `eps K(k) (3 K(k) + |x|)`. -/
theorem C71_functions (eps : ℝ) (he : 2 * (1 / 2) ^ 2 ^ 14 ≤ eps) (he1 : eps ≤ 1 / 2000) (k : ℝ) (hk1 : (1 / 2) ^ 2 ^ 15 ≤ 1 - k ^ 2)
    (hK : eps * legendreK k ≤ Real.pi / 2) (x : ℝ) :
    ∃ (N : ℕ) (sn cn dn φ : ℝ), (∀ fuel, N ≤ fuel → ellipticSNCNDN fuel eps x k = .ok (sn, cn, dn)) ∧
      sn ^ 2 + cn ^ 2 = 1 ∧ dn ^ 2 + k ^ 2 * sn ^ 2 = 1 ∧ 0 ≤ dn ∧
      legendreF φ k = x ∧ |sn - Real.sin φ| ≤ eps * legendreK k * (3 * legendreK k + |x|) ∧
      |cn - Real.cos φ| ≤ eps * legendreK k * (3 * legendreK k + |x|) ∧
      |dn - Real.sqrt (1 - k ^ 2 * Real.sin φ ^ 2)| ≤ eps * legendreK k * (3 * legendreK k + |x|) := by
  have hpow : (0 : ℝ) < (1 / 2) ^ 2 ^ 15 := by positivity
  have hk2 : k ^ 2 < 1 := by linarith
  obtain ⟨N, θ, φ, h, hφ, hb⟩ := C71_sncndn eps he he1 k hk1 hK x
  refine ⟨N, _, _, _, φ, h, Real.sin_sq_add_cos_sq θ, ?_, Real.sqrt_nonneg _, hφ, le_trans ?_ hb, le_trans ?_ hb,
    (delta_lipschitz hk2.le θ φ).trans hb⟩
  · rw [Real.sq_sqrt]
    · ring
    · have := Real.sin_sq_le_one θ
      nlinarith [sq_nonneg k, sq_nonneg (Real.sin θ)]
  · exact Real.abs_sin_sub_sin_le θ φ
  · exact Real.abs_cos_sub_cos_le θ φ

/-- **C71**: of the moduli one and minus one the functions are hyperbolic, exactly -/
theorem C71_functions_one (fuel : ℕ) (eps x k : ℝ) (hk : k ^ 2 = 1) :
    ellipticSNCNDN fuel eps x k = .ok (Real.tanh x, 1 / Real.cosh x, 1 / Real.cosh x) := by
  have habs : |k| = 1 := by
    have : |k| ^ 2 = 1 := by rw [sq_abs]; exact hk
    nlinarith [abs_nonneg k]
  have hred : ellipticReduceRange fuel eps x k = .ok (x, 1, 1, 1) := by
    have hif : (if k < 0 then -k else k) = |k| := by
      split_ifs with h
      · rw [abs_of_neg h]
      · rw [abs_of_nonneg (by linarith)]
    have hnk : ¬ (1 : ℝ) < 1 := lt_irrefl _
    simp only [ellipticReduceRange, hif, habs, if_neg hnk]
    by_cases hx : Real.pi / 2 < x
    · rw [if_pos hx, C70_K_one eps fuel k hk, Out.ok_bind]
      change (remquo x ⊤ >>= _) = _
      simp only [remquo]
      rw [Out.ok_bind]
      simp only []
      rw [if_neg (by decide)]
      rfl
    · rw [if_neg hx]
      rfl
  obtain ⟨am, e1, e2, e3, -⟩ := C71_amplitude_one eps x
  simp only [ellipticSNCNDN]
  rw [hred, Out.ok_bind]
  simp only []
  rw [e1, Out.ok_bind, one_mul, one_mul, e2, e3]
  have hc := Real.cosh_pos x
  have hsq : 1 - k * k * Real.tanh x * Real.tanh x = (1 / Real.cosh x) ^ 2 := by
    have : k * k * Real.tanh x * Real.tanh x = Real.tanh x ^ 2 := by
      have : k * k = 1 := by rw [← hk]; ring
      rw [this]; ring
    rw [this, Real.tanh_eq_sinh_div_cosh]
    have h := Real.cosh_sq x
    field_simp
    linarith
  rw [hsq, fsqrt_ok (by positivity), Real.sqrt_sq (by positivity), Out.ok_bind]
  rfl

/-- **C71**, what the library gets wrong: for a modulus above one cn is not what belongs to sn (the values of cn and dn would
have to be exchanged) -/
theorem C71_large_modulus_wrong (fuel : ℕ) (eps x k sn cn dn : ℝ) (hk : 1 < k) (hx : x * k ≤ Real.pi / 2)
    (h : ellipticSNCNDN fuel eps x k = .ok (sn, cn, dn)) : cn ^ 2 = 1 - k ^ 2 * sn ^ 2 ∧ dn ^ 2 = cn ^ 2 ∧
      (sn ≠ 0 → sn ^ 2 + cn ^ 2 < 1) := by
  have hred : ellipticReduceRange fuel eps x k = .ok (x * k, 1 / k, 1 / k, 1) := by
    have hnn : ¬ k < 0 := by linarith
    simp only [ellipticReduceRange, if_neg hnn, if_pos hk]
    rw [if_neg (by linarith)]
    rfl
  simp only [ellipticSNCNDN] at h
  rw [hred, Out.ok_bind] at h
  simp only [] at h
  obtain ⟨am, -, h⟩ := Out.bind_eq_ok.mp h
  have hk0 : 0 < k := by linarith
  have e : 1 - k * k * (1 / k * Real.sin am) * (1 / k * Real.sin am) = Real.cos am ^ 2 := by
    have := Real.sin_sq_add_cos_sq am
    field_simp
    linarith
  rw [e, fsqrt_ok (sq_nonneg _), Out.ok_bind, one_mul] at h
  cases h
  have ht := Real.sin_sq_add_cos_sq am
  refine ⟨?_, ?_, ?_⟩
  · field_simp
    linarith
  · rw [Real.sq_sqrt (sq_nonneg _)]
  · intro hsn
    have hs : 0 < (1 / k * Real.sin am) ^ 2 := by positivity
    have e2 : Real.sin am = k * (1 / k * Real.sin am) := by field_simp
    generalize 1 / k * Real.sin am = u at *
    rw [e2] at ht
    have : 1 < k ^ 2 := by nlinarith
    nlinarith

/-- **C71**, what the library gets wrong: for a modulus above one and arguments above a quarter circle the result is not a number:
the period is computed from the modulus that was given instead of the reduced one -/
theorem C71_large_argument_wrong (fuel : ℕ) (eps x k : ℝ) (he0 : 0 < eps) (he1 : eps ≤ 1) (hk : 1 < k) (hx : Real.pi / 2 < x * k) :
    ellipticSNCNDN fuel eps x k = .ub := by
  have hK : ellipticK fuel eps k = .ub := by
    have hneg : 1 - k * k < 0 := by nlinarith
    unfold ellipticK carlsonRF
    rw [if_neg (by rw [if_pos rfl, if_neg hneg.ne, if_neg one_ne_zero]; norm_num)]
    have hloop : whileN fuel (fun s : RfState ℝ => decide (s.Q > |s.An|)) rfStep (rfStart eps 0 (1 - k * k) 1) = .ub := by
      cases fuel with
      | zero => rfl
      | succ n =>
        rw [whileN, if_pos]
        · have : rfStep (rfStart eps 0 (1 - k * k) 1) = .ub := by
            simp only [rfStep, rfStart]
            have e1 : (0 : ℝ) * (1 - k * k) + (0 + (1 - k * k)) * 0 + 0 * 0 = 0 := by ring
            have e2 : (0 : ℝ) * 1 + (0 + 1) * 0 + 0 * 0 = 0 := by ring
            have e3 : (1 : ℝ) * (1 - k * k) + (1 + (1 - k * k)) * 0 + 0 * 0 = 1 - k * k := by ring
            rw [e1, e2, e3, fsqrt_ok le_rfl, Out.ok_bind, Out.ok_bind, fsqrt, if_neg (by linarith)]
            rfl
          rw [this]
          rfl
        · rw [decide_eq_true_eq]
          simp only [rfStart]
          have hp : 1 < (3 * (eps / 4)) ^ (-(1 : ℝ) / 8) := by
            apply Real.one_lt_rpow_of_pos_of_lt_one_of_neg (by positivity) (by linarith) (by norm_num)
          have hm : |(0 + (1 - k * k) + 1) / 3| ≤ max (max |(0 + (1 - k * k) + 1) / 3 - 0| |(0 + (1 - k * k) + 1) / 3 - (1 - k * k)|) |(0 + (1 - k * k) + 1) / 3 - 1| := by
            refine le_trans ?_ (le_max_left _ _)
            rw [sub_zero]
            exact le_max_left _ _
          have hm0 : 0 < max (max |(0 + (1 - k * k) + 1) / 3 - 0| |(0 + (1 - k * k) + 1) / 3 - (1 - k * k)|) |(0 + (1 - k * k) + 1) / 3 - 1| := by
            refine lt_of_lt_of_le ?_ (le_max_right _ _)
            apply abs_pos.mpr
            intro h0
            linarith
          nlinarith
    rw [hloop]
    rfl
  have hnn : ¬ k < 0 := by linarith
  simp only [ellipticSNCNDN, ellipticReduceRange, if_neg hnn, if_pos hk]
  rw [if_pos hx, hK]
  rfl

/-- the hypotheses of `C71_large_modulus_wrong` are met -/
example : (1 / 2 : ℝ) * 2 ≤ Real.pi / 2 ∧ ∃ sn cn dn, ellipticSNCNDN 0 (1 / 2 ^ 52) (1 / 2) 2 = .ok (sn, cn, dn) ∧ sn ≠ 0 := by
  have hpi := Real.pi_gt_three
  have hsmall : 2 * (1 / 2) ^ 2 ^ 14 ≤ (1 / 2 ^ 52 : ℝ) := by
    rw [show (2 : ℝ) * (1 / 2) ^ 2 ^ 14 = (1 / 2) ^ (2 ^ 14 - 1) by
      rw [show 2 ^ 14 = (2 ^ 14 - 1) + 1 by norm_num, pow_succ]
      rw [show 2 ^ 14 - 1 + 1 - 1 = 2 ^ 14 - 1 by norm_num]
      ring]
    exact small_pow (by norm_num)
  have hq : (1 / 2) ^ 2 ^ 15 ≤ 1 - (1 / 2 : ℝ) ^ 2 := by
    refine le_trans (small_pow (n := 2 ^ 15) (by norm_num)) ?_
    norm_num
  have hk2 : (1 / 2 : ℝ) ^ 2 < 1 := by norm_num
  have hK2 : legendreK (1 / 2) ≤ Real.pi := by
    refine (legendreK_le hk2).trans ?_
    have : (1 / 2 : ℝ) ≤ Real.sqrt (1 - (1 / 2) ^ 2) := Real.le_sqrt_of_sq_le (by norm_num)
    calc Real.pi / 2 / Real.sqrt (1 - (1 / 2) ^ 2) ≤ Real.pi / 2 / (1 / 2) :=
          div_le_div_of_nonneg_left (by positivity) (by norm_num) this
      _ = Real.pi := by ring
  have hp4 := Real.pi_le_four
  obtain ⟨am, e1, -, e3⟩ := ellipticAM_general (1 / 2 ^ 52) hsmall (1 / 2) (by norm_num) hq (by linarith) 1
  have hb : |legendreF am (1 / 2) - 1| ≤ 1 / 2 := by
    refine e3.trans ?_
    rw [abs_one, mul_one]
    linarith
  obtain ⟨l, u⟩ := abs_le.mp hb
  have hne : am ≠ 0 := by
    rintro rfl
    rw [legendreF_zero] at l
    linarith
  have hlt : |am| < Real.pi := by
    have := legendreF_expands hk2 am 0
    rw [legendreF_zero, sub_zero, sub_zero, abs_of_pos (by linarith : 0 < legendreF am (1 / 2))] at this
    linarith
  have hs : Real.sin am ≠ 0 := by
    intro h0
    rw [Real.sin_eq_zero_iff_of_lt_of_lt (abs_lt.mp hlt).1 (abs_lt.mp hlt).2] at h0
    exact hne h0
  refine ⟨by linarith, 1 / 2 * Real.sin am, 1 * Real.cos am, Real.sqrt (1 - 2 * 2 * (1 / 2 * Real.sin am) * (1 / 2 * Real.sin am)), ?_,
    mul_ne_zero (by norm_num) hs⟩
  have hnn : ¬ (2 : ℝ) < 0 := by norm_num
  have hpp : (1 : ℝ) < 2 := by norm_num
  simp only [ellipticSNCNDN, ellipticReduceRange, if_neg hnn, if_pos hpp]
  rw [if_neg (by linarith), Out.pure_def, Out.ok_bind]
  simp only []
  rw [show (1 / 2 : ℝ) * 2 = 1 by norm_num, e1, Out.ok_bind, fsqrt_ok, Out.ok_bind]
  · rfl
  · have := Real.sin_sq_le_one am
    nlinarith

end Verif
