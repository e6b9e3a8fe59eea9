import Verif.Props.EllipticFunctions

set_option linter.unusedSimpArgs false

/-! # C71: Jacobi's elliptic functions of complex arguments -/

namespace Verif

/-- the values that enter the formulas, and the relations between them -/
theorem delta_sq {k : ℝ} (hk : k ^ 2 ≤ 1) (θ : ℝ) : jacobiDelta k θ ^ 2 = 1 - k ^ 2 * Real.sin θ ^ 2 := by
  rw [jacobiDelta, Real.sq_sqrt]
  have := Real.sin_sq_le_one θ
  nlinarith [sq_nonneg k, sq_nonneg (Real.sin θ)]

theorem delta_compl_sq {k : ℝ} (hk : k ^ 2 ≤ 1) (ψ : ℝ) :
    jacobiDelta (Real.sqrt (1 - k ^ 2)) ψ ^ 2 = 1 - (1 - k ^ 2) * Real.sin ψ ^ 2 := by
  have h : Real.sqrt (1 - k ^ 2) ^ 2 = 1 - k ^ 2 := Real.sq_sqrt (by linarith)
  rw [delta_sq (by rw [h]; nlinarith [sq_nonneg k]), h]

theorem complex_alg {s c d t g e D q : ℝ} (hc : c ^ 2 = 1 - s ^ 2) (hd : d ^ 2 = 1 - q * s ^ 2) (hg : g ^ 2 = 1 - t ^ 2)
    (he : e ^ 2 = 1 - (1 - q) * t ^ 2) (hD : D = g ^ 2 + q * s ^ 2 * t ^ 2) :
    s ^ 2 * e ^ 2 - c ^ 2 * d ^ 2 * t ^ 2 * g ^ 2 + c ^ 2 * g ^ 2 - s ^ 2 * d ^ 2 * t ^ 2 * e ^ 2 = D ^ 2 ∧
    d ^ 2 * g ^ 2 * e ^ 2 - q ^ 2 * s ^ 2 * c ^ 2 * t ^ 2 + q * (s ^ 2 * e ^ 2 - c ^ 2 * d ^ 2 * t ^ 2 * g ^ 2) = D ^ 2 ∧
    (d ^ 2 + q * c ^ 2) * D + 2 * q * c ^ 2 * d ^ 2 * t ^ 2 = q * c ^ 2 + d ^ 2 * e ^ 2 ∧
    -((1 - q) * D) + 2 * e ^ 2 * (1 - q * s ^ 2) = q * c ^ 2 + e ^ 2 * d ^ 2 ∧
    (g ^ 2 - t ^ 2) * D + 2 * g ^ 2 * t ^ 2 * (1 - q * s ^ 2) = g ^ 2 - q * s ^ 2 * t ^ 2 := by
  rw [hD, hc, hd, hg, he]
  refine ⟨?_, ?_, ?_, ?_, ?_⟩ <;> ring

/-- **C71** (about the specification): the complex functions satisfy the Pythagorean relations -/
theorem C71_complex_relations {k : ℝ} (hk : k ^ 2 ≤ 1) (θ ψ : ℝ) (hd : complexDenominator k θ ψ ≠ 0) :
    complexSn k θ ψ ^ 2 + complexCn k θ ψ ^ 2 = 1 ∧ complexDn k θ ψ ^ 2 + (k : ℂ) ^ 2 * complexSn k θ ψ ^ 2 = 1 := by
  have a1 := Real.sin_sq_add_cos_sq θ
  have a2 := Real.sin_sq_add_cos_sq ψ
  have a3 := delta_sq hk θ
  have a4 := delta_compl_sq hk ψ
  unfold complexSn complexCn complexDn
  have hD : complexDenominator k θ ψ = Real.cos ψ ^ 2 + k ^ 2 * Real.sin θ ^ 2 * Real.sin ψ ^ 2 := rfl
  have hkk : (k : ℂ) ^ 2 = ((k ^ 2 : ℝ) : ℂ) := by push_cast; ring
  rw [hkk]
  generalize complexDenominator k θ ψ = D at *
  generalize jacobiDelta (Real.sqrt (1 - k ^ 2)) ψ = e at *
  generalize jacobiDelta k θ = d at *
  generalize Real.sin θ = s at *
  generalize Real.cos θ = c at *
  generalize Real.sin ψ = t at *
  generalize Real.cos ψ = g at *
  obtain ⟨k1, k2, -⟩ := complex_alg (by linarith : c ^ 2 = 1 - s ^ 2) a3 (by linarith : g ^ 2 = 1 - t ^ 2) a4 hD
  constructor
  · apply Complex.ext
    · simp only [sq, Complex.add_re, Complex.mul_re, Complex.one_re]
      field_simp
      linear_combination k1
    · simp only [sq, Complex.add_im, Complex.mul_im, Complex.one_im]
      ring
  · apply Complex.ext
    · simp only [sq, Complex.add_re, Complex.mul_re, Complex.one_re, Complex.ofReal_re, Complex.ofReal_im]
      field_simp
      linear_combination k2
    · simp only [sq, Complex.add_im, Complex.mul_im, Complex.mul_re, Complex.one_im, Complex.ofReal_re, Complex.ofReal_im]
      ring

theorem delta_pos {k : ℝ} (hk : k ^ 2 < 1) (θ : ℝ) : 0 < jacobiDelta k θ := by
  apply Real.sqrt_pos.mpr
  have := Real.sin_sq_le_one θ
  nlinarith [sq_nonneg k, sq_nonneg (Real.sin θ)]

theorem delta_deriv {k : ℝ} (hk : k ^ 2 < 1) (θ : ℝ) :
    HasDerivAt (jacobiDelta k) (-(k ^ 2 * Real.sin θ * Real.cos θ) / jacobiDelta k θ) θ := by
  have hpos : 0 < 1 - k ^ 2 * Real.sin θ ^ 2 := Real.sqrt_pos.mp (delta_pos hk θ)
  have h1 : HasDerivAt (fun θ => 1 - k ^ 2 * Real.sin θ ^ 2) (-(k ^ 2 * (2 * Real.sin θ * Real.cos θ))) θ := by
    have := (((Real.hasDerivAt_sin θ).pow 2).const_mul (k ^ 2)).const_sub 1
    refine this.congr_deriv ?_
    simp
  refine (h1.sqrt hpos.ne').congr_deriv ?_
  change _ = -(k ^ 2 * Real.sin θ * Real.cos θ) / Real.sqrt (1 - k ^ 2 * Real.sin θ ^ 2)
  have := (Real.sqrt_pos.mpr hpos).ne'
  field_simp

/-- a curve in the complex plane is differentiable with its components -/
theorem hasDerivAt_mk {f g : ℝ → ℝ} {f' g' x : ℝ} (hf : HasDerivAt f f' x) (hg : HasDerivAt g g' x) :
    HasDerivAt (fun t => (⟨f t, g t⟩ : ℂ)) ⟨f', g'⟩ x := by
  have h := (hf.ofReal_comp).add ((hg.ofReal_comp).mul_const Complex.I)
  have e : ∀ a b : ℝ, (⟨a, b⟩ : ℂ) = (a : ℂ) + (b : ℂ) * Complex.I := fun a b => Complex.mk_eq_add_mul_I a b
  simp only [e]
  exact h

/-- the derivative of sn along the real direction, in terms of the angle -/
theorem complexSn_deriv_re {k : ℝ} (hk : k ^ 2 < 1) (θ ψ : ℝ) (hD : complexDenominator k θ ψ ≠ 0) :
    HasDerivAt (fun t => complexSn k t ψ) (complexCn k θ ψ * complexDn k θ ψ / (jacobiDelta k θ : ℂ)) θ := by
  have hdp := delta_pos hk θ
  have hs := Real.hasDerivAt_sin θ
  have hc := Real.hasDerivAt_cos θ
  have hdd := delta_deriv hk θ
  have hDd : HasDerivAt (fun t => complexDenominator k t ψ) (k ^ 2 * (2 * Real.sin θ * Real.cos θ) * Real.sin ψ ^ 2) θ := by
    have := (((hs.pow 2).const_mul (k ^ 2)).mul_const (Real.sin ψ ^ 2)).const_add (Real.cos ψ ^ 2)
    refine this.congr_deriv ?_
    simp
  have hre := (hs.mul_const (jacobiDelta (Real.sqrt (1 - k ^ 2)) ψ)).div hDd hD
  have him := (((hc.mul hdd).mul_const (Real.sin ψ)).mul_const (Real.cos ψ)).div hDd hD
  refine (hasDerivAt_mk hre him).congr_deriv ?_
  rw [Complex.div_ofReal]
  simp only [Pi.mul_apply]
  have a1 := Real.sin_sq_add_cos_sq θ
  have a2 := Real.sin_sq_add_cos_sq ψ
  have a3 := delta_sq hk.le θ
  have a4 := delta_compl_sq hk.le ψ
  unfold complexCn complexDn
  have hDef : complexDenominator k θ ψ = Real.cos ψ ^ 2 + k ^ 2 * Real.sin θ ^ 2 * Real.sin ψ ^ 2 := rfl
  generalize complexDenominator k θ ψ = D at *
  generalize jacobiDelta (Real.sqrt (1 - k ^ 2)) ψ = e at *
  generalize jacobiDelta k θ = d at *
  generalize Real.sin θ = s at *
  generalize Real.cos θ = c at *
  generalize Real.sin ψ = t at *
  generalize Real.cos ψ = g at *
  obtain ⟨-, -, k3, -, -⟩ := complex_alg (by linarith : c ^ 2 = 1 - s ^ 2) a3 (by linarith : g ^ 2 = 1 - t ^ 2) a4 hDef
  apply Complex.ext
  · simp only [Complex.mul_re]
    field_simp
    linear_combination c * e * hDef
  · simp only [Complex.mul_im]
    field_simp
    linear_combination -s * t * g * k3

/-- the derivative of sn along the imaginary direction, in terms of the angle -/
theorem complexSn_deriv_im {k : ℝ} (hk0 : k ≠ 0) (hk : k ^ 2 < 1) (θ ψ : ℝ) (hD : complexDenominator k θ ψ ≠ 0) :
    HasDerivAt (fun t => complexSn k θ t)
      (Complex.I * (complexCn k θ ψ * complexDn k θ ψ) / (jacobiDelta (Real.sqrt (1 - k ^ 2)) ψ : ℂ)) ψ := by
  have hkp : Real.sqrt (1 - k ^ 2) ^ 2 = 1 - k ^ 2 := Real.sq_sqrt (by linarith)
  have hkp1 : Real.sqrt (1 - k ^ 2) ^ 2 < 1 := by
    rw [hkp]
    have : 0 < k ^ 2 := by positivity
    linarith
  have hdp := delta_pos hkp1 ψ
  have hs := Real.hasDerivAt_sin ψ
  have hc := Real.hasDerivAt_cos ψ
  have hdd := delta_deriv hkp1 ψ
  rw [hkp] at hdd
  have hDd : HasDerivAt (fun t => complexDenominator k θ t)
      (-(2 * Real.cos ψ * Real.sin ψ) + k ^ 2 * Real.sin θ ^ 2 * (2 * Real.sin ψ * Real.cos ψ)) ψ := by
    have := (hc.pow 2).add ((hs.pow 2).const_mul (k ^ 2 * Real.sin θ ^ 2))
    refine this.congr_deriv ?_
    simp
  have hre := (hdd.const_mul (Real.sin θ)).div hDd hD
  have him := (((hs.const_mul (Real.cos θ * jacobiDelta k θ))).mul hc).div hDd hD
  refine (hasDerivAt_mk hre him).congr_deriv ?_
  rw [Complex.div_ofReal]
  simp only [Pi.mul_apply]
  have a1 := Real.sin_sq_add_cos_sq θ
  have a2 := Real.sin_sq_add_cos_sq ψ
  have a3 := delta_sq hk.le θ
  have a4 := delta_compl_sq hk.le ψ
  unfold complexCn complexDn
  have hDef : complexDenominator k θ ψ = Real.cos ψ ^ 2 + k ^ 2 * Real.sin θ ^ 2 * Real.sin ψ ^ 2 := rfl
  generalize complexDenominator k θ ψ = D at *
  generalize jacobiDelta (Real.sqrt (1 - k ^ 2)) ψ = e at *
  generalize jacobiDelta k θ = d at *
  generalize Real.sin θ = s at *
  generalize Real.cos θ = c at *
  generalize Real.sin ψ = t at *
  generalize Real.cos ψ = g at *
  obtain ⟨-, -, -, k4, k5⟩ := complex_alg (by linarith : c ^ 2 = 1 - s ^ 2) a3 (by linarith : g ^ 2 = 1 - t ^ 2) a4 hDef
  apply Complex.ext
  · simp only [Complex.mul_re, Complex.mul_im, Complex.I_re, Complex.I_im, zero_mul, one_mul, zero_sub, zero_add]
    field_simp
    linear_combination s * t * g * k4
  · simp only [Complex.mul_re, Complex.mul_im, Complex.I_re, Complex.I_im, zero_mul, one_mul, zero_sub, zero_add]
    field_simp
    linear_combination c * d * k5

theorem amplitude_deriv {k : ℝ} (hk : k ^ 2 < 1) (am : ℝ → ℝ) (ham : ∀ u, legendreF (am u) k = u) (u : ℝ) :
    HasDerivAt am (jacobiDelta k (am u)) u := by
  have hcont : Continuous am := by
    have : LipschitzWith 1 am := LipschitzWith.of_dist_le_mul fun x y => by
      rw [Real.dist_eq, Real.dist_eq, NNReal.coe_one, one_mul]
      have := legendreF_expands hk (am x) (am y)
      rwa [ham, ham] at this
    exact this.continuous
  have h := HasDerivAt.of_local_left_inverse (f := fun φ => legendreF φ k) (g := am) (a := u) hcont.continuousAt
    (legendreF_deriv hk (am u)) (by have := (delta_pos hk (am u)).ne'; rw [jacobiDelta] at this; positivity) (Filter.Eventually.of_forall ham)
  refine h.congr_deriv ?_
  rw [one_div, inv_inv]
  rfl

/-- **C71** (about the specification): where `am` and `am'` are the amplitudes with modulus `k` and with the complementary modulus,
`complexSn` of `u + i v` is an analytic function whose derivative is cn dn: its derivative along the real direction is cn dn and
the one along the imaginary direction is i cn dn. -/
theorem C71_complex_analytic {k : ℝ} (hk0 : k ≠ 0) (hk : k ^ 2 < 1) (am am' : ℝ → ℝ) (ham : ∀ u, legendreF (am u) k = u)
    (ham' : ∀ v, legendreF (am' v) (Real.sqrt (1 - k ^ 2)) = v) (u v : ℝ) (hD : complexDenominator k (am u) (am' v) ≠ 0) :
    HasDerivAt (fun u => complexSn k (am u) (am' v)) (complexCn k (am u) (am' v) * complexDn k (am u) (am' v)) u ∧
    HasDerivAt (fun v => complexSn k (am u) (am' v)) (Complex.I * (complexCn k (am u) (am' v) * complexDn k (am u) (am' v))) v := by
  have hkp : Real.sqrt (1 - k ^ 2) ^ 2 = 1 - k ^ 2 := Real.sq_sqrt (by linarith)
  have hkp1 : Real.sqrt (1 - k ^ 2) ^ 2 < 1 := by
    rw [hkp]
    have : 0 < k ^ 2 := by positivity
    linarith
  constructor
  · have h := HasDerivAt.scomp u (complexSn_deriv_re hk (am u) (am' v) hD) (amplitude_deriv hk am ham u)
    refine h.congr_deriv ?_
    have := (delta_pos hk (am u)).ne'
    have hc : (jacobiDelta k (am u) : ℂ) ≠ 0 := by exact_mod_cast this
    rw [Complex.real_smul]
    field_simp
  · have h := HasDerivAt.scomp v (complexSn_deriv_im hk0 hk (am u) (am' v) hD) (amplitude_deriv hkp1 am' ham' v)
    refine h.congr_deriv ?_
    have := (delta_pos hkp1 (am' v)).ne'
    have hc : (jacobiDelta (Real.sqrt (1 - k ^ 2)) (am' v) : ℂ) ≠ 0 := by exact_mod_cast this
    rw [Complex.real_smul]
    field_simp

/-- the complex version from the two calls of the real one -/
theorem sncndnC_of {fuel : ℕ} {eps k θ ψ : ℝ} {x : ℂ} (hk : k ^ 2 ≤ 1)
    (h : ellipticSNCNDN fuel eps x.re k = .ok (Real.sin θ, Real.cos θ, jacobiDelta k θ))
    (h' : ellipticSNCNDN fuel eps x.im (Real.sqrt (1 - k ^ 2)) = .ok (Real.sin ψ, Real.cos ψ, jacobiDelta (Real.sqrt (1 - k ^ 2)) ψ)) :
    ellipticSNCNDNC fuel eps x k =
      if complexDenominator k θ ψ = 0 then .ub else .ok (complexSn k θ ψ, complexCn k θ ψ, complexDn k θ ψ) := by
  simp only [ellipticSNCNDNC]
  rw [h, Out.ok_bind]
  simp only []
  rw [fsqrt_ok (by nlinarith), Out.ok_bind, show 1 - k * k = 1 - k ^ 2 by ring, h', Out.ok_bind]
  simp only []
  have hD : Real.cos ψ * Real.cos ψ + k * k * Real.sin ψ * Real.sin ψ * Real.sin θ * Real.sin θ = complexDenominator k θ ψ := by
    rw [complexDenominator]; ring
  rw [hD]
  split_ifs
  · rfl
  · have e : ∀ a b A B D : ℝ, a = A → b = B → (⟨a, b⟩ : ℂ) / (D : ℂ) = ⟨A / D, B / D⟩ := by
      rintro a b A B D rfl rfl
      rw [Complex.div_ofReal]
    change Out.ok _ = Out.ok _
    refine congrArg Out.ok (Prod.ext ?_ (Prod.ext ?_ ?_))
    · exact e _ _ _ _ _ rfl (by ring)
    · exact e _ _ _ _ _ rfl (by ring)
    · exact e _ _ _ _ _ (by ring) (by ring)

/-- the two angles that enter the results, and their elliptic integrals -/
theorem sncndnC_core (eps : ℝ) (he : 2 * (1 / 2) ^ 2 ^ 14 ≤ eps) (he1 : eps ≤ 1 / 2000) (k : ℝ)
    (hk0 : (1 / 2) ^ 2 ^ 15 ≤ k ^ 2) (hk1 : (1 / 2) ^ 2 ^ 15 ≤ 1 - k ^ 2)
    (hK : eps * legendreK k ≤ Real.pi / 2) (hK' : eps * legendreK (Real.sqrt (1 - k ^ 2)) ≤ Real.pi / 2) (x : ℂ) :
    ∃ (N : ℕ) (θ ψ : ℝ), (∀ fuel, N ≤ fuel → ellipticSNCNDNC fuel eps x k =
        if complexDenominator k θ ψ = 0 then .ub else .ok (complexSn k θ ψ, complexCn k θ ψ, complexDn k θ ψ)) ∧
      |legendreF θ k - x.re| ≤ eps * legendreK k * (3 * legendreK k + |x.re|) ∧
      |legendreF ψ (Real.sqrt (1 - k ^ 2)) - x.im| ≤
        eps * legendreK (Real.sqrt (1 - k ^ 2)) * (3 * legendreK (Real.sqrt (1 - k ^ 2)) + |x.im|) := by
  have hpow : (0 : ℝ) < (1 / 2) ^ 2 ^ 15 := by positivity
  have hk2 : k ^ 2 < 1 := by linarith
  have hkp : Real.sqrt (1 - k ^ 2) ^ 2 = 1 - k ^ 2 := Real.sq_sqrt (by linarith)
  obtain ⟨N, θ, h, hb, -⟩ := sncndn_core eps he he1 k hk1 hK x.re
  obtain ⟨N', ψ, h', hb', -⟩ := sncndn_core eps he he1 (Real.sqrt (1 - k ^ 2)) (by rw [hkp]; linarith) hK' x.im
  exact ⟨max N N', θ, ψ, fun fuel hf => sncndnC_of hk2.le (h fuel (le_trans (le_max_left _ _) hf))
    (h' fuel (le_trans (le_max_right _ _) hf)), hb, hb'⟩

/-- **C71**: for every modulus in (0, 1) and every complex argument whose denominator does not vanish, the complex version returns
sn, cn and dn at two angles which are the amplitudes of the real and the imaginary part up to the error of the real version;
otherwise it divides by zero. -/
theorem C71_complex (eps : ℝ) (he : 2 * (1 / 2) ^ 2 ^ 14 ≤ eps) (he1 : eps ≤ 1 / 2000) (k : ℝ)
    (hk0 : (1 / 2) ^ 2 ^ 15 ≤ k ^ 2) (hk1 : (1 / 2) ^ 2 ^ 15 ≤ 1 - k ^ 2)
    (hK : eps * legendreK k ≤ Real.pi / 2) (hK' : eps * legendreK (Real.sqrt (1 - k ^ 2)) ≤ Real.pi / 2) (x : ℂ) :
    ∃ (N : ℕ) (θ ψ φ χ : ℝ), (∀ fuel, N ≤ fuel → ellipticSNCNDNC fuel eps x k =
        if complexDenominator k θ ψ = 0 then .ub else .ok (complexSn k θ ψ, complexCn k θ ψ, complexDn k θ ψ)) ∧
      legendreF φ k = x.re ∧ |θ - φ| ≤ eps * legendreK k * (3 * legendreK k + |x.re|) ∧
      legendreF χ (Real.sqrt (1 - k ^ 2)) = x.im ∧
      |ψ - χ| ≤ eps * legendreK (Real.sqrt (1 - k ^ 2)) * (3 * legendreK (Real.sqrt (1 - k ^ 2)) + |x.im|) := by
  have hpow : (0 : ℝ) < (1 / 2) ^ 2 ^ 15 := by positivity
  have hk2 : k ^ 2 < 1 := by linarith
  have hkp : Real.sqrt (1 - k ^ 2) ^ 2 = 1 - k ^ 2 := Real.sq_sqrt (by linarith)
  have hkp2 : Real.sqrt (1 - k ^ 2) ^ 2 < 1 := by rw [hkp]; linarith
  obtain ⟨N, θ, ψ, h, hb, hb'⟩ := sncndnC_core eps he he1 k hk0 hk1 hK hK' x
  obtain ⟨φ, hφ, -⟩ := C71_amplitude_unique hk2 x.re
  obtain ⟨χ, hχ, -⟩ := C71_amplitude_unique hkp2 x.im
  refine ⟨N, θ, ψ, φ, χ, h, hφ, (legendreF_expands hk2 θ φ).trans ?_, hχ, (legendreF_expands hkp2 ψ χ).trans ?_⟩
  · rw [hφ]
    exact hb
  · rw [hχ]
    exact hb'

/-- the modulus 3/5 with the precision of `double` meets the hypotheses; the complementary modulus is 4/5, and the denominator does
not vanish at the argument zero -/
example : 2 * (1 / 2) ^ 2 ^ 14 ≤ (1 / 2 ^ 52 : ℝ) ∧ (1 / 2) ^ 2 ^ 15 ≤ (3 / 5 : ℝ) ^ 2 ∧ (1 / 2) ^ 2 ^ 15 ≤ 1 - (3 / 5 : ℝ) ^ 2 ∧
    (1 / 2 ^ 52 : ℝ) * legendreK (3 / 5) ≤ Real.pi / 2 ∧ (1 / 2 ^ 52 : ℝ) * legendreK (Real.sqrt (1 - (3 / 5) ^ 2)) ≤ Real.pi / 2 ∧
    complexDenominator (3 / 5) 0 0 ≠ 0 := by
  have hsmall := small_pow (n := 2 ^ 15) (by norm_num)
  have hpi := Real.pi_gt_three
  have hK : ∀ k : ℝ, k ^ 2 ≤ 16 / 25 → (1 / 2 ^ 52 : ℝ) * legendreK k ≤ Real.pi / 2 := by
    intro k hk
    have h := legendreK_le (k := k) (by linarith)
    have hs : (1 / 2 : ℝ) ≤ Real.sqrt (1 - k ^ 2) := Real.le_sqrt_of_sq_le (by norm_num; linarith)
    have : Real.pi / 2 / Real.sqrt (1 - k ^ 2) ≤ Real.pi / 2 / (1 / 2) :=
      div_le_div_of_nonneg_left (by positivity) (by norm_num) hs
    have h2 := h.trans this
    calc (1 / 2 ^ 52 : ℝ) * legendreK k ≤ (1 / 2 ^ 52 : ℝ) * (Real.pi / 2 / (1 / 2)) := by gcongr
      _ ≤ Real.pi / 2 := by norm_num; linarith
  refine ⟨?_, ?_, ?_, hK _ (by norm_num), hK _ ?_, by simp [complexDenominator]⟩
  · rw [show (2 : ℝ) * (1 / 2) ^ 2 ^ 14 = (1 / 2) ^ (2 ^ 14 - 1) by
      rw [show 2 ^ 14 = (2 ^ 14 - 1) + 1 by norm_num, pow_succ]
      rw [show 2 ^ 14 - 1 + 1 - 1 = 2 ^ 14 - 1 by norm_num]
      ring]
    exact small_pow (by norm_num)
  · exact hsmall.trans (by norm_num)
  · exact hsmall.trans (by norm_num)
  · rw [Real.sq_sqrt (by norm_num)]
    norm_num

end Verif
