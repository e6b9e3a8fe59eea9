import Verif.Lemmas.EllipticIdentify

set_option linter.unusedSimpArgs false
set_option linter.unusedSectionVars false

/-! # The response of an elliptic filter depends continuously on its parameters, uniformly in the frequency -/

namespace Verif
open Filter Topology Finset

theorem amplitude_near {κ u : ℝ → ℝ} {E : ℝ × ℝ → ℝ} {k0 φ0 : ℝ} (hκ : ContinuousAt κ k0) (hk : κ k0 ^ 2 < 1) (hu : ContinuousAt u k0)
    (hE : ContinuousAt E (0, k0)) (hE0 : E (0, k0) = 0) (h0 : legendreF φ0 (κ k0) = u k0) {δ : ℝ} (hδ : 0 < δ) :
    ∀ᶠ q : ℝ × ℝ in 𝓝 (0, k0), ∀ φ, |legendreF φ (κ q.2) - u q.2| ≤ E q → |φ - φ0| < δ := by
  have hsnd : ContinuousAt (fun q : ℝ × ℝ => q.2) (0, k0) := by fun_prop
  have hκ' : ContinuousAt (fun q : ℝ × ℝ => κ q.2) (0, k0) := hκ.comp (f := fun q : ℝ × ℝ => q.2) (x := (0, k0)) hsnd
  have hu' : ContinuousAt (fun q : ℝ × ℝ => u q.2) (0, k0) := hu.comp (f := fun q : ℝ × ℝ => q.2) (x := (0, k0)) hsnd
  have hF : ∀ φ, ContinuousAt (fun q : ℝ × ℝ => legendreF φ (κ q.2)) (0, k0) := fun φ =>
    (legendreF_continuousAt φ hk).comp (f := fun q : ℝ × ℝ => (φ, κ q.2)) (x := (0, k0)) (continuousAt_const.prodMk hκ')
  have hm := legendreF_strictMono hk
  have e1 : ∀ᶠ q : ℝ × ℝ in 𝓝 (0, k0), κ q.2 ^ 2 < 1 := (hκ'.pow 2).eventually_lt continuousAt_const hk
  have e2 : ∀ᶠ q : ℝ × ℝ in 𝓝 (0, k0), legendreF (φ0 - δ) (κ q.2) < u q.2 - E q := by
    refine (hF _).eventually_lt (hu'.sub hE) ?_
    simp only []
    rw [hE0, sub_zero, ← h0]
    exact hm (by linarith)
  have e3 : ∀ᶠ q : ℝ × ℝ in 𝓝 (0, k0), u q.2 + E q < legendreF (φ0 + δ) (κ q.2) := by
    refine (hu'.add hE).eventually_lt (hF _) ?_
    change u k0 + E (0, k0) < legendreF (φ0 + δ) (κ k0)
    rw [hE0, add_zero, ← h0]
    exact hm (by linarith)
  filter_upwards [e1, e2, e3] with q h1 h2 h3 φ hφ
  rw [abs_le] at hφ
  have hm' := legendreF_strictMono h1
  have a1 : φ0 - δ < φ := hm'.lt_iff_lt.mp (show legendreF (φ0 - δ) (κ q.2) < legendreF φ (κ q.2) by linarith)
  have a2 : φ < φ0 + δ := hm'.lt_iff_lt.mp (show legendreF φ (κ q.2) < legendreF (φ0 + δ) (κ q.2) by linarith)
  rw [abs_lt]
  constructor <;> linarith

/-- the modulus is close when the degree equation holds closely -/
theorem modulus_near {k0 q ρ : ℝ} (h0 : 0 < k0) (h1 : k0 < 1) (hq : kquot k0 = q) (hρ : 0 < ρ) :
    ∃ e0 > 0, ∀ e ≤ e0, ∀ k, 0 < k → k < 1 → legendreK k ≤ (1 + e) * (q * legendreKp k) → q * legendreKp k ≤ (1 + e) * legendreK k → |k - k0| < ρ := by
  obtain ⟨r, hr⟩ : ∃ r, r = min ρ (min k0 (1 - k0) / 2) := ⟨_, rfl⟩
  have hm0 : 0 < min k0 (1 - k0) := lt_min h0 (by linarith)
  have hr0 : 0 < r := by rw [hr]; exact lt_min hρ (by linarith)
  have hrρ : r ≤ ρ := by rw [hr]; exact min_le_left _ _
  have hr2 : r ≤ min k0 (1 - k0) / 2 := by rw [hr]; exact min_le_right _ _
  have hra : r < k0 := by have := min_le_left k0 (1 - k0); linarith
  have hrb : r < 1 - k0 := by have := min_le_right k0 (1 - k0); linarith
  have hq0 : 0 < q := by rw [← hq]; exact kquot_pos h0 h1
  have ha : kquot (k0 - r) < q := by rw [← hq]; exact kquot_lt (by linarith) (by linarith) h1
  have hb : q < kquot (k0 + r) := by rw [← hq]; exact kquot_lt h0 (by linarith) (by linarith)
  have ha0 : 0 < kquot (k0 - r) := kquot_pos (by linarith) (by linarith)
  obtain ⟨e0, he⟩ : ∃ e0, e0 = min (q / kquot (k0 - r) - 1) (kquot (k0 + r) / q - 1) / 2 := ⟨_, rfl⟩
  have hx : 0 < q / kquot (k0 - r) - 1 := by rw [sub_pos, lt_div_iff₀ ha0]; linarith
  have hy : 0 < kquot (k0 + r) / q - 1 := by rw [sub_pos, lt_div_iff₀ hq0]; linarith
  have hmin := lt_min hx hy
  have he0 : 0 < e0 := by rw [he]; linarith
  have he1 : e0 < q / kquot (k0 - r) - 1 := by
    have := min_le_left (q / kquot (k0 - r) - 1) (kquot (k0 + r) / q - 1)
    linarith
  have he2 : e0 < kquot (k0 + r) / q - 1 := by
    have := min_le_right (q / kquot (k0 - r) - 1) (kquot (k0 + r) / q - 1)
    linarith
  refine ⟨e0, he0, fun e hle k hk0 hk1 g1 g2 => ?_⟩
  have hKp := kp_pos hk0 hk1.le
  have g1' : kquot k ≤ (1 + e) * q := by rw [kquot, div_le_iff₀ hKp]; linarith
  have g2' : q ≤ (1 + e) * kquot k := by rw [kquot, mul_div_assoc', le_div_iff₀ hKp]; linarith
  have hkq := kquot_pos hk0 hk1
  rw [abs_lt]
  constructor
  · by_contra hc
    push Not at hc
    have h3 : kquot k ≤ kquot (k0 - r) := by
      rcases (show k ≤ k0 - r by linarith).eq_or_lt with h | h
      · rw [h]
      · exact (kquot_lt hk0 h (by linarith)).le
    have h4 : (1 + e) * kquot k ≤ (1 + e0) * kquot (k0 - r) := mul_le_mul (by linarith) h3 hkq.le (by linarith)
    have h5 : (1 + e0) * kquot (k0 - r) < q := by
      have := (lt_div_iff₀ ha0).mp (show 1 + e0 < q / kquot (k0 - r) by linarith)
      exact this
    linarith
  · by_contra hc
    push Not at hc
    have h3 : kquot (k0 + r) ≤ kquot k := by
      rcases (show k0 + r ≤ k by linarith).eq_or_lt with h | h
      · rw [← h]
      · exact (kquot_lt (by linarith) h hk1).le
    have h5 : (1 + e0) * q < kquot (k0 + r) := by
      have := (lt_div_iff₀ hq0).mp (show 1 + e0 < kquot (k0 + r) / q by linarith)
      exact this
    have h4 : (1 + e) * q ≤ (1 + e0) * q := mul_le_mul_of_nonneg_right (by linarith) hq0.le
    linarith

/-- the shape, in terms of a bounded variable `c = 1 / (1 + x)` -/
noncomputable def shapeC (m r : ℕ) (q : ℝ × (Fin m → ℝ) × ℝ) (c : ℝ) : ℝ :=
  c ^ r * (∏ j, (c - (q.1 * Real.sin (q.2.1 j)) ^ 2 * (1 - c)) ^ 2) /
    ((c + (1 - c) / Real.tan q.2.2 ^ 2) ^ r * ∏ j, Complex.normSq ((c : ℂ) - ((1 - c : ℝ) : ℂ) / complexSn q.1 (q.2.1 j) q.2.2 ^ 2))

theorem shape_bounded (k : ℝ) (n : ℕ) (θ : ℕ → ℝ) (ψ : ℝ) {x : ℝ} (hx : 0 ≤ x) :
    ellipticShape k n θ ψ x = shapeC (n / 2) (n % 2) (k, fun j => θ j, ψ) (1 / (1 + x)) := by
  obtain ⟨c, hc⟩ : ∃ c, c = 1 / (1 + x) := ⟨_, rfl⟩
  have hc0 : 0 < c := by rw [hc]; positivity
  have hxc : x = (1 - c) / c := by rw [hc]; field_simp; ring
  have hcc : (c : ℂ) ≠ 0 := by exact_mod_cast hc0.ne'
  rw [← hc, ellipticShape, shapeC, prod_range, prod_range]
  simp only []
  have e1 : ∀ j : Fin (n / 2), (1 - (k * Real.sin (θ j)) ^ 2 * x) ^ 2 = (c - (k * Real.sin (θ j)) ^ 2 * (1 - c)) ^ 2 * (1 / c ^ 2) := by
    intro j
    rw [hxc]
    field_simp
  have e2 : ∀ j : Fin (n / 2), Complex.normSq (1 - (x : ℂ) / complexSn k (θ j) ψ ^ 2) =
      Complex.normSq ((c : ℂ) - ((1 - c : ℝ) : ℂ) / complexSn k (θ j) ψ ^ 2) * (1 / c ^ 2) := by
    intro j
    have : (c : ℂ) - ((1 - c : ℝ) : ℂ) / complexSn k (θ j) ψ ^ 2 = (c : ℂ) * (1 - (x : ℂ) / complexSn k (θ j) ψ ^ 2) := by
      rw [hxc]
      push_cast
      field_simp
    rw [this, Complex.normSq_mul, Complex.normSq_ofReal]
    field_simp
  have e3 : 1 + x / Real.tan ψ ^ 2 = (c + (1 - c) / Real.tan ψ ^ 2) * (1 / c) := by
    rw [hxc]
    field_simp
  simp only [e1, e2]
  rw [e3, prod_mul_distrib, prod_mul_distrib, mul_pow]
  have hd : (∏ _j : Fin (n / 2), (1 / c ^ 2)) ≠ 0 := prod_ne_zero_iff.mpr fun _ _ => by positivity
  generalize (∏ _j : Fin (n / 2), (1 / c ^ 2)) = d at *
  generalize ∏ j : Fin (n / 2), (c - (k * Real.sin (θ j)) ^ 2 * (1 - c)) ^ 2 = a
  generalize ∏ j : Fin (n / 2), Complex.normSq ((c : ℂ) - ((1 - c : ℝ) : ℂ) / complexSn k (θ j) ψ ^ 2) = b
  have e4 : (1 / c) ^ (n % 2) = (c ^ (n % 2))⁻¹ := by rw [one_div, inv_pow]
  rw [e4]
  have hcr : c ^ (n % 2) ≠ 0 := by positivity
  generalize c ^ (n % 2) = f at *
  generalize (c + (1 - c) / Real.tan ψ ^ 2) ^ (n % 2) = g
  rw [show g * f⁻¹ * (b * d) = (g * b) * (f⁻¹ * d) by ring, show a * d = (f * a) * (f⁻¹ * d) by field_simp,
    mul_div_mul_right _ _ (mul_ne_zero (inv_ne_zero hcr) hd)]

theorem complexSn_continuousAt {k θ ψ : ℝ} (hc : Real.cos ψ ≠ 0) :
    ContinuousAt (fun q : ℝ × ℝ × ℝ => complexSn q.1 q.2.1 q.2.2) (k, θ, ψ) := by
  have hD : complexDenominator k θ ψ ≠ 0 := by
    rw [complexDenominator]
    positivity
  have e : (fun q : ℝ × ℝ × ℝ => complexSn q.1 q.2.1 q.2.2) = fun q : ℝ × ℝ × ℝ =>
      ((Real.sin q.2.1 * jacobiDelta (Real.sqrt (1 - q.1 ^ 2)) q.2.2 / complexDenominator q.1 q.2.1 q.2.2 : ℝ) : ℂ) +
      ((Real.cos q.2.1 * jacobiDelta q.1 q.2.1 * Real.sin q.2.2 * Real.cos q.2.2 / complexDenominator q.1 q.2.1 q.2.2 : ℝ) : ℂ) * Complex.I := by
    funext q
    apply Complex.ext
    · rw [Complex.add_re, Complex.ofReal_re, Complex.re_ofReal_mul, Complex.I_re, mul_zero, add_zero, complexSn]
    · rw [Complex.add_im, Complex.ofReal_im, Complex.im_ofReal_mul, Complex.I_im, mul_one, zero_add, complexSn]
  rw [e]
  have hDc : ContinuousAt (fun q : ℝ × ℝ × ℝ => complexDenominator q.1 q.2.1 q.2.2) (k, θ, ψ) := by
    unfold complexDenominator
    fun_prop
  have h1 : ContinuousAt (fun q : ℝ × ℝ × ℝ => Real.sin q.2.1 * jacobiDelta (Real.sqrt (1 - q.1 ^ 2)) q.2.2) (k, θ, ψ) := by
    unfold jacobiDelta
    fun_prop
  have h2 : ContinuousAt (fun q : ℝ × ℝ × ℝ => Real.cos q.2.1 * jacobiDelta q.1 q.2.1 * Real.sin q.2.2 * Real.cos q.2.2) (k, θ, ψ) := by
    unfold jacobiDelta
    fun_prop
  have h3 := Complex.continuous_ofReal.continuousAt.comp (h1.div hDc hD)
  have h4 := Complex.continuous_ofReal.continuousAt.comp (h2.div hDc hD)
  exact h3.add (h4.mul continuousAt_const)

theorem shapeC_continuousAt {m r : ℕ} {k ψ c : ℝ} {θ : Fin m → ℝ} (hk0 : 0 < k) (hk : k ^ 2 < 1) (hθ : ∀ j, 0 < θ j ∧ θ j < Real.pi / 2)
    (hψ0 : 0 < ψ) (hψ1 : ψ < Real.pi / 2) (hc0 : 0 ≤ c) (hc1 : c ≤ 1) :
    ContinuousAt (fun z : (ℝ × (Fin m → ℝ) × ℝ) × ℝ => shapeC m r z.1 z.2) ((k, θ, ψ), c) := by
  have hcos := (Real.cos_pos_of_mem_Ioo (x := ψ) ⟨by linarith [Real.pi_pos], hψ1⟩).ne'
  have ht : 0 < Real.tan ψ := Real.tan_pos_of_pos_of_lt_pi_div_two hψ0 hψ1
  have hS : ∀ j, ContinuousAt (fun z : (ℝ × (Fin m → ℝ) × ℝ) × ℝ => complexSn z.1.1 (z.1.2.1 j) z.1.2.2) ((k, θ, ψ), c) := fun j =>
    (complexSn_continuousAt (k := k) (θ := θ j) hcos).comp (f := fun z : (ℝ × (Fin m → ℝ) × ℝ) × ℝ => (z.1.1, z.1.2.1 j, z.1.2.2))
      (x := ((k, θ, ψ), c)) (by fun_prop)
  have hS0 : ∀ j, 0 < (complexSn k (θ j) ψ).re ∧ 0 < (complexSn k (θ j) ψ).im := fun j =>
    complexSn_parts hk hk0.ne' (hθ j).1 (hθ j).2 hψ0 hψ1
  have hS2 : ∀ j, complexSn k (θ j) ψ ^ 2 ≠ 0 := fun j h => by
    have h' := congrArg Complex.im h
    simp only [sq, Complex.mul_im, Complex.zero_im] at h'
    have := mul_pos (hS0 j).1 (hS0 j).2
    linarith
  have htan : ContinuousAt (fun z : (ℝ × (Fin m → ℝ) × ℝ) × ℝ => Real.tan z.1.2.2) ((k, θ, ψ), c) :=
    (Real.continuousAt_tan.mpr hcos).comp (f := fun z : (ℝ × (Fin m → ℝ) × ℝ) × ℝ => z.1.2.2) (x := ((k, θ, ψ), c)) (by fun_prop)
  unfold shapeC
  refine ContinuousAt.div ?_ ?_ ?_
  · refine ContinuousAt.mul (by fun_prop) ?_
    refine tendsto_finsetProd _ fun j _ => ?_
    have : ContinuousAt (fun z : (ℝ × (Fin m → ℝ) × ℝ) × ℝ => (z.2 - (z.1.1 * Real.sin (z.1.2.1 j)) ^ 2 * (1 - z.2)) ^ 2) ((k, θ, ψ), c) := by fun_prop
    exact this
  · refine ContinuousAt.mul ?_ ?_
    · refine ContinuousAt.pow (ContinuousAt.add (by fun_prop) (ContinuousAt.div (by fun_prop) (htan.pow 2) ?_)) r
      exact pow_ne_zero 2 ht.ne'
    · refine tendsto_finsetProd _ fun j _ => ?_
      have : ContinuousAt (fun z : (ℝ × (Fin m → ℝ) × ℝ) × ℝ =>
          Complex.normSq ((z.2 : ℂ) - ((1 - z.2 : ℝ) : ℂ) / complexSn z.1.1 (z.1.2.1 j) z.1.2.2 ^ 2)) ((k, θ, ψ), c) := by
        refine Complex.continuous_normSq.continuousAt.comp (x := ((k, θ, ψ), c)) (ContinuousAt.sub ?_ (ContinuousAt.div ?_ ((hS j).pow 2) (hS2 j)))
        · exact Complex.continuous_ofReal.continuousAt.comp (x := ((k, θ, ψ), c)) (by fun_prop)
        · exact Complex.continuous_ofReal.continuousAt.comp (x := ((k, θ, ψ), c)) (by fun_prop)
      exact this
  · simp only []
    refine mul_ne_zero (pow_ne_zero _ ?_) (prod_ne_zero_iff.mpr fun j _ => ?_)
    · rcases hc0.eq_or_lt with rfl | h
      · rw [zero_add, sub_zero]
        positivity
      · have : 0 ≤ (1 - c) / Real.tan ψ ^ 2 := div_nonneg (by linarith) (by positivity)
        positivity
    · rw [Ne, Complex.normSq_eq_zero]
      intro h
      rw [sub_eq_zero, eq_div_iff (hS2 j)] at h
      have him := congrArg Complex.im h
      rw [Complex.im_ofReal_mul, Complex.ofReal_im, sq, Complex.mul_im] at him
      have hpos := mul_pos (hS0 j).1 (hS0 j).2
      have hc : c = 0 := by
        rcases mul_eq_zero.mp him with h | h
        · exact h
        · linarith
      rw [hc] at h
      norm_num at h

/-- uniformly in the frequency -/
theorem shape_near {n : ℕ} {k ψ : ℝ} {θ : ℕ → ℝ} (hk0 : 0 < k) (hk : k ^ 2 < 1) (hθ : ∀ j < n / 2, 0 < θ j ∧ θ j < Real.pi / 2)
    (hψ0 : 0 < ψ) (hψ1 : ψ < Real.pi / 2) {δ : ℝ} (hδ : 0 < δ) :
    ∃ ρ > 0, ∀ k' (θ' : ℕ → ℝ) ψ', |k' - k| < ρ → (∀ j < n / 2, |θ' j - θ j| < ρ) → |ψ' - ψ| < ρ → ∀ x, 0 ≤ x →
      |ellipticShape k' n θ' ψ' x - ellipticShape k n θ ψ x| < δ := by
  have hθ' : ∀ j : Fin (n / 2), 0 < θ j ∧ θ j < Real.pi / 2 := fun j => hθ j j.2
  have hev : ∀ᶠ q in 𝓝 (k, (fun j : Fin (n / 2) => θ j), ψ), ∀ c ∈ Set.Icc (0 : ℝ) 1,
      |shapeC (n / 2) (n % 2) q c - shapeC (n / 2) (n % 2) (k, (fun j : Fin (n / 2) => θ j), ψ) c| < δ := by
    refine isCompact_Icc.eventually_forall_of_forall_eventually (P := fun q c =>
      |shapeC (n / 2) (n % 2) q c - shapeC (n / 2) (n % 2) (k, (fun j : Fin (n / 2) => θ j), ψ) c| < δ) fun c hc => ?_
    have h1 := shapeC_continuousAt (r := n % 2) hk0 hk hθ' hψ0 hψ1 hc.1 hc.2
    have h2 : ContinuousAt (fun z : (ℝ × (Fin (n / 2) → ℝ) × ℝ) × ℝ => shapeC (n / 2) (n % 2) (k, (fun j : Fin (n / 2) => θ j), ψ) z.2)
        ((k, (fun j : Fin (n / 2) => θ j), ψ), c) :=
      h1.comp (f := fun z : (ℝ × (Fin (n / 2) → ℝ) × ℝ) × ℝ => ((k, (fun j : Fin (n / 2) => θ j), ψ), z.2))
        (x := ((k, (fun j : Fin (n / 2) => θ j), ψ), c)) (by fun_prop)
    refine (h1.sub h2).abs.eventually_lt continuousAt_const ?_
    simpa using hδ
  obtain ⟨ρ, hρ, h⟩ := Metric.eventually_nhds_iff.mp hev
  refine ⟨ρ, hρ, fun k' θ' ψ' h1 h2 h3 x hx => ?_⟩
  rw [shape_bounded k' n θ' ψ' hx, shape_bounded k n θ ψ hx]
  refine h ?_ _ ⟨by positivity, by rw [div_le_one (by positivity)]; linarith⟩
  rw [Prod.dist_eq, Prod.dist_eq]
  simp only []
  refine max_lt ?_ (max_lt ?_ ?_)
  · rwa [Real.dist_eq]
  · rw [dist_pi_lt_iff hρ]
    intro j
    rw [Real.dist_eq]
    exact h2 j j.2
  · rwa [Real.dist_eq]

end Verif
