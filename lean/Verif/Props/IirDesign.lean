import Verif.Lemmas.BandMaps
import Verif.Lemmas.Prototypes

/-!
# Properties C55–C57: design of IIR filters (exact arithmetic)

`w`, `θ` are angular frequencies in radians per sample; cutoff frequencies are normalized so that `1` is the Nyquist
frequency, as in the library.
-/

set_option linter.unusedSimpArgs false

namespace Verif
open Complex

/-! ### C55: the Butterworth prototype -/

/-- **C55**: the prototype of any order exists, has exactly `n` poles, no zeros and gain one; its poles lie on the unit
circle in the open left half plane and, being kept as real roots and pairs, are closed under conjugation. -/
theorem C55_poles (n : ℕ) :
    ∃ sys, butterworth n = .ok sys ∧ sys.Reachable ∧ sys.gain = 1 ∧ sys.zeros.roots = [] ∧
      sys.poles.roots.length = n ∧ sys.poles.numRoots = n ∧ ConjugateClosed sys.poles.roots ∧
      ∀ p ∈ sys.poles.roots, p.re < 0 ∧ ‖p‖ = 1 := by
  obtain ⟨sys, h1, h2, h3, -, h5, h6, h7⟩ := butterworth_spec n
  refine ⟨sys, h1, h2, h3, h5, by rw [h7.length_eq]; simp, h6, ?_, ?_⟩
  · unfold ConjugateClosed FactoredPoly.roots rootsOf
    simp only [List.map_append, List.map_map]
    have e1 : (starRingEnd ℂ) ∘ ofReal = ofReal := by funext r; simp
    have e2 : (starRingEnd ℂ) ∘ (starRingEnd ℂ) = (id : ℂ → ℂ) := by funext r; simp
    rw [e1, e2, List.map_id, List.append_assoc, List.append_assoc]
    exact List.Perm.append_left _ List.perm_append_comm
  · intro p hp
    obtain ⟨k, hk, rfl⟩ := List.mem_map.1 ((h7.mem_iff).1 hp)
    exact ⟨butterPole_re (List.mem_range.1 hk), butterPole_norm n k⟩

/-- **C55**: the prototype is maximally flat: `|H(iw)|² = 1 / (1 + w^(2n))` for all orders and frequencies. -/
theorem C55_magnitude (n : ℕ) (hn : 0 < n) (sys : Zpk) (h : butterworth n = .ok sys) (w : ℝ) :
    ‖sys.eval (I * (w : ℂ))‖ ^ 2 = 1 / (1 + w ^ (2 * n)) := by
  obtain ⟨sys', h1, h2, h3, h4, h5, h6, h7⟩ := butterworth_spec n
  rw [h] at h1
  cases h1
  rw [zpk_value, h3, h5, rootProduct_perm h7, ← Complex.normSq_eq_norm_sq, normSq_div, butterworth_normSq hn]
  simp [rootProduct]

/-- Non-vacuity and a value of C55: the first order prototype at `w = 1` has squared magnitude one half. -/
example : ∃ sys, butterworth 1 = .ok sys ∧ ‖sys.eval (I * ((1 : ℝ) : ℂ))‖ ^ 2 = 1 / 2 := by
  obtain ⟨sys, h, -⟩ := C55_poles 1
  exact ⟨sys, h, by rw [C55_magnitude 1 (by norm_num) sys h]; norm_num⟩

/-! ### C56: the bilinear transform -/

/-- **C56**: for every continuous system and every factor `k` that the transform computes, discretization succeeds,
gives equally many zeros and poles (kept in conjugate pairs), and the discrete system has at `z` the value of the continuous one
at `k (z - 1) / (z + 1)`. -/
theorem C56_value (sys : Zpk) (hs : sys.Reachable) (fs : ℝ) (prewarp : Option ℝ) (k : ℝ)
    (hk : bilinearFactor fs prewarp = .ok k) (hz : ∀ p ∈ sys.zeros.roots, p ≠ k) (hp : ∀ p ∈ sys.poles.roots, p ≠ k) :
    ∃ d, bilinearTransform sys fs prewarp = .ok d ∧ d.Reachable ∧ d.zeros.numRoots = sys.order ∧
      d.poles.numRoots = sys.order ∧ ∀ z : ℂ, z ≠ -1 → d.eval z = sys.eval ((k : ℂ) * (z - 1) / (z + 1)) := by
  obtain ⟨d, h1, h2, h3, h4, h5, h6, h7⟩ := bilinear_spec hs fs prewarp k hk
  exact ⟨d, h1, h2, h3, h4, h7 hz hp⟩

theorem bilinear_stable {k : ℝ} (hk : 0 < k) {p : ℂ} (hp : p.re < 0) : ‖((k : ℂ) + p) / ((k : ℂ) - p)‖ < 1 := by
  rw [norm_lt_one_iff, normSq_div]
  have hd : 0 < normSq ((k : ℂ) - p) := by
    apply normSq_pos.2
    intro h
    have := congrArg re h
    simp at this
    linarith
  rw [div_lt_one hd]
  simp only [normSq_apply, add_re, add_im, sub_re, sub_im, ofReal_re, ofReal_im]
  nlinarith

theorem bilinear_closed {k : ℝ} (hk : 0 < k) {p : ℂ} (hp : p.re ≤ 0) : ‖((k : ℂ) + p) / ((k : ℂ) - p)‖ ≤ 1 := by
  have hd : 0 < normSq ((k : ℂ) - p) := by
    apply normSq_pos.2
    intro h
    have := congrArg re h
    simp at this
    linarith
  have : normSq (((k : ℂ) + p) / ((k : ℂ) - p)) ≤ 1 := by
    rw [normSq_div, div_le_one hd]
    simp only [normSq_apply, add_re, add_im, sub_re, sub_im, ofReal_re, ofReal_im]
    nlinarith
  rw [Complex.normSq_eq_norm_sq] at this
  exact (sq_le_one_iff₀ (norm_nonneg _)).1 this

/-- **C56**: stable systems stay stable: poles in the open left half plane move inside the unit circle. -/
theorem C56_stable (sys : Zpk) (hs : sys.Reachable) (hn : sys.zeros.numRoots ≤ sys.poles.numRoots) (fs : ℝ)
    (prewarp : Option ℝ) (k : ℝ) (hk : bilinearFactor fs prewarp = .ok k) (hk0 : 0 < k)
    (hst : ∀ p ∈ sys.poles.roots, p.re < 0) :
    ∃ d, bilinearTransform sys fs prewarp = .ok d ∧ d.Stable := by
  obtain ⟨d, h1, h2, h3, h4, h5, h6, h7⟩ := bilinear_spec hs fs prewarp k hk
  refine ⟨d, h1, fun q hq => ?_⟩
  obtain ⟨p, hp, rfl⟩ := List.mem_map.1 (((h5 hn).mem_iff).1 hq)
  exact bilinear_stable hk0 (hst p hp)

/-- The point of the unit circle at angle `θ` corresponds to `i k tan (θ/2)`. -/
theorem bilinear_circle (θ k : ℝ) (h : Real.cos (θ / 2) ≠ 0) :
    exp ((θ : ℂ) * I) ≠ -1 ∧
    (k : ℂ) * (exp ((θ : ℂ) * I) - 1) / (exp ((θ : ℂ) * I) + 1) = I * ((k * Real.tan (θ / 2) : ℝ) : ℂ) := by
  have h1 := sq_half θ
  have hc : (Real.cos (θ / 2) : ℂ) ≠ 0 := by exact_mod_cast h
  have hI : I * I = -1 := I_mul_I
  rw [exp_half θ, Real.tan_eq_sin_div_cos, ofReal_mul, ofReal_div]
  generalize (Real.cos (θ / 2) : ℂ) = C at *
  generalize (Real.sin (θ / 2) : ℂ) = S at *
  have e1 : (C + S * I) * (C + S * I) + 1 = 2 * C * (C + S * I) := by linear_combination S * S * hI - h1
  have hne : C + S * I ≠ 0 := by
    intro h0
    have : (C + S * I) * (C - S * I) = 1 := by linear_combination h1 - S * S * hI
    rw [h0, zero_mul] at this
    norm_num at this
  have e2 : (C + S * I) * (C + S * I) - 1 = 2 * S * I * (C + S * I) := by linear_combination h1 - S * S * hI
  constructor
  · intro h0
    have : 2 * C * (C + S * I) = 0 := by rw [← e1, h0]; ring
    rcases mul_eq_zero.1 this with h2 | h2
    · rcases mul_eq_zero.1 h2 with h3 | h3
      · norm_num at h3
      · exact hc h3
    · exact hne h2
  · rw [e1, e2]
    field_simp

/-- **C56**: frequency response: at the angle `w / fs` the discrete system has the value of the continuous one at
`i k tan (w / (2 fs))`; with prewarping to `w0 ≠ 0` the two responses agree exactly at `w0`. -/
theorem C56_frequency (sys : Zpk) (hs : sys.Reachable) (fs : ℝ) (prewarp : Option ℝ) (k : ℝ)
    (hk : bilinearFactor fs prewarp = .ok k) (hz : ∀ p ∈ sys.zeros.roots, p ≠ k) (hp : ∀ p ∈ sys.poles.roots, p ≠ k) :
    ∃ d, bilinearTransform sys fs prewarp = .ok d ∧
      (∀ w : ℝ, Real.cos (w / fs / 2) ≠ 0 →
        d.eval (exp (((w / fs : ℝ) : ℂ) * I)) = sys.eval (I * ((k * Real.tan (w / fs / 2) : ℝ) : ℂ))) ∧
      ∀ w0, prewarp = some w0 → d.eval (exp (((w0 / fs : ℝ) : ℂ) * I)) = sys.eval (I * (w0 : ℂ)) := by
  obtain ⟨d, h1, h2, h3, h4, h5⟩ := C56_value sys hs fs prewarp k hk hz hp
  have hw : ∀ w : ℝ, Real.cos (w / fs / 2) ≠ 0 →
        d.eval (exp (((w / fs : ℝ) : ℂ) * I)) = sys.eval (I * ((k * Real.tan (w / fs / 2) : ℝ) : ℂ)) := by
    intro w hc
    obtain ⟨e1, e2⟩ := bilinear_circle (w / fs) k hc
    rw [h5 _ e1, e2]
  refine ⟨d, h1, hw, ?_⟩
  rintro w0 rfl
  rw [bilinearFactor] at hk
  by_cases ht : Real.tan (w0 / fs / 2) = 0
  · rw [fdiv_zero ht] at hk; cases hk
  · rw [fdiv_ok ht] at hk
    cases hk
    have hc : Real.cos (w0 / fs / 2) ≠ 0 := by
      intro h; apply ht; rw [Real.tan_eq_sin_div_cos, h, div_zero]
    rw [hw w0 hc, div_mul_cancel₀ _ ht]

/-- **C56**: the factor is positive, as stability requires, for positive sample rates and any prewarp frequency below the
Nyquist frequency. -/
theorem C56_factor (fs : ℝ) (hfs : 0 < fs) : bilinearFactor fs none = .ok (2 * fs) ∧
    ∀ w, 0 < w → w < Real.pi * fs → ∃ k, bilinearFactor fs (some w) = .ok k ∧ 0 < k := by
  refine ⟨rfl, fun w h0 h1 => ?_⟩
  have ht : 0 < Real.tan (w / fs / 2) := by
    apply Real.tan_pos_of_pos_of_lt_pi_div_two
    · positivity
    · rw [div_div, div_lt_div_iff₀ (by positivity) (by norm_num)]
      nlinarith
  exact ⟨_, by rw [bilinearFactor, fdiv_ok ht.ne'], by positivity⟩

/-! ### C57: band transforms -/

/-- The response of a discrete system at the angular frequency `w`. -/
noncomputable def response (s : Zpk) (w : ℝ) : ℂ := s.eval (exp ((w : ℂ) * I))

/-- **C57**, lowpass: for every discrete system with roots in the closed unit disk and no more zeros than poles, the
transform succeeds, keeps stability, has as many zeros and poles as the system has poles, and has at `w` the response that the
system has at `θ`, where `tan (θ/2) = tan (w/2) / tan (wc/2)`, that is, the half-band edge `θ = π/2` moves to the cutoff.
(The relation is written without quotients so that it includes the frequency `π`.) -/
theorem C57_lowpass_partial (sys : Zpk) (hs : sys.Reachable) (hd : sys.InDisk)
    (hn : sys.zeros.numRoots ≤ sys.poles.numRoots) (c : ℝ) (h0 : 0 < c) (h1 : c < 1)
    (ha : sys.zeros.numRoots = sys.poles.numRoots ∨ c ≠ 1 / 2) :
    ∃ f, halfband2Lowpass sys c = .ok f ∧ f.Reachable ∧ f.zeros.numRoots = sys.poles.numRoots ∧
      f.poles.numRoots = sys.poles.numRoots ∧ (sys.Stable → f.Stable) ∧
      ∀ w θ : ℝ, Real.sin (θ / 2) * Real.sin (c * Real.pi / 2) * Real.cos (w / 2) =
          Real.cos (θ / 2) * Real.cos (c * Real.pi / 2) * Real.sin (w / 2) → response f w = response sys θ := by
  obtain ⟨k1, k2, k3, k4⟩ := lowpass_coeffs h0 h1
  obtain ⟨f, e1, e2, e3, e4, e5, e6⟩ := band1_spec hs hd 1 _ 1 (by norm_num) k2 hn (ha.imp id k3)
  refine ⟨f, ?_, e2, e3, e4, e5, ?_⟩
  · unfold halfband2Lowpass
    simp only
    rw [fdiv_ok k1, Out.ok_bind, e1]
  · intro w θ h
    apply e6
    rw [circle1_pos (k4 w θ h)]
    simp

/-- **C57**, highpass: as for lowpass, with `tan (θ/2) = - tan (wc/2) / tan (w/2)`.  The cutoff `1/2` is excluded; see
`C57_highpass_half`. -/
theorem C57_highpass_partial (sys : Zpk) (hs : sys.Reachable) (hd : sys.InDisk)
    (hn : sys.zeros.numRoots ≤ sys.poles.numRoots) (c : ℝ) (h0 : 0 < c) (h1 : c < 1) (hc : c ≠ 1 / 2) :
    ∃ f, halfband2Highpass sys c = .ok f ∧ f.Reachable ∧ f.zeros.numRoots = sys.poles.numRoots ∧
      f.poles.numRoots = sys.poles.numRoots ∧ (sys.Stable → f.Stable) ∧
      ∀ w θ : ℝ, Real.sin (θ / 2) * Real.cos (c * Real.pi / 2) * Real.sin (w / 2) =
          -(Real.cos (θ / 2) * Real.sin (c * Real.pi / 2) * Real.cos (w / 2)) → response f w = response sys θ := by
  obtain ⟨k1, k2, k4⟩ := highpass_coeffs h0 h1 hc
  obtain ⟨f, e1, e2, e3, e4, e5, e6⟩ := band1_spec hs hd (-1) 1 _ (by norm_num) k2 hn (.inr one_ne_zero)
  refine ⟨f, ?_, e2, e3, e4, e5, ?_⟩
  · unfold halfband2Highpass
    simp only
    rw [fdiv_ok k1, Out.ok_bind, e1]
  · intro w θ h
    apply e6
    rw [circle1_neg (k4 w θ h)]
    simp

/-- **C57** fails for highpass filters at the cutoff `1/2`, the default of the filter descriptions: the coefficient is a
quotient with divisor zero. -/
theorem C57_highpass_half (sys : Zpk) : halfband2Highpass sys (1 / 2) = .ub := by
  unfold halfband2Highpass
  simp only
  rw [fdiv_zero]
  · rfl
  · rw [show (1 / 2 : ℝ) * Real.pi = Real.pi / 2 by ring, Real.sin_pi_div_two]; norm_num

/-- **C57**, bandpass: `tan (θ/2) = (cos σ - cos δ cos w) / (sin δ sin w)` with `σ` the mean and `δ` half the difference of
the band edges, so that the edges of the band move from `∓π/2` to the lower and upper frequency.  Bands of width `1/2` are
excluded; see `C57_bandpass_half`. -/
theorem C57_bandpass_partial (sys : Zpk) (hs : sys.Reachable) (hd : sys.InDisk)
    (hn : sys.zeros.numRoots ≤ sys.poles.numRoots) (c1 c2 : ℝ) (h0 : 0 < c1) (h1 : c1 < c2) (h2 : c2 < 1)
    (hw : c2 - c1 ≠ 1 / 2) :
    ∃ f, halfband2Bandpass sys c1 c2 = .ok f ∧ f.Reachable ∧ f.zeros.numRoots = 2 * sys.poles.numRoots ∧
      f.poles.numRoots = 2 * sys.poles.numRoots ∧ (sys.Stable → f.Stable) ∧
      ∀ w θ : ℝ, Real.sin (θ / 2) * (Real.sin ((c2 * Real.pi - c1 * Real.pi) / 2) * Real.sin w) =
          Real.cos (θ / 2) * (Real.cos ((c1 * Real.pi + c2 * Real.pi) / 2) -
            Real.cos ((c2 * Real.pi - c1 * Real.pi) / 2) * Real.cos w) → response f w = response sys θ := by
  obtain ⟨k1, k2, a1, a2, k3, k4, k5, k6, k7⟩ := bandpass_coeffs h0 h1 h2 hw
  obtain ⟨f, e1, e2, e3, e4, e5, e6⟩ := band2_spec hs hd (-1) 1 a1 a2 (by norm_num) k5 k6 hn (.inr one_ne_zero)
  refine ⟨f, ?_, e2, e3, e4, e5, ?_⟩
  · unfold halfband2Bandpass
    simp only
    rw [fdiv_ok k1, Out.ok_bind, fdiv_ok k2, Out.ok_bind, ← k3, ← k4, e1]
  · intro w θ h
    apply e6
    rw [circle2_neg (k7 w θ h)]
    simp

/-- **C57** fails for bandpass filters with a band of width `1/2`, which includes the default band from `1/4` to `3/4`. -/
theorem C57_bandpass_half (sys : Zpk) (c1 : ℝ) : halfband2Bandpass sys c1 (c1 + 1 / 2) = .ub := by
  unfold halfband2Bandpass
  simp only
  rw [fdiv_zero]
  · rfl
  · rw [show (c1 * Real.pi - (c1 + 1 / 2) * Real.pi) / 2 = -(Real.pi / 4) by ring, Real.tan_neg, Real.tan_pi_div_four]
    norm_num

/-- **C57**, bandstop: `tan (θ/2) = sin δ sin w / (cos δ cos w - cos σ)`. -/
theorem C57_bandstop_partial (sys : Zpk) (hs : sys.Reachable) (hd : sys.InDisk)
    (hn : sys.zeros.numRoots ≤ sys.poles.numRoots) (c1 c2 : ℝ) (h0 : 0 < c1) (h1 : c1 < c2) (h2 : c2 < 1)
    (ha : sys.zeros.numRoots = sys.poles.numRoots ∨ c2 - c1 ≠ 1 / 2) :
    ∃ f, halfband2Bandstop sys c1 c2 = .ok f ∧ f.Reachable ∧ f.zeros.numRoots = 2 * sys.poles.numRoots ∧
      f.poles.numRoots = 2 * sys.poles.numRoots ∧ (sys.Stable → f.Stable) ∧
      ∀ w θ : ℝ, Real.sin (θ / 2) * (Real.cos ((c2 * Real.pi - c1 * Real.pi) / 2) * Real.cos w -
            Real.cos ((c1 * Real.pi + c2 * Real.pi) / 2)) =
          Real.cos (θ / 2) * (Real.sin ((c2 * Real.pi - c1 * Real.pi) / 2) * Real.sin w) →
        response f w = response sys θ := by
  obtain ⟨k1, k2, a0, a1, k3, k4, k5, k6, k7, k8⟩ := bandstop_coeffs h0 h1 h2
  obtain ⟨f, e1, e2, e3, e4, e5, e6⟩ := band2_spec hs hd 1 a0 a1 1 (by norm_num) k5 k6 hn (ha.imp id k7)
  refine ⟨f, ?_, e2, e3, e4, e5, ?_⟩
  · unfold halfband2Bandstop
    simp only
    rw [fdiv_ok k2, Out.ok_bind, fdiv_ok k1, Out.ok_bind, ← k3, ← k4, e1]
  · intro w θ h
    apply e6
    rw [circle2_pos (k8 w θ h)]
    simp

/-- **C57** fails when the system has more zeros than poles: the exponent of the gain correction underflows, and the result is
off by the factor `a0^(2^64)`.  Stated for the first order substitution `z ↦ s (a1 z + a0) / (a1 + a0 z)` that both the lowpass and the
highpass transforms use. -/
theorem C57_more_zeros_wrong (sys : Zpk) (hs : sys.Reachable) (hd : sys.InDisk)
    (hn : sys.poles.numRoots < sys.zeros.numRoots) (hsize : sys.zeros.numRoots < 2 ^ 64) (s a0 a1 : ℝ)
    (h1 : s * s = 1) (h2 : a0 ^ 2 < a1 ^ 2) (ha : a0 ≠ 0) (z : ℂ) (hz : (a1 : ℂ) + a0 * z ≠ 0) :
    ∃ f, mapZDomain1 sys s a0 a1 = .ok f ∧
      f.eval z = (a0 : ℂ) ^ (2 ^ 64) * sys.eval ((s : ℂ) * ((a1 : ℂ) * z + a0) / ((a1 : ℂ) + a0 * z)) := by
  obtain ⟨f, e1, e2, e3, e4, e5, e6⟩ := mapZDomain1_spec hs s a0 a1
  refine ⟨f, e1, ?_⟩
  rw [e6 (fun p hp => map1_gain_ne h1 h2 (hd.1 p hp)) (fun p hp => map1_gain_ne h1 h2 (hd.2 p hp)) (.inr ha)
      (by omega) z hz, gainError, if_neg (by omega), ofReal_pow]
  rfl

/-! ### C61: complete designs -/

/-- What a continuous prototype has to satisfy. -/
structure Zpk.IsPrototype (sys : Zpk) (n : ℕ) : Prop where
  reachable : sys.Reachable
  zeros_le : sys.zeros.numRoots ≤ n
  poles_eq : sys.poles.numRoots = n
  zeros_re : ∀ p ∈ sys.zeros.roots, p.re ≤ 0
  poles_re : ∀ p ∈ sys.poles.roots, p.re < 0

/-- Discretizing a prototype: the analog frequency `1` goes to half the Nyquist frequency. -/
theorem discretize_spec {sys : Zpk} {n : ℕ} (hs : sys.IsPrototype n) :
    ∃ d, discretizePrototype sys = .ok d ∧ d.Reachable ∧ d.zeros.numRoots = n ∧ d.poles.numRoots = n ∧ d.InDisk ∧
      d.Stable ∧ ∀ θ : ℝ, Real.cos (θ / 2) ≠ 0 → response d θ = sys.eval (I * ((Real.tan (θ / 2) : ℝ) : ℂ)) := by
  have hpi := Real.pi_pos
  have hk : bilinearFactor (2 / Real.pi) (some 1) = .ok 1 := by
    have e : 1 / (2 / Real.pi) / 2 = Real.pi / 4 := by field_simp; norm_num
    rw [bilinearFactor, e, Real.tan_pi_div_four, fdiv_ok one_ne_zero, div_one]
  obtain ⟨d, h1, h2, h3, h4, h5, h6, h7⟩ := bilinear_spec hs.reachable (2 / Real.pi) (some 1) 1 hk
  have ho : sys.order = n := by unfold Zpk.order; have := hs.zeros_le; have := hs.poles_eq; omega
  have hst : d.Stable := by
    intro q hq
    obtain ⟨p, hp, rfl⟩ := List.mem_map.1 (((h5 (by rw [hs.poles_eq]; exact hs.zeros_le)).mem_iff).1 hq)
    exact bilinear_stable one_pos (hs.poles_re p hp)
  refine ⟨d, ?_, h2, by rw [h3, ho], by rw [h4, ho], ⟨?_, fun q hq => (hst q hq).le⟩, hst, ?_⟩
  · unfold discretizePrototype
    rw [fdiv_ok hpi.ne', Out.ok_bind, h1]
  · intro q hq
    rcases h6 q hq with ⟨p, hp, rfl⟩ | rfl
    · exact bilinear_closed one_pos (hs.zeros_re p hp)
    · simp
  · intro θ hc
    obtain ⟨e1, e2⟩ := bilinear_circle θ 1 hc
    have hne : ∀ p : ℂ, p.re ≤ 0 → p ≠ ((1 : ℝ) : ℂ) := by
      intro p hp h
      have := congrArg re h
      simp at this
      linarith
    rw [response, h7 (fun p hp => hne p (hs.zeros_re p hp)) (fun p hp => hne p (hs.poles_re p hp).le) _ e1, e2, one_mul]

theorem exists_half_tan (u : ℝ) : ∃ θ : ℝ, Real.cos (θ / 2) ≠ 0 ∧ Real.tan (θ / 2) = u ∧
    Real.sin (θ / 2) = u * Real.cos (θ / 2) := by
  refine ⟨2 * Real.arctan u, ?_, ?_, ?_⟩
  · rw [mul_div_cancel_left₀ _ two_ne_zero]; exact (Real.cos_arctan_pos u).ne'
  · rw [mul_div_cancel_left₀ _ two_ne_zero]; exact Real.tan_arctan u
  · rw [mul_div_cancel_left₀ _ two_ne_zero]
    have := Real.tan_arctan u
    rw [Real.tan_eq_sin_div_cos, div_eq_iff (Real.cos_arctan_pos u).ne'] at this
    exact this

/-- **C61**, lowpass: the design from any stable prototype of order `n` succeeds for every cutoff strictly between `0` and the
Nyquist frequency; the filter is stable, has `n` zeros and `n` poles, and its response at `w` is that of the prototype at the
analog frequency `tan (w/2) / tan (wc/2)`. -/
theorem C61_lowpass (prototype : ℕ → Out Zpk) (n : ℕ) (sys : Zpk) (hp : prototype n = .ok sys)
    (hs : sys.IsPrototype n) (c : ℝ) (h0 : 0 < c) (h1 : c < 1) :
    ∃ f, designLowpass prototype n c = .ok f ∧ f.Reachable ∧ f.zeros.numRoots = n ∧ f.poles.numRoots = n ∧ f.Stable ∧
      ∀ w, Real.cos (w / 2) ≠ 0 →
        response f w = sys.eval (I * ((Real.tan (w / 2) / Real.tan (c * Real.pi / 2) : ℝ) : ℂ)) := by
  obtain ⟨d, a1, a2, a3, a4, a5, a6, a7⟩ := discretize_spec hs
  obtain ⟨f, b1, b2, b3, b4, b5, b6⟩ := C57_lowpass_partial d a2 a5 (by omega) c h0 h1 (.inl (by omega))
  refine ⟨f, ?_, b2, by omega, by omega, b5 a6, ?_⟩
  · unfold designLowpass
    rw [hp, Out.ok_bind, a1, Out.ok_bind, b1]
  · intro w hw
    obtain ⟨θ, t1, t2, t3⟩ := exists_half_tan (Real.tan (w / 2) / Real.tan (c * Real.pi / 2))
    rw [b6 w θ ?_, a7 θ t1, t2]
    have hpi := Real.pi_pos
    have hs' : Real.sin (c * Real.pi / 2) ≠ 0 := (Real.sin_pos_of_pos_of_lt_pi (by positivity) (by nlinarith)).ne'
    have hc' : Real.cos (c * Real.pi / 2) ≠ 0 := (Real.cos_pos_of_mem_Ioo ⟨by nlinarith, by nlinarith⟩).ne'
    rw [t3, Real.tan_eq_sin_div_cos, Real.tan_eq_sin_div_cos]
    field_simp

/-- **C61**, highpass: as for lowpass, with the analog frequency `- tan (wc/2) / tan (w/2)`; the cutoff `1/2` is excluded
(`C61_highpass_half`). -/
theorem C61_highpass_partial (prototype : ℕ → Out Zpk) (n : ℕ) (sys : Zpk) (hp : prototype n = .ok sys)
    (hs : sys.IsPrototype n) (c : ℝ) (h0 : 0 < c) (h1 : c < 1) (hc : c ≠ 1 / 2) :
    ∃ f, designHighpass prototype n c = .ok f ∧ f.Reachable ∧ f.zeros.numRoots = n ∧ f.poles.numRoots = n ∧ f.Stable ∧
      ∀ w, Real.sin (w / 2) ≠ 0 →
        response f w = sys.eval (I * ((-(Real.tan (c * Real.pi / 2) / Real.tan (w / 2)) : ℝ) : ℂ)) := by
  obtain ⟨d, a1, a2, a3, a4, a5, a6, a7⟩ := discretize_spec hs
  obtain ⟨f, b1, b2, b3, b4, b5, b6⟩ := C57_highpass_partial d a2 a5 (by omega) c h0 h1 hc
  refine ⟨f, ?_, b2, by omega, by omega, b5 a6, ?_⟩
  · unfold designHighpass
    rw [hp, Out.ok_bind, a1, Out.ok_bind, b1]
  · intro w hw
    obtain ⟨θ, t1, t2, t3⟩ := exists_half_tan (-(Real.tan (c * Real.pi / 2) / Real.tan (w / 2)))
    rw [b6 w θ ?_, a7 θ t1, t2]
    have hpi := Real.pi_pos
    have hc' : Real.cos (c * Real.pi / 2) ≠ 0 := (Real.cos_pos_of_mem_Ioo ⟨by nlinarith, by nlinarith⟩).ne'
    rw [t3, Real.tan_eq_sin_div_cos, Real.tan_eq_sin_div_cos]
    by_cases hcw : Real.cos (w / 2) = 0
    · simp [hcw]
    · field_simp

/-- The default highpass design is degenerate. -/
theorem C61_highpass_half (prototype : ℕ → Out Zpk) (n : ℕ) (sys : Zpk) (hp : prototype n = .ok sys)
    (hs : sys.IsPrototype n) : designHighpass prototype n (1 / 2) = .ub := by
  obtain ⟨d, a1, -⟩ := discretize_spec hs
  unfold designHighpass
  rw [hp, Out.ok_bind, a1, Out.ok_bind, C57_highpass_half]

/-- **C61**, bandpass: even orders are accepted, the filter has `order` zeros and poles, is stable, and its response at `w` is
that of the prototype of half the order at `(cos σ - cos δ cos w) / (sin δ sin w)`.  Bands of width `1/2` are excluded
(`C61_bandpass_half`). -/
theorem C61_bandpass_partial (prototype : ℕ → Out Zpk) (n : ℕ) (sys : Zpk) (hp : prototype n = .ok sys)
    (hs : sys.IsPrototype n) (c1 c2 : ℝ) (h0 : 0 < c1) (h1 : c1 < c2) (h2 : c2 < 1) (hw : c2 - c1 ≠ 1 / 2) :
    ∃ f, designBandpass prototype (2 * n) c1 c2 = .ok f ∧ f.Reachable ∧ f.zeros.numRoots = 2 * n ∧
      f.poles.numRoots = 2 * n ∧ f.Stable ∧
      ∀ w, Real.sin w ≠ 0 → response f w = sys.eval (I * (((Real.cos ((c1 * Real.pi + c2 * Real.pi) / 2) -
            Real.cos ((c2 * Real.pi - c1 * Real.pi) / 2) * Real.cos w) /
            (Real.sin ((c2 * Real.pi - c1 * Real.pi) / 2) * Real.sin w) : ℝ) : ℂ)) := by
  obtain ⟨d, a1, a2, a3, a4, a5, a6, a7⟩ := discretize_spec hs
  obtain ⟨f, b1, b2, b3, b4, b5, b6⟩ := C57_bandpass_partial d a2 a5 (by omega) c1 c2 h0 h1 h2 hw
  refine ⟨f, ?_, b2, by omega, by omega, b5 a6, ?_⟩
  · unfold designBandpass
    rw [cassert_true (by omega), Out.ok_bind, show 2 * n / 2 = n by omega, hp, Out.ok_bind, a1, Out.ok_bind, b1]
  · intro w hw'
    obtain ⟨θ, t1, t2, t3⟩ := exists_half_tan ((Real.cos ((c1 * Real.pi + c2 * Real.pi) / 2) -
            Real.cos ((c2 * Real.pi - c1 * Real.pi) / 2) * Real.cos w) /
            (Real.sin ((c2 * Real.pi - c1 * Real.pi) / 2) * Real.sin w))
    rw [b6 w θ ?_, a7 θ t1, t2]
    have hpi := Real.pi_pos
    have hs' : Real.sin ((c2 * Real.pi - c1 * Real.pi) / 2) ≠ 0 :=
      (Real.sin_pos_of_pos_of_lt_pi (by nlinarith) (by nlinarith)).ne'
    rw [t3, div_mul_eq_mul_div, div_mul_cancel₀ _ (mul_ne_zero hs' hw')]
    ring

/-- The default bandpass design, like every band of width `1/2`, is degenerate. -/
theorem C61_bandpass_half (prototype : ℕ → Out Zpk) (n : ℕ) (sys : Zpk) (hp : prototype n = .ok sys)
    (hs : sys.IsPrototype n) (c1 : ℝ) : designBandpass prototype (2 * n) c1 (c1 + 1 / 2) = .ub := by
  obtain ⟨d, a1, -⟩ := discretize_spec hs
  unfold designBandpass
  rw [cassert_true (by omega), Out.ok_bind, show 2 * n / 2 = n by omega, hp, Out.ok_bind, a1, Out.ok_bind,
    C57_bandpass_half]

/-- **C61**, bandstop: as for bandpass, with the analog frequency `sin δ sin w / (cos δ cos w - cos σ)`, wherever that is
finite; no band is excluded. -/
theorem C61_bandstop (prototype : ℕ → Out Zpk) (n : ℕ) (sys : Zpk) (hp : prototype n = .ok sys)
    (hs : sys.IsPrototype n) (c1 c2 : ℝ) (h0 : 0 < c1) (h1 : c1 < c2) (h2 : c2 < 1) :
    ∃ f, designBandstop prototype (2 * n) c1 c2 = .ok f ∧ f.Reachable ∧ f.zeros.numRoots = 2 * n ∧
      f.poles.numRoots = 2 * n ∧ f.Stable ∧
      ∀ w, Real.cos ((c2 * Real.pi - c1 * Real.pi) / 2) * Real.cos w - Real.cos ((c1 * Real.pi + c2 * Real.pi) / 2) ≠ 0 →
        response f w = sys.eval (I * ((Real.sin ((c2 * Real.pi - c1 * Real.pi) / 2) * Real.sin w /
          (Real.cos ((c2 * Real.pi - c1 * Real.pi) / 2) * Real.cos w -
            Real.cos ((c1 * Real.pi + c2 * Real.pi) / 2)) : ℝ) : ℂ)) := by
  obtain ⟨d, a1, a2, a3, a4, a5, a6, a7⟩ := discretize_spec hs
  obtain ⟨f, b1, b2, b3, b4, b5, b6⟩ := C57_bandstop_partial d a2 a5 (by omega) c1 c2 h0 h1 h2 (.inl (by omega))
  refine ⟨f, ?_, b2, by omega, by omega, b5 a6, ?_⟩
  · unfold designBandstop
    rw [cassert_true (by omega), Out.ok_bind, show 2 * n / 2 = n by omega, hp, Out.ok_bind, a1, Out.ok_bind, b1]
  · intro w hw'
    obtain ⟨θ, t1, t2, t3⟩ := exists_half_tan (Real.sin ((c2 * Real.pi - c1 * Real.pi) / 2) * Real.sin w /
          (Real.cos ((c2 * Real.pi - c1 * Real.pi) / 2) * Real.cos w -
            Real.cos ((c1 * Real.pi + c2 * Real.pi) / 2)))
    rw [b6 w θ ?_, a7 θ t1, t2]
    rw [t3, div_mul_eq_mul_div, div_mul_cancel₀ _ hw']
    ring

/-- Odd orders are rejected by an assertion for both band filters. -/
theorem C61_odd_order (prototype : ℕ → Out Zpk) (n : ℕ) (c1 c2 : ℝ) :
    designBandpass prototype (2 * n + 1) c1 c2 = .assertFail ∧
    designBandstop prototype (2 * n + 1) c1 c2 = .assertFail := by
  unfold designBandpass designBandstop
  rw [cassert, if_neg (by omega)]
  exact ⟨rfl, rfl⟩

/-- The Butterworth prototype meets the requirements of C61. -/
theorem butterworth_isPrototype (n : ℕ) : ∃ sys, butterworth n = .ok sys ∧ sys.IsPrototype n := by
  obtain ⟨sys, h1, h2, h3, h4, h5, h6, h7⟩ := butterworth_spec n
  refine ⟨sys, h1, h2, by omega, h6, by rw [h5]; simp, ?_⟩
  intro p hp
  obtain ⟨k, hk, rfl⟩ := List.mem_map.1 ((h7.mem_iff).1 hp)
  exact butterPole_re (List.mem_range.1 hk)

/-- **C61**: the Butterworth lowpass filter of every order `n > 0` and cutoff is stable and has
`|H(w)|² = 1 / (1 + (tan (w/2) / tan (wc/2))^(2n))`; in particular its magnitude at the cutoff is `1/√2`. -/
theorem C61_butterworth_lowpass (n : ℕ) (hn : 0 < n) (c : ℝ) (h0 : 0 < c) (h1 : c < 1) :
    ∃ f, designLowpass butterworth n c = .ok f ∧ f.Stable ∧ f.zeros.numRoots = n ∧ f.poles.numRoots = n ∧
      (∀ w, Real.cos (w / 2) ≠ 0 →
        ‖response f w‖ ^ 2 = 1 / (1 + (Real.tan (w / 2) / Real.tan (c * Real.pi / 2)) ^ (2 * n))) ∧
      ‖response f (c * Real.pi)‖ ^ 2 = 1 / 2 ∧ ‖response f 0‖ = 1 := by
  obtain ⟨sys, a1, a2⟩ := butterworth_isPrototype n
  obtain ⟨f, b1, b2, b3, b4, b5, b6⟩ := C61_lowpass butterworth n sys a1 a2 c h0 h1
  have hm : ∀ w, Real.cos (w / 2) ≠ 0 →
        ‖response f w‖ ^ 2 = 1 / (1 + (Real.tan (w / 2) / Real.tan (c * Real.pi / 2)) ^ (2 * n)) := by
    intro w hw
    rw [b6 w hw, C55_magnitude n hn sys a1]
  have hpi := Real.pi_pos
  have hc' : Real.cos (c * Real.pi / 2) ≠ 0 := (Real.cos_pos_of_mem_Ioo ⟨by nlinarith, by nlinarith⟩).ne'
  have ht : Real.tan (c * Real.pi / 2) ≠ 0 :=
    (Real.tan_pos_of_pos_of_lt_pi_div_two (by positivity) (by nlinarith)).ne'
  refine ⟨f, b1, b5, b3, b4, hm, ?_, ?_⟩
  · rw [hm _ hc', div_self ht, one_pow]; norm_num
  · have := hm 0 (by simp)
    simp [show 2 * n ≠ 0 by omega] at this
    rcases this with h | h
    · exact h
    · linarith [norm_nonneg (response f 0)]

/-- **C61**: the Butterworth bandpass filter has magnitude `1/√2` at both band edges. -/
theorem C61_butterworth_bandpass (n : ℕ) (hn : 0 < n) (c1 c2 : ℝ) (h0 : 0 < c1) (h1 : c1 < c2) (h2 : c2 < 1)
    (hw : c2 - c1 ≠ 1 / 2) :
    ∃ f, designBandpass butterworth (2 * n) c1 c2 = .ok f ∧ f.Stable ∧
      ‖response f (c1 * Real.pi)‖ ^ 2 = 1 / 2 ∧ ‖response f (c2 * Real.pi)‖ ^ 2 = 1 / 2 := by
  obtain ⟨sys, a1, a2⟩ := butterworth_isPrototype n
  obtain ⟨f, b1, b2, b3, b4, b5, b6⟩ := C61_bandpass_partial butterworth n sys a1 a2 c1 c2 h0 h1 h2 hw
  have hpi := Real.pi_pos
  have s1 : Real.sin (c1 * Real.pi) ≠ 0 := (Real.sin_pos_of_pos_of_lt_pi (by positivity) (by nlinarith)).ne'
  have s2 : Real.sin (c2 * Real.pi) ≠ 0 := (Real.sin_pos_of_pos_of_lt_pi (by nlinarith) (by nlinarith)).ne'
  have sd : Real.sin ((c2 * Real.pi - c1 * Real.pi) / 2) ≠ 0 :=
      (Real.sin_pos_of_pos_of_lt_pi (by nlinarith) (by nlinarith)).ne'
  have e1 : Real.cos ((c1 * Real.pi + c2 * Real.pi) / 2) = Real.cos ((c2 * Real.pi - c1 * Real.pi) / 2) *
      Real.cos (c1 * Real.pi) - Real.sin ((c2 * Real.pi - c1 * Real.pi) / 2) * Real.sin (c1 * Real.pi) := by
    rw [← Real.cos_add]; congr 1; ring
  have e2 : Real.cos ((c1 * Real.pi + c2 * Real.pi) / 2) = Real.cos ((c2 * Real.pi - c1 * Real.pi) / 2) *
      Real.cos (c2 * Real.pi) + Real.sin ((c2 * Real.pi - c1 * Real.pi) / 2) * Real.sin (c2 * Real.pi) := by
    rw [← Real.cos_sub, ← Real.cos_neg]; congr 1; ring
  refine ⟨f, b1, b5, ?_, ?_⟩
  · rw [b6 _ s1, C55_magnitude n hn sys a1]
    rw [show (Real.cos ((c1 * Real.pi + c2 * Real.pi) / 2) -
        Real.cos ((c2 * Real.pi - c1 * Real.pi) / 2) * Real.cos (c1 * Real.pi)) /
          (Real.sin ((c2 * Real.pi - c1 * Real.pi) / 2) * Real.sin (c1 * Real.pi)) = -1 by
      rw [e1, div_eq_iff (mul_ne_zero sd s1)]; ring]
    rw [pow_mul]; norm_num
  · rw [b6 _ s2, C55_magnitude n hn sys a1]
    rw [show (Real.cos ((c1 * Real.pi + c2 * Real.pi) / 2) -
        Real.cos ((c2 * Real.pi - c1 * Real.pi) / 2) * Real.cos (c2 * Real.pi)) /
          (Real.sin ((c2 * Real.pi - c1 * Real.pi) / 2) * Real.sin (c2 * Real.pi)) = 1 by
      rw [e2, div_eq_iff (mul_ne_zero sd s2)]; ring]
    rw [one_pow]; norm_num

/-- Non-vacuity of C56, C57 and C61: a fourth order lowpass filter at a third of the Nyquist frequency, whose half-band
prototype meets the hypotheses of C57. -/
example : ∃ sys d f : Zpk, butterworth 4 = .ok sys ∧ discretizePrototype sys = .ok d ∧ d.Reachable ∧ d.InDisk ∧
    d.zeros.numRoots ≤ d.poles.numRoots ∧ designLowpass butterworth 4 (1 / 3) = .ok f ∧ f.Stable := by
  obtain ⟨sys, a1, a2⟩ := butterworth_isPrototype 4
  obtain ⟨d, b1, b2, b3, b4, b5, b6, b7⟩ := discretize_spec a2
  obtain ⟨f, c1, c2, -⟩ := C61_butterworth_lowpass 4 (by norm_num) (1 / 3) (by norm_num) (by norm_num)
  exact ⟨sys, d, f, a1, b1, b2, b5, by omega, c1, c2⟩

end Verif
