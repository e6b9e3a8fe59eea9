import Verif.Props.EllipticDesign
import Verif.Props.IirDesign

set_option linter.unusedSimpArgs false

/-! # C72: the elliptic prototype, and the low pass filters designed from it -/

namespace Verif
open Complex

theorem finite_coe (v : ℝ) : finite (v : WithTop ℝ) = .ok v := rfl

/-- The search succeeds: on a type with finitely many numbers the bisection returns, and the integrals at the modulus it finds are finite. -/
theorem C72_search_returns {n : ℕ} {p s eps τ η M : ℝ} (hn : 1 ≤ n) (hp : 0 < p) (hs : 0 < s) (hps : s < 1 - p)
    (hf : FineEnough n p s eps τ η M) {A : BisectArith ℝ} (hA : A.Precise τ η) (values : Finset ℝ) (hv : ∀ a b, A.dist a b ∈ values) :
    ∃ N : ℕ, ∀ fuel, N ≤ fuel → ∃ P, ellipticOrderRipples A (values.card + 1) fuel eps n p s = .ok P := by
  have heps : 0 < eps := lt_of_lt_of_le (by positivity) hf.eps_ge
  have hn0 : (0 : ℝ) < n := by exact_mod_cast hn
  obtain ⟨h1, h2, h3, h4, h5⟩ := elliptic_ripples hp hs hps
  obtain ⟨k1, hk1⟩ : ∃ k1, k1 = Real.sqrt (1 / (1 - p) ^ 2 - 1) / Real.sqrt (1 / (s * s) - 1) := ⟨_, rfl⟩
  have hd : k1 = discrimination p s := by rw [hk1, discrimination, rippleFactor, sq s]
  have hk1pos : 0 < k1 := by rw [hk1]; rw [h3] at h1; exact div_pos (Real.sqrt_pos.mpr h1) (Real.sqrt_pos.mpr h2)
  have hk1lt : k1 ^ 2 < 1 := by
    rw [h3] at h1 h5
    rw [hk1, div_pow, Real.sq_sqrt h1.le, Real.sq_sqrt h2.le, div_lt_one h2]
    exact h5
  have hk1p : Real.sqrt (1 - k1 ^ 2) ^ 2 < 1 := (kp_sq hk1pos (by nlinarith)).2.1
  have hpi := Real.pi_pos
  obtain ⟨N1, v1, hv1, a1⟩ := C70_K eps heps hf.eps_le k1 hk1lt
  obtain ⟨N2, v1p, hv1p, a2⟩ := C70_K eps heps hf.eps_le (Real.sqrt (1 - k1 ^ 2)) hk1p
  have hK1 : 0 < legendreK k1 := by have := legendreK_ge hk1lt; linarith
  have hK1p : 0 < legendreKp k1 := kp_pos hk1pos (by nlinarith)
  have p1p : 0 < v1p := pos_of_close hK1p (by linarith [hf.eps_le]) a2
  obtain ⟨k, hk⟩ := C58_terminates A (degreeError eps ((n : ℝ) * v1 / v1p)) 0 1 0 values hv
  have hR : degreeQuotient n p s = n * legendreK k1 / legendreKp k1 := by rw [degreeQuotient, hd]
  obtain ⟨a, b, c1, c2, c3, c4, c5, c6, c7, c8⟩ := search_bracket heps hf.eps_le hf.tau_nonneg hA hf.one_le hf.eta_lt
    (by rw [← hR]; exact hf.le_quotient) hK1 hK1p hn0 a1 a2 hk
  have hτM : 20 * τ * Real.exp (5 * M) ≤ 1 := by
    have ht := hf.tau_upper
    rw [← hd] at ht
    have : Real.arctan (rippleFactor p) < Real.pi / 2 := Real.arctan_lt_pi_div_two _
    have hge := legendreK_ge hk1p
    have : 20 * τ * Real.exp (5 * M) * legendreKp k1 ≤ 1 * legendreKp k1 := by
      simp only [legendreKp] at ht ⊢
      linarith
    exact le_of_mul_le_mul_right this hK1p
  rw [← hR] at c7 c8
  have hR0 : 0 < degreeQuotient n p s := by rw [hR]; positivity
  obtain ⟨d1, -⟩ := search_estimates heps hf.eps_le hf.tau_nonneg hR0 hf.one_le hf.quotient_le hf.le_quotient hτM c1 c2 c3 c4
    c5 c6 c7 c8
  have hk0 : 0 < k := c1.trans_le c3
  have hklt : k < 1 := c4.trans_lt d1
  have hk2 : k ^ 2 < 1 := by nlinarith
  obtain ⟨N3, v, hv3, -⟩ := C70_K eps heps hf.eps_le k hk2
  obtain ⟨N4, vp, hv4, -⟩ := C70_K eps heps hf.eps_le (Real.sqrt (1 - k ^ 2)) (kp_sq hk0 hklt.le).2.1
  refine ⟨N1 + N2 + N3 + N4, fun fuel hfuel => ?_⟩
  have e1 : 1 - k1 * k1 = 1 - k1 ^ 2 := by ring
  have e2 : 1 - k * k = 1 - k ^ 2 := by ring
  unfold ellipticOrderRipples
  rw [fdiv_ok h4.ne', Out.ok_bind, fsqrt_ok h1.le, Out.ok_bind, fdiv_ok (by positivity), Out.ok_bind, fsqrt_ok h2.le, Out.ok_bind,
    fdiv_ok (Real.sqrt_pos.mpr h2).ne', Out.ok_bind, h3, ← hk1, e1, fsqrt_ok (by linarith), Out.ok_bind, hv1 fuel (by omega), Out.ok_bind,
    finite_coe, Out.ok_bind, hv1p fuel (by omega), Out.ok_bind, finite_coe, Out.ok_bind, fdiv_ok p1p.ne', Out.ok_bind, hk, Out.ok_bind, e2,
    fsqrt_ok (by linarith), Out.ok_bind, hv3 fuel (by omega), Out.ok_bind, finite_coe, Out.ok_bind, hv4 fuel (by omega), Out.ok_bind,
    finite_coe, Out.ok_bind]
  exact ⟨_, rfl⟩

theorem elliptic_pole_re {n : ℕ} {k ψ : ℝ} {θ : ℕ → ℝ} (hk : k ^ 2 < 1) (h0 : 0 < ψ) (h1 : ψ < Real.pi / 2)
    (hθ : ∀ j < n / 2, 0 < θ j ∧ θ j < Real.pi / 2) :
    ∀ q ∈ rootsOf (List.replicate (n % 2) (-Real.tan ψ)) ((List.range (n / 2)).map fun j => I * complexSn k (θ j) ψ), q.re < 0 := by
  have hre : ∀ j < n / 2, (I * complexSn k (θ j) ψ).re < 0 := by
    intro j hj
    have := complexSn_im_pos hk (hθ j hj).1.le (hθ j hj).2 h0 h1
    simp only [mul_re, I_re, I_im, zero_mul, one_mul, zero_sub]
    linarith
  have ht : 0 < Real.tan ψ := Real.tan_pos_of_pos_of_lt_pi_div_two h0 h1
  intro q hq
  simp only [rootsOf, List.mem_append, List.mem_map, List.mem_replicate, List.mem_range] at hq
  rcases hq with (⟨x, ⟨-, rfl⟩, rfl⟩ | ⟨j, hj, rfl⟩) | ⟨x, ⟨j, hj, rfl⟩, rfl⟩
  · rw [ofReal_re]; linarith
  · exact hre j hj
  · rw [conj_re]; exact hre j hj

/-- **C72**: for a fine enough arithmetic, the elliptic prototype of order `n` with pass band ripple `p` and stop band ripple `s` exists;
its modulus `k` satisfies the degree equation, its zeros are at the frequencies `1 / (k sin θⱼ)`, its poles at `i sn(θⱼ, ψ)`, where `θⱼ` and
`ψ` are the amplitudes of `(2j + 1 + n % 2) K / n` and of `F(arctan(1/ε), k₁') K / (n K₁)`, all of it up to the stated relative errors; the
value at zero is `1` for odd orders and `1 - p` for even ones. -/
theorem C72_design {n : ℕ} {p s eps τ η M : ℝ} (hn : 1 ≤ n) (hp : 0 < p) (hs : 0 < s) (hps : s < 1 - p)
    (hf : FineEnough n p s eps τ η M) {A : BisectArith ℝ} (hA : A.Precise τ η) (values : Finset ℝ) (hv : ∀ a b, A.dist a b ∈ values) :
    ∃ N : ℕ, ∀ fuel, N ≤ fuel → ∃ (k : ℝ) (θ : ℕ → ℝ) (ψ : ℝ) (sys : Zpk),
      elliptic A (values.card + 1) fuel eps n p s = .ok sys ∧ sys.IsPrototype n ∧
      ConjugateClosed sys.zeros.roots ∧ ConjugateClosed sys.poles.roots ∧
      (0 < k ∧ k < 1 ∧
        legendreK k ≤ (1 + 3 * eps + 3 * τ * Real.exp (5 * M)) * (degreeQuotient n p s * legendreKp k) ∧
        degreeQuotient n p s * legendreKp k ≤ (1 + 3 * eps + 3 * τ * Real.exp (5 * M)) * legendreK k) ∧
      (∀ j < n / 2, 0 < θ j ∧ θ j < Real.pi / 2 ∧
        |legendreF (θ j) k - ((2 * j + 1 + n % 2 : ℕ) : ℝ) / n * legendreK k| ≤ 5 * eps * legendreK k ^ 2) ∧
      (0 < ψ ∧ ψ < Real.pi / 2 ∧ |legendreF ψ (Real.sqrt (1 - k ^ 2)) - poleArgument n p s k| ≤ 5 * eps * legendreKp k ^ 2) ∧
      sys.zeros.roots = rootsOf [] ((List.range (n / 2)).map fun j => I / ((k * Real.sin (θ j) : ℝ) : ℂ)) ∧
      sys.poles.roots = rootsOf (List.replicate (n % 2) (-Real.tan ψ)) ((List.range (n / 2)).map fun j => I * complexSn k (θ j) ψ) ∧
      sys.eval (0 : ℂ) = if n % 2 = 1 then 1 else ((1 - p : ℝ) : ℂ) := by
  obtain ⟨N1, h1⟩ := C72_search_returns hn hp hs hps hf hA values hv
  obtain ⟨N2, h2⟩ := elliptic_design hn hp hs hps hf hA (values.card + 1)
  refine ⟨N1 + N2, fun fuel hfuel => ?_⟩
  obtain ⟨P, hP⟩ := h1 fuel (by omega)
  obtain ⟨a1, a2, a3, a4, a5, a6, θ, ψ, sys, b1, b2, b3, b4, b5, b6, b7, b8, b9, b10, b11⟩ := h2 fuel (by omega) P hP
  refine ⟨P.k, θ, ψ, sys, b5, ⟨b6, by omega, b8, ?_, ?_⟩, conjugateClosed_roots _, conjugateClosed_roots _, ⟨a1, a2, a5, a6⟩, b1,
    ⟨b2, b3, b4⟩, b9, b10, b11⟩
  · intro q hq
    rw [b9] at hq
    simp only [rootsOf, List.map_nil, List.nil_append, List.mem_append, List.mem_map, List.mem_range] at hq
    have hz : ∀ x : ℝ, (I / (x : ℂ)).re = 0 := by
      intro x
      rw [div_re]
      simp
    rcases hq with ⟨j, hj, rfl⟩ | ⟨x, ⟨j, hj, rfl⟩, rfl⟩
    · rw [hz]
    · rw [conj_re, hz]
  · intro q hq
    rw [b10] at hq
    exact elliptic_pole_re (by nlinarith) b2 b3 (fun j hj => ⟨(b1 j hj).1, (b1 j hj).2.1⟩) q hq

/-- where the response of the prototype vanishes -/
theorem elliptic_zeros {n : ℕ} {k : ℝ} {θ : ℕ → ℝ} {sys : Zpk} (hk : 0 < k) (hθ : ∀ j < n / 2, 0 < θ j ∧ θ j < Real.pi / 2)
    (hz : sys.zeros.roots = rootsOf [] ((List.range (n / 2)).map fun j => I / ((k * Real.sin (θ j) : ℝ) : ℂ)))
    (hp : ∀ q ∈ sys.poles.roots, q.re < 0) (h0 : sys.eval (0 : ℂ) ≠ 0) {w : ℝ} (hw : 0 ≤ w) :
    sys.eval (I * (w : ℂ)) = 0 ↔ ∃ j < n / 2, w * (k * Real.sin (θ j)) = 1 := by
  have hg : (sys.gain : ℂ) ≠ 0 := by
    intro h
    apply h0
    rw [zpk_value, h, zero_mul, zero_div]
  have hd : rootProduct sys.poles.roots (I * (w : ℂ)) ≠ 0 := by
    apply rootProduct_ne_zero
    intro q hq h
    have := hp q hq
    rw [h] at this
    simp at this
  have hx : ∀ j < n / 2, 0 < k * Real.sin (θ j) := fun j hj =>
    mul_pos hk (Real.sin_pos_of_pos_of_lt_pi (hθ j hj).1 (by linarith [(hθ j hj).2, Real.pi_pos]))
  rw [zpk_value, div_eq_zero_iff, or_iff_left hd, mul_eq_zero, or_iff_right hg, rootProduct, List.prod_eq_zero_iff, hz]
  simp only [rootsOf, List.map_nil, List.nil_append, List.map_append, List.mem_append, List.map_map, List.mem_map, List.mem_range,
    Function.comp]
  constructor
  · rintro (⟨j, hj, h⟩ | ⟨j, hj, h⟩)
    · refine ⟨j, hj, ?_⟩
      have hne : ((k * Real.sin (θ j) : ℝ) : ℂ) ≠ 0 := by exact_mod_cast (hx j hj).ne'
      have : I * ((w * (k * Real.sin (θ j)) : ℝ) : ℂ) = I * 1 := by
        rw [sub_eq_zero, eq_div_iff hne] at h
        rw [ofReal_mul, ← mul_assoc, h, mul_one]
      have := mul_left_cancel₀ I_ne_zero this
      exact_mod_cast this
    · exfalso
      have hne : ((k * Real.sin (θ j) : ℝ) : ℂ) ≠ 0 := by exact_mod_cast (hx j hj).ne'
      rw [map_div₀, conj_I, conj_ofReal, sub_eq_zero, eq_div_iff hne] at h
      have : I * ((w * (k * Real.sin (θ j)) : ℝ) : ℂ) = I * (-1) := by
        rw [ofReal_mul, ← mul_assoc, h]; ring
      have := mul_left_cancel₀ I_ne_zero this
      have : w * (k * Real.sin (θ j)) = -1 := by exact_mod_cast this
      have := mul_nonneg hw (hx j hj).le
      linarith
  · rintro ⟨j, hj, h⟩
    left
    refine ⟨j, hj, ?_⟩
    have hne : ((k * Real.sin (θ j) : ℝ) : ℂ) ≠ 0 := by exact_mod_cast (hx j hj).ne'
    rw [sub_eq_zero, eq_div_iff hne, mul_assoc, ← ofReal_mul, h, ofReal_one, mul_one]

/-- **C72**: the low pass filter designed from the prototype is stable, has `n` zeros and `n` poles, has the gain `1` or `1 - p` at
frequency zero, and vanishes exactly at the frequencies with `tan(w/2) = tan(wc/2) / (k sin θⱼ)`, all beyond the cutoff `wc / k`. -/
theorem C72_lowpass {n : ℕ} {p s eps τ η M : ℝ} (hn : 1 ≤ n) (hp : 0 < p) (hs : 0 < s) (hps : s < 1 - p)
    (hf : FineEnough n p s eps τ η M) {A : BisectArith ℝ} (hA : A.Precise τ η) (values : Finset ℝ) (hv : ∀ a b, A.dist a b ∈ values)
    (c : ℝ) (hc0 : 0 < c) (hc1 : c < 1) :
    ∃ N : ℕ, ∀ fuel, N ≤ fuel → ∃ (k : ℝ) (θ : ℕ → ℝ) (f : Zpk),
      designLowpass (fun n => elliptic A (values.card + 1) fuel eps n p s) n c = .ok f ∧ f.Stable ∧ f.zeros.numRoots = n ∧
      f.poles.numRoots = n ∧ response f 0 = (if n % 2 = 1 then 1 else ((1 - p : ℝ) : ℂ)) ∧
      (0 < k ∧ k < 1 ∧
        legendreK k ≤ (1 + 3 * eps + 3 * τ * Real.exp (5 * M)) * (degreeQuotient n p s * legendreKp k) ∧
        degreeQuotient n p s * legendreKp k ≤ (1 + 3 * eps + 3 * τ * Real.exp (5 * M)) * legendreK k) ∧
      (∀ j < n / 2, 0 < θ j ∧ θ j < Real.pi / 2 ∧
        |legendreF (θ j) k - ((2 * j + 1 + n % 2 : ℕ) : ℝ) / n * legendreK k| ≤ 5 * eps * legendreK k ^ 2) ∧
      (∀ w, 0 ≤ w → w < Real.pi →
        (response f w = 0 ↔ ∃ j < n / 2, Real.tan (w / 2) * (k * Real.sin (θ j)) = Real.tan (c * Real.pi / 2))) ∧
      (∀ w, 0 ≤ w → w < Real.pi → Real.tan (w / 2) * k ≤ Real.tan (c * Real.pi / 2) → response f w ≠ 0) := by
  obtain ⟨N, h⟩ := C72_design hn hp hs hps hf hA values hv
  refine ⟨N, fun fuel hfuel => ?_⟩
  obtain ⟨k, θ, ψ, sys, a1, a2, -, -, ⟨a3, a4, a5, a6⟩, a7, -, a8, a9, a10⟩ := h fuel hfuel
  obtain ⟨f, b1, b2, b3, b4, b5, b6⟩ := C61_lowpass (fun n => elliptic A (values.card + 1) fuel eps n p s) n sys a1 a2 c hc0 hc1
  have hpi := Real.pi_pos
  have ht : 0 < Real.tan (c * Real.pi / 2) := Real.tan_pos_of_pos_of_lt_pi_div_two (by positivity) (by nlinarith)
  have hcos : ∀ w, 0 ≤ w → w < Real.pi → Real.cos (w / 2) ≠ 0 := fun w h0 h1 =>
    (Real.cos_pos_of_mem_Ioo ⟨by linarith, by linarith⟩).ne'
  have hθ : ∀ j < n / 2, 0 < θ j ∧ θ j < Real.pi / 2 := fun j hj => ⟨(a7 j hj).1, (a7 j hj).2.1⟩
  have h0 : sys.eval (0 : ℂ) ≠ 0 := by
    rw [a10]
    split
    · exact one_ne_zero
    · have : (1 - p : ℝ) ≠ 0 := by linarith
      exact_mod_cast this
  have hzero : ∀ w, 0 ≤ w → w < Real.pi →
      (response f w = 0 ↔ ∃ j < n / 2, Real.tan (w / 2) * (k * Real.sin (θ j)) = Real.tan (c * Real.pi / 2)) := by
    intro w hw0 hw1
    have htw : 0 ≤ Real.tan (w / 2) := Real.tan_nonneg_of_nonneg_of_le_pi_div_two (by linarith) (by linarith)
    rw [b6 w (hcos w hw0 hw1), elliptic_zeros a3 hθ a8 a2.poles_re h0 (div_nonneg htw ht.le)]
    refine exists_congr fun j => and_congr_right fun _ => ?_
    rw [div_mul_eq_mul_div, div_eq_one_iff_eq ht.ne']
  refine ⟨k, θ, f, b1, b5, b3, b4, ?_, ⟨a3, a4, a5, a6⟩, a7, hzero, fun w hw0 hw1 hwk hr => ?_⟩
  · have := b6 0 (by simp)
    rw [this]
    simpa using a10
  · obtain ⟨j, hj, he⟩ := (hzero w hw0 hw1).mp hr
    have hs1 : Real.sin (θ j) < 1 := by
      have := Real.sin_lt_sin_of_lt_of_le_pi_div_two (by linarith [(hθ j hj).1]) le_rfl (hθ j hj).2
      rwa [Real.sin_pi_div_two] at this
    have htw : 0 ≤ Real.tan (w / 2) := Real.tan_nonneg_of_nonneg_of_le_pi_div_two (by linarith) (by linarith)
    have h1 : Real.tan (w / 2) * k * Real.sin (θ j) ≤ Real.tan (c * Real.pi / 2) * Real.sin (θ j) :=
      mul_le_mul_of_nonneg_right hwk (Real.sin_pos_of_pos_of_lt_pi (hθ j hj).1 (by linarith [(hθ j hj).2])).le
    have h2 : Real.tan (c * Real.pi / 2) * Real.sin (θ j) < Real.tan (c * Real.pi / 2) * 1 := mul_lt_mul_of_pos_left hs1 ht
    linarith

/-- A stop band ripple that is not below the pass band cannot be designed. -/
theorem C72_impossible {A : BisectArith ℝ} {bfuel fuel n : ℕ} {eps p s : ℝ} (hp : 0 < p) (hs : 0 < s) (hs1 : s < 1) (hp1 : p < 1) (hps : 1 - p ≤ s) :
    elliptic A bfuel fuel eps n p s = .ub := by
  have h4 : 0 < 1 - 2 * p + p * p := by nlinarith
  have h3 : (2 * p - p * p) / (1 - 2 * p + p * p) = 1 / (1 - p) ^ 2 - 1 := by
    have : 1 - 2 * p + p * p = (1 - p) ^ 2 := by ring
    have h1 : (1 - p) ≠ 0 := by linarith
    rw [this]; field_simp; ring
  have h1 : 0 < 1 / (1 - p) ^ 2 - 1 := by
    rw [← h3]
    apply div_pos _ h4
    nlinarith
  have h2 : 0 < 1 / (s * s) - 1 := by
    rw [sub_pos, lt_div_iff₀ (by positivity)]
    nlinarith
  have h5 : 1 / (s * s) - 1 ≤ 1 / (1 - p) ^ 2 - 1 := by
    apply sub_le_sub_right
    have h1p : 0 < 1 - p := by linarith
    apply one_div_le_one_div_of_le (by positivity)
    nlinarith
  obtain ⟨k1, hk1⟩ : ∃ k1, k1 = Real.sqrt (1 / (1 - p) ^ 2 - 1) / Real.sqrt (1 / (s * s) - 1) := ⟨_, rfl⟩
  have hk : 1 ≤ k1 ^ 2 := by
    rw [hk1, div_pow, Real.sq_sqrt h1.le, Real.sq_sqrt h2.le, le_div_iff₀ h2]
    linarith
  have : ellipticOrderRipples A bfuel fuel eps n p s = .ub := by
    unfold ellipticOrderRipples
    rw [fdiv_ok h4.ne', Out.ok_bind, fsqrt_ok (by rw [h3]; exact h1.le), Out.ok_bind, fdiv_ok (by positivity), Out.ok_bind, fsqrt_ok h2.le, Out.ok_bind,
      fdiv_ok (Real.sqrt_pos.mpr h2).ne', Out.ok_bind, h3, ← hk1]
    rcases hk.eq_or_lt with h | h
    · rw [show 1 - k1 * k1 = 0 by linarith, fsqrt_ok le_rfl, Out.ok_bind, C70_K_one eps fuel k1 h.symm]
      rfl
    · rw [fsqrt, if_neg (by push Not; linarith)]
      rfl
  unfold elliptic
  rw [this]
  rfl

/-! ### a fixed point arithmetic, and a design with it -/

/-- `m` bits after the point: midpoints are exact, distances are cut -/
noncomputable def fixedArith (m : ℕ) : BisectArith ℝ :=
  ⟨fun a b => (a + b) / 2, fun a b => (min (2 ^ m) ⌊|b - a| * 2 ^ m⌋₊ : ℕ) / 2 ^ m, 2⟩

theorem fixedArith_values (m : ℕ) (a b : ℝ) :
    (fixedArith m).dist a b ∈ (Finset.range (2 ^ m + 1)).image fun j : ℕ => (j : ℝ) / 2 ^ m :=
  Finset.mem_image.mpr ⟨min (2 ^ m) ⌊|b - a| * 2 ^ m⌋₊, Finset.mem_range.mpr (by omega), rfl⟩

theorem fixedArith_precise (m : ℕ) (τ : ℝ) (hτ : 0 < τ) : (fixedArith m).Precise τ ((1 + 1 / τ) / 2 ^ m) := by
  have h2 : (0 : ℝ) < 2 ^ m := by positivity
  refine ⟨fun a b _ hab _ => ⟨?_, ?_⟩, fun a b _ _ _ => ?_, fun a b ha hab hb h => ?_⟩
  · change a ≤ (a + b) / 2; linarith
  · change (a + b) / 2 ≤ b; linarith
  · change ((min (2 ^ m) ⌊|b - a| * 2 ^ m⌋₊ : ℕ) : ℝ) / 2 ^ m < 2
    rw [div_lt_iff₀ h2]
    have : ((min (2 ^ m) ⌊|b - a| * 2 ^ m⌋₊ : ℕ) : ℝ) ≤ ((2 ^ m : ℕ) : ℝ) := by exact_mod_cast min_le_left _ _
    rw [Nat.cast_pow, Nat.cast_ofNat] at this
    linarith
  · have hd : ∀ x y : ℝ, 0 ≤ x → x ≤ y → y ≤ 1 → (fixedArith m).dist x y = (⌊(y - x) * 2 ^ m⌋₊ : ℝ) / 2 ^ m := by
      intro x y hx hxy hy
      change ((min (2 ^ m) ⌊|y - x| * 2 ^ m⌋₊ : ℕ) : ℝ) / 2 ^ m = _
      rw [abs_of_nonneg (by linarith), min_eq_right]
      apply Nat.floor_le_of_le
      push_cast
      have : (y - x) * 2 ^ m ≤ 1 * 2 ^ m := mul_le_mul_of_nonneg_right (by linarith) h2.le
      linarith
    have hmid : (fixedArith m).mid a b = (a + b) / 2 := rfl
    rw [hmid, hd a b ha hab hb, hd a _ ha (by linarith) (by linarith), hd _ b (by linarith) (by linarith) hb] at h
    have e1 : (a + b) / 2 - a = (b - a) / 2 := by ring
    have e2 : b - (a + b) / 2 = (b - a) / 2 := by ring
    rw [e1, e2, or_self] at h
    obtain ⟨x, hx⟩ : ∃ x, x = (b - a) * 2 ^ m := ⟨_, rfl⟩
    have e3 : (b - a) / 2 * 2 ^ m = x / 2 := by rw [hx]; ring
    rw [e3, ← hx] at h
    have hx0 : 0 ≤ x := by rw [hx]; exact mul_nonneg (by linarith) h2.le
    have hlt : x < 1 := by
      have hle : ⌊x⌋₊ ≤ ⌊x / 2⌋₊ := by
        rcases h with h | h
        · rw [div_le_iff₀ h2, zero_mul] at h
          have : (⌊x⌋₊ : ℝ) ≤ ((0 : ℕ) : ℝ) := by simpa using h
          have : ⌊x⌋₊ ≤ 0 := by exact_mod_cast this
          omega
        · rw [div_le_div_iff_of_pos_right h2] at h
          exact_mod_cast h
      by_contra hge
      have hge := not_lt.mp hge
      have h1 : 1 ≤ ⌊x⌋₊ := Nat.le_floor (by simpa using hge)
      have h3 : ((⌊x / 2⌋₊ : ℕ) : ℝ) ≤ x / 2 := Nat.floor_le (by linarith)
      have h5 : x < ⌊x⌋₊ + 1 := Nat.lt_floor_add_one x
      have h6 : ((⌊x⌋₊ : ℕ) : ℝ) ≤ ((⌊x / 2⌋₊ : ℕ) : ℝ) := by exact_mod_cast hle
      have h7 : (1 : ℝ) ≤ ((⌊x⌋₊ : ℕ) : ℝ) := by exact_mod_cast h1
      linarith
    have hba : b < a + 1 / 2 ^ m := by
      rw [hx] at hlt
      have : b - a < 1 / 2 ^ m := by rw [lt_div_iff₀ h2]; exact hlt
      linarith
    rcases le_or_gt (1 / 2 ^ m) (τ * a) with hc | hc
    · left; linarith
    · right
      have : a < 1 / 2 ^ m / τ := by rw [lt_div_iff₀ hτ]; linarith
      have e : (1 + 1 / τ) / 2 ^ m = 1 / 2 ^ m + 1 / 2 ^ m / τ := by field_simp
      rw [e]
      linarith

/-- the second order filter with a pass band between 4/5 and 1 and a stop band below 3/5 -/
theorem C72_example_fine : FineEnough 2 (1 / 5) (3 / 5) (1 / 2000) (1 / 2 ^ 32) ((1 + 1 / (1 / 2 ^ 32)) / 2 ^ 64) 3 := by
  have hε : rippleFactor (1 / 5) = 3 / 4 := by
    rw [rippleFactor, show (1 / (1 - 1 / 5) ^ 2 - 1 : ℝ) = (3 / 4) ^ 2 by norm_num]; exact Real.sqrt_sq (by norm_num)
  have hk : discrimination (1 / 5) (3 / 5) = 9 / 16 := by
    have : Real.sqrt (1 / (3 / 5) ^ 2 - 1) = 4 / 3 := by
      rw [show (1 / (3 / 5) ^ 2 - 1 : ℝ) = (4 / 3) ^ 2 by norm_num]; exact Real.sqrt_sq (by norm_num)
    rw [discrimination, hε, this]; norm_num
  have hpi := Real.pi_gt_three
  have hpi4 : Real.pi < 3.15 := Real.pi_lt_d2
  have hK0 := legendreK_ge (k := 9 / 16) (by norm_num)
  have hK1 := legendreK_le (k := 9 / 16) (by norm_num)
  have hKp0 : Real.pi / 2 ≤ legendreKp (9 / 16) := legendreK_ge (kp_sq (by norm_num) (by norm_num)).2.1
  have hKp1 := kp_le (x := 9 / 16) (by norm_num) (by norm_num)
  have hK1' : legendreK (9 / 16) ≤ 2 := by
    refine hK1.trans ?_
    have : (4 / 5 : ℝ) ≤ Real.sqrt (1 - (9 / 16) ^ 2) := Real.le_sqrt_of_sq_le (by norm_num)
    rw [div_le_iff₀ (by linarith)]
    linarith
  have hKp1' : legendreKp (9 / 16) ≤ 2.8 := by
    refine hKp1.trans ?_
    rw [div_le_iff₀ (by norm_num)]
    linarith
  have hq : degreeQuotient 2 (1 / 5) (3 / 5) = 2 * legendreK (9 / 16) / legendreKp (9 / 16) := by rw [degreeQuotient, hk]; norm_num
  have hat1 : (3 / 5 : ℝ) ≤ Real.arctan (3 / 4) := by
    have h1 : Real.sin (Real.arctan (3 / 4)) = 3 / 5 := by
      rw [Real.sin_arctan]
      have : Real.sqrt (1 + (3 / 4) ^ 2) = 5 / 4 := by
        rw [show (1 + (3 / 4) ^ 2 : ℝ) = (5 / 4) ^ 2 by norm_num]; exact Real.sqrt_sq (by norm_num)
      rw [this]; norm_num
    have := Real.sin_le (Real.arctan_pos.mpr (by norm_num : (0 : ℝ) < 3 / 4)).le
    linarith
  have hat2 : (3 / 4 : ℝ) ≤ Real.arctan (1 / (3 / 4)) := by
    have : Real.arctan 1 ≤ Real.arctan (1 / (3 / 4)) := Real.arctan_strictMono.monotone (by norm_num)
    rw [Real.arctan_one] at this
    linarith
  have hexp : Real.exp (5 * 3) ≤ 3 ^ 15 := by
    have h2 : Real.exp (5 * 3) = Real.exp 1 ^ 15 := by rw [← Real.exp_nat_mul]; norm_num
    rw [h2]
    exact pow_le_pow_left₀ (Real.exp_pos 1).le (by linarith [Real.exp_one_lt_d9]) 15
  refine ⟨by norm_num, ?_, ?_, by norm_num, ?_, le_rfl, by positivity, ?_, ?_, ?_, ?_⟩
  · rw [hq, div_le_iff₀ (by linarith)]; linarith
  · rw [hq, ← mul_div_assoc, le_div_iff₀ (by linarith)]; linarith
  · have h1 : ((1 / 2 : ℝ)) ^ 2 ^ 14 ≤ (1 / 2) ^ 12 := pow_le_pow_of_le_one (by norm_num) (by norm_num) (by norm_num)
    generalize (1 / 2 : ℝ) ^ 2 ^ 14 = z at h1
    norm_num at h1 ⊢
    linarith
  · have h1 : (3 ^ 15 : ℝ)⁻¹ ≤ Real.exp (-(5 * 3)) := by
      rw [Real.exp_neg]
      exact inv_anti₀ (Real.exp_pos _) hexp
    refine lt_of_lt_of_le ?_ h1
    norm_num
  · rw [hk, hε]; push_cast; linarith
  · rw [hk, hε]; push_cast; linarith
  · rw [hk, hε]
    have h0 : 0 ≤ Real.exp (5 * 3) := (Real.exp_pos _).le
    have h1 : 20 * (1 / 2 ^ 32) * Real.exp (5 * 3) ≤ 20 * (1 / 2 ^ 32) * 3 ^ 15 := mul_le_mul_of_nonneg_left hexp (by norm_num)
    have h2 : 20 * (1 / 2 ^ 32) * Real.exp (5 * 3) * legendreKp (9 / 16) ≤ (20 * (1 / 2 ^ 32) * 3 ^ 15) * 2.8 :=
      mul_le_mul h1 hKp1' (by linarith) (by positivity)
    refine h2.trans (le_trans ?_ hat1)
    norm_num

/-- the hypotheses of the theorems above hold for it -/
example : ∃ N : ℕ, ∀ fuel, N ≤ fuel → ∃ sys, elliptic (fixedArith 64) (((Finset.range (2 ^ 64 + 1)).image fun j : ℕ => (j : ℝ) / 2 ^ 64).card + 1)
    fuel (1 / 2000) 2 (1 / 5) (3 / 5) = .ok sys ∧ sys.IsPrototype 2 ∧ sys.eval (0 : ℂ) = ((1 - 1 / 5 : ℝ) : ℂ) := by
  obtain ⟨N, h⟩ := C72_design (by norm_num) (by norm_num) (by norm_num) (by norm_num) C72_example_fine
    (fixedArith_precise 64 (1 / 2 ^ 32) (by norm_num)) _ (fixedArith_values 64)
  refine ⟨N, fun fuel hfuel => ?_⟩
  obtain ⟨k, θ, ψ, sys, a1, a2, -, -, -, -, -, -, -, a3⟩ := h fuel hfuel
  exact ⟨sys, a1, a2, a3⟩

end Verif
