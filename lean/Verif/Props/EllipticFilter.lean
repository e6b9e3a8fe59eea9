import Verif.Model.EllipticFilter
import Verif.Spec.EllipticFilter
import Verif.Props.EllipticArcs
import Verif.Props.EllipticComplex
import Verif.Props.Chebyshev

set_option linter.unusedSimpArgs false

/-! # C72: the elliptic (Cauer) prototype -/

namespace Verif
open Complex

theorem forN_congr {σ : Type} {n : ℕ} {f g : ℕ → σ → Out σ} (h : ∀ i < n, ∀ s, f i s = g i s) (s : σ) : forN n f s = forN n g s := by
  induction n with
  | zero => rfl
  | succ n ih =>
    rw [forN, forN, ih fun i hi => h i (by omega)]
    congr 1
    funext t
    exact h n (by omega) t

theorem legendreF_strictMono {k : ℝ} (hk : k ^ 2 < 1) : StrictMono fun φ => legendreF φ k := by
  apply strictMono_of_deriv_pos
  intro φ
  rw [(legendreF_deriv hk φ).deriv]
  have := delta_pos hk φ
  rw [jacobiDelta] at this
  positivity

/-- an angle is in the first quadrant when its elliptic integral is between zero and the complete one -/
theorem quadrant {k θ : ℝ} (hk : k ^ 2 < 1) (h0 : 0 < legendreF θ k) (h1 : legendreF θ k < legendreK k) :
    0 < θ ∧ θ < Real.pi / 2 := by
  have hm := legendreF_strictMono hk
  constructor
  · by_contra h
    have := hm.monotone (not_lt.mp h)
    simp only [legendreF_zero] at this
    linarith
  · by_contra h
    have := hm.monotone (not_lt.mp h)
    simp only [legendreK] at this h1
    linarith

/-- the parameters that the design starts from -/
theorem elliptic_ripples {p s : ℝ} (hp : 0 < p) (hs : 0 < s) (hps : s < 1 - p) :
    0 < (2 * p - p * p) / (1 - 2 * p + p * p) ∧ 0 < 1 / (s * s) - 1 ∧
    (2 * p - p * p) / (1 - 2 * p + p * p) = 1 / (1 - p) ^ 2 - 1 ∧ 0 < 1 - 2 * p + p * p ∧
    (2 * p - p * p) / (1 - 2 * p + p * p) < 1 / (s * s) - 1 := by
  have hp1 : 0 < 1 - p := by linarith
  have hd : 0 < 1 - 2 * p + p * p := by nlinarith
  have e : (2 * p - p * p) / (1 - 2 * p + p * p) = 1 / (1 - p) ^ 2 - 1 := by
    rw [show (1 - p) ^ 2 = 1 - 2 * p + p * p by ring]
    rw [div_eq_iff hd.ne', sub_mul, div_mul_cancel₀ _ hd.ne']
    ring
  have hss : s * s < (1 - p) ^ 2 := by nlinarith
  have hlt : 1 / (1 - p) ^ 2 < 1 / (s * s) := one_div_lt_one_div_of_lt (by positivity) hss
  refine ⟨div_pos (by nlinarith) hd, ?_, e, hd, ?_⟩
  · rw [sub_pos, lt_div_iff₀ (by positivity)]
    nlinarith
  · rw [e]; linarith

/-- the quotients of three approximate values -/
theorem ratio_close {e K K1 F v v1 a n : ℝ} (he0 : 0 ≤ e) (he1 : e ≤ 1 / 8) (hK : 0 < K) (hK1 : 0 < K1) (hF : 0 < F) (hn : 0 < n)
    (hv : |v - K| ≤ e * K) (hv1 : |v1 - K1| ≤ e * K1) (ha : |a - F| ≤ e * F) :
    |a * (v / n / v1) - F * (K / n / K1)| ≤ 4 * e * (F * (K / n / K1)) := by
  obtain ⟨l0, u0⟩ := abs_le.mp hv
  obtain ⟨l1, u1⟩ := abs_le.mp hv1
  obtain ⟨l2, u2⟩ := abs_le.mp ha
  have hv0 : 0 < v := by nlinarith
  have hv10 : 0 < v1 := by nlinarith
  have ha0 : 0 < a := by nlinarith
  have e1 : a * (v / n / v1) = (a * v) / (n * v1) := by field_simp
  have e2 : F * (K / n / K1) = (F * K) / (n * K1) := by field_simp
  have hFK : 0 < F * K := by positivity
  have A : a * v ≤ (1 + e) * (1 + e) * (F * K) := by
    have : a * v ≤ ((1 + e) * F) * ((1 + e) * K) := mul_le_mul (by linarith) (by linarith) hv0.le (by positivity)
    linarith
  have B : (1 - e) * (1 - e) * (F * K) ≤ a * v := by
    have h1e : 0 ≤ 1 - e := by linarith
    have : ((1 - e) * F) * ((1 - e) * K) ≤ a * v := mul_le_mul (by linarith) (by linarith) (by positivity) ha0.le
    linarith
  rw [e1, e2, abs_le]
  generalize F * K = Q at *
  generalize a * v = q at *
  constructor
  · have : (1 - 4 * e) * (Q / (n * K1)) ≤ q / (n * v1) := by
      rw [← mul_div_assoc, div_le_div_iff₀ (by positivity) (by positivity)]
      have h1 : n * v1 ≤ (1 + e) * (n * K1) := by nlinarith
      have hnK : 0 < n * K1 := by positivity
      rcases le_or_gt 0 (1 - 4 * e) with h4 | h4
      · calc (1 - 4 * e) * Q * (n * v1) ≤ (1 - 4 * e) * Q * ((1 + e) * (n * K1)) := by gcongr
          _ = ((1 - 4 * e) * (1 + e)) * (Q * (n * K1)) := by ring
          _ ≤ ((1 - e) * (1 - e)) * (Q * (n * K1)) := by
              apply mul_le_mul_of_nonneg_right _ (by positivity)
              nlinarith
          _ = ((1 - e) * (1 - e) * Q) * (n * K1) := by ring
          _ ≤ q * (n * K1) := by gcongr
      · nlinarith
    linarith
  · have : q / (n * v1) ≤ (1 + 4 * e) * (Q / (n * K1)) := by
      rw [← mul_div_assoc, div_le_div_iff₀ (by positivity) (by positivity)]
      have hnK : 0 < n * K1 := by positivity
      have h1 : (1 - e) * (n * K1) ≤ n * v1 := by nlinarith
      calc q * (n * K1) ≤ ((1 + e) * (1 + e) * Q) * (n * K1) := by gcongr
        _ = ((1 + e) * (1 + e)) * (Q * (n * K1)) := by ring
        _ ≤ ((1 + 4 * e) * (1 - e)) * (Q * (n * K1)) := by
            apply mul_le_mul_of_nonneg_right _ (by positivity)
            nlinarith
        _ = (1 + 4 * e) * Q * ((1 - e) * (n * K1)) := by ring
        _ ≤ (1 + 4 * e) * Q * (n * v1) := by gcongr
    linarith

/-- the error of the elliptic integral of an angle whose argument is itself approximate -/
theorem arg_close {eps K V v G : ℝ} (he0 : 0 < eps) (he1 : eps ≤ 1 / 2000) (hK : 3 / 2 ≤ K) (hV0 : 0 < V) (hV1 : V ≤ K)
    (hv : |v - V| ≤ eps * V) (hG : |G - v| ≤ eps * K * (3 * K + |v|)) : |G - V| ≤ 5 * eps * K ^ 2 := by
  have hK0 : 0 < K := by linarith
  have h1 : |v - V| ≤ eps * K := hv.trans (by gcongr)
  have h2 : |v| ≤ (1 + eps) * K := by
    have := abs_add_le (v - V) V
    rw [sub_add_cancel, abs_of_pos hV0] at this
    linarith
  calc |G - V| ≤ |G - v| + |v - V| := abs_sub_le _ _ _
    _ ≤ eps * K * (3 * K + (1 + eps) * K) + eps * K := by
        refine add_le_add (hG.trans ?_) h1
        gcongr
    _ = eps * (K * (3 * K + (1 + eps) * K) + K) := by ring
    _ ≤ eps * (5 * K ^ 2) := by
        apply mul_le_mul_of_nonneg_left _ he0.le
        have : eps * K ^ 2 ≤ 1 / 2000 * K ^ 2 := by gcongr
        nlinarith
    _ = _ := by ring

theorem pos_of_close {x v e : ℝ} (hx : 0 < x) (he : e ≤ 1 / 2) (h : |v - x| ≤ e * x) : 0 < v := by
  have := (abs_le.mp h).1
  have : e * x ≤ 1 / 2 * x := mul_le_mul_of_nonneg_right he hx.le
  linarith

/-- everything that the search for the modulus returns -/
theorem ellipticOrderRipples_fields {A : BisectArith ℝ} {bfuel fuel n : ℕ} {eps p s : ℝ} {P : EllipticParameters} (hp : 0 < p) (hs : 0 < s)
    (hps : s < 1 - p) (h : ellipticOrderRipples A bfuel fuel eps n p s = .ok P) :
    P.epsilon = Real.sqrt (1 / (1 - p) ^ 2 - 1) ∧ P.k1 = P.epsilon / Real.sqrt (1 / s ^ 2 - 1) ∧
    ellipticK fuel eps P.k1 = .ok (P.K1 : WithTop ℝ) ∧ ellipticK fuel eps P.k = .ok (P.K : WithTop ℝ) ∧
    ellipticK fuel eps (Real.sqrt (1 - P.k1 ^ 2)) = .ok (P.K1p : WithTop ℝ) ∧
    bisect A bfuel (degreeError eps ((n : ℝ) * P.K1 / P.K1p)) 0 1 0 = .ok P.k := by
  obtain ⟨h1, h2, h3, h4, h5⟩ := elliptic_ripples hp hs hps
  unfold ellipticOrderRipples at h
  rw [fdiv_ok h4.ne', Out.ok_bind, fsqrt_ok h1.le, Out.ok_bind, fdiv_ok (by positivity), Out.ok_bind, fsqrt_ok h2.le, Out.ok_bind,
    fdiv_ok (Real.sqrt_pos.mpr h2).ne', Out.ok_bind, h3] at h
  have hfin : ∀ {x : WithTop ℝ} {v : ℝ}, finite x = .ok v → x = (v : WithTop ℝ) := by
    intro x v hx
    induction x using WithTop.recTopCoe with
    | top => cases hx
    | coe r =>
      have : (Out.ok r : Out ℝ) = .ok v := hx
      cases this
      rfl
  obtain ⟨k1p, c1, h⟩ := Out.bind_eq_ok.mp h
  obtain ⟨K1, a1, h⟩ := Out.bind_eq_ok.mp h
  obtain ⟨K1', a2, h⟩ := Out.bind_eq_ok.mp h
  obtain ⟨K1p, c2, h⟩ := Out.bind_eq_ok.mp h
  obtain ⟨K1p', c3, h⟩ := Out.bind_eq_ok.mp h
  obtain ⟨q, c4, h⟩ := Out.bind_eq_ok.mp h
  obtain ⟨k, c5, h⟩ := Out.bind_eq_ok.mp h
  obtain ⟨kp, -, h⟩ := Out.bind_eq_ok.mp h
  obtain ⟨K, b1, h⟩ := Out.bind_eq_ok.mp h
  obtain ⟨K', b2, h⟩ := Out.bind_eq_ok.mp h
  obtain ⟨Kp, -, h⟩ := Out.bind_eq_ok.mp h
  obtain ⟨Kp', -, h⟩ := Out.bind_eq_ok.mp h
  have hP := Out.ok.inj h
  subst hP
  refine ⟨rfl, by rw [sq s], ?_, ?_, ?_, ?_⟩
  · rw [hfin a2] at a1; exact a1
  · rw [hfin b2] at b1; exact b1
  · rw [hfin c3] at c2
    have : k1p = Real.sqrt (1 - (Real.sqrt (1 / (1 - p) ^ 2 - 1) / Real.sqrt (1 / (s * s) - 1)) ^ 2) := by
      rw [fsqrt] at c1
      split at c1
      · rw [← Out.ok.inj c1]; congr 1; ring
      · cases c1
    rw [← this]
    exact c2
  · have : q = (n : ℝ) * K1' / K1p' := by
      rw [fdiv] at c4
      split at c4
      · cases c4
      · exact (Out.ok.inj c4).symm
    rw [← this]
    exact c5

/-- the values of the zeros and the poles in terms of the amplitudes of their arguments -/
theorem complexDenominator_pos {k θ ψ : ℝ} (h0 : 0 < ψ) (h1 : ψ < Real.pi / 2) : 0 < complexDenominator k θ ψ := by
  have hc : 0 < Real.cos ψ := Real.cos_pos_of_mem_Ioo ⟨by linarith, h1⟩
  rw [complexDenominator]
  have : 0 ≤ k ^ 2 * Real.sin θ ^ 2 * Real.sin ψ ^ 2 := by positivity
  have : 0 < Real.cos ψ ^ 2 := by positivity
  linarith

theorem complexSn_im_pos {k θ ψ : ℝ} (hk : k ^ 2 < 1) (t0 : 0 ≤ θ) (t1 : θ < Real.pi / 2) (h0 : 0 < ψ) (h1 : ψ < Real.pi / 2) :
    0 < (complexSn k θ ψ).im := by
  have hc : 0 < Real.cos ψ := Real.cos_pos_of_mem_Ioo ⟨by linarith, h1⟩
  have hc' : 0 < Real.cos θ := Real.cos_pos_of_mem_Ioo ⟨by linarith, t1⟩
  have hs : 0 < Real.sin ψ := Real.sin_pos_of_pos_of_lt_pi h0 (by linarith)
  have := delta_pos hk θ
  have := complexDenominator_pos (k := k) (θ := θ) h0 h1
  change 0 < Real.cos θ * jacobiDelta k θ * Real.sin ψ * Real.cos ψ / complexDenominator k θ ψ
  positivity

theorem complexSn_zero {k ψ : ℝ} (h0 : 0 < ψ) (h1 : ψ < Real.pi / 2) : I * complexSn k 0 ψ = ((-Real.tan ψ : ℝ) : ℂ) := by
  have hc : 0 < Real.cos ψ := Real.cos_pos_of_mem_Ioo ⟨by linarith, h1⟩
  apply Complex.ext
  · simp only [complexSn, mul_re, I_re, I_im, zero_mul, one_mul, zero_sub, ofReal_re, complexDenominator, Real.sin_zero, Real.cos_zero,
      jacobiDelta, Real.tan_eq_sin_div_cos]
    norm_num
    field_simp
  · simp only [complexSn, mul_im, I_re, I_im, zero_mul, one_mul, zero_add, ofReal_im, Real.sin_zero, zero_div]

/-- the loops, given the values of the elliptic functions -/
theorem elliptic_run {A : BisectArith ℝ} {bfuel fuel n : ℕ} {eps p s v0 ψ : ℝ} {P : EllipticParameters} {θ : ℕ → ℝ} {arc : ℝ} (hn : 1 ≤ n)
    (hP : ellipticOrderRipples A bfuel fuel eps n p s = .ok P) (hk0 : 0 < P.k) (hk1 : P.k ^ 2 < 1) (hε : P.epsilon ≠ 0) (hK1 : P.K1 ≠ 0)
    (harc : ellipticArcSNC fuel eps (I * ((1 / P.epsilon : ℝ) : ℂ)) P.k1 = .ok (I * arc)) (hv0 : v0 = arc * (P.K / n / P.K1))
    (hψ : ellipticSNCNDN fuel eps v0 (Real.sqrt (1 - P.k ^ 2)) = .ok (Real.sin ψ, Real.cos ψ, jacobiDelta (Real.sqrt (1 - P.k ^ 2)) ψ))
    (hψ0 : 0 < ψ) (hψ1 : ψ < Real.pi / 2)
    (h0 : n % 2 = 1 → ellipticSNCNDN fuel eps 0 P.k = .ok (Real.sin 0, Real.cos 0, jacobiDelta P.k 0))
    (hθ : ∀ j < n / 2, ellipticSNCNDN fuel eps (((2 * j + 1 + n % 2 : ℕ) : ℝ) * P.K / n) P.k =
      .ok (Real.sin (θ j), Real.cos (θ j), jacobiDelta P.k (θ j)))
    (hθ0 : ∀ j < n / 2, 0 < θ j ∧ θ j < Real.pi / 2) :
    ∃ sys, elliptic A bfuel fuel eps n p s = .ok sys ∧ sys.Reachable ∧ sys.zeros.numRoots = 2 * (n / 2) ∧ sys.poles.numRoots = n ∧
      sys.zeros.roots = rootsOf [] ((List.range (n / 2)).map fun j => I / ((P.k * Real.sin (θ j) : ℝ) : ℂ)) ∧
      sys.poles.roots = rootsOf (List.replicate (n % 2) (-Real.tan ψ)) ((List.range (n / 2)).map fun j => I * complexSn P.k (θ j) ψ) ∧
      sys.eval (0 : ℂ) = if n % 2 = 1 then 1 else ((1 - p : ℝ) : ℂ) := by
  have hn0 : (n : ℝ) ≠ 0 := by exact_mod_cast (by omega : n ≠ 0)
  have hsin : ∀ j < n / 2, P.k * Real.sin (θ j) ≠ 0 := fun j hj =>
    (mul_pos hk0 (Real.sin_pos_of_pos_of_lt_pi (hθ0 j hj).1 (by linarith [(hθ0 j hj).2, Real.pi_pos]))).ne'
  have hzero : ∀ j < n / 2, ellipticZero fuel eps n P j = .ok (I / ((P.k * Real.sin (θ j) : ℝ) : ℂ)) := by
    intro j hj
    simp only [ellipticZero]
    rw [fdiv_ok hn0, Out.ok_bind, hθ j hj, Out.ok_bind]
    simp only []
    rw [if_neg (hsin j hj)]
    rfl
  have hpole : ∀ (index i : ℕ) (t : ℝ), 2 * index + 1 - n % 2 = i →
      ellipticSNCNDN fuel eps ((i : ℝ) * P.K / n) P.k = .ok (Real.sin t, Real.cos t, jacobiDelta P.k t) →
      ellipticPole fuel eps n P ((I * arc) * ((P.K / n / P.K1 : ℝ) : ℂ)) index = .ok (I * complexSn P.k t ψ) := by
    intro index i t hi ht
    simp only [ellipticPole, hi]
    rw [fdiv_ok hn0, Out.ok_bind]
    have hre : (((P.K * (i : ℝ) / n : ℝ) : ℂ) + (I * arc) * ((P.K / n / P.K1 : ℝ) : ℂ)).re = (i : ℝ) * P.K / n := by
      simp only [add_re, mul_re, ofReal_re, ofReal_im, I_re, I_im, mul_im]
      ring
    have him : (((P.K * (i : ℝ) / n : ℝ) : ℂ) + (I * arc) * ((P.K / n / P.K1 : ℝ) : ℂ)).im = v0 := by
      rw [hv0]
      simp only [add_im, mul_re, ofReal_re, ofReal_im, I_re, I_im, mul_im]
      ring
    rw [sncndnC_of (θ := t) (ψ := ψ) hk1.le (by rw [hre]; exact ht) (by rw [him]; exact hψ),
      if_neg (complexDenominator_pos hψ0 hψ1).ne', Out.ok_bind]
    rfl
  unfold elliptic
  rw [hP, Out.ok_bind]
  obtain ⟨z0, a1, a2, a3, a4, a5, a6⟩ := resize_fresh 0 (n / 2) 0 0
  obtain ⟨p0, b1, b2, b3, b4, b5, b6⟩ := resize_fresh (n % 2) (n / 2) (-1) 0
  rw [a1, Out.ok_bind, b1, Out.ok_bind]
  obtain ⟨z, c1, c2, c3, c4, c5, c6⟩ := fillPairs (.resize .empty a1) (n / 2) a4.symm fun j => I / ((P.k * Real.sin (θ j) : ℝ) : ℂ)
  rw [forN_congr (g := fun i (p : FactoredPoly) => p.setPair i (I / ((P.k * Real.sin (θ i) : ℝ) : ℂ)))
    (fun j hj t => by rw [hzero j hj, Out.ok_bind]), c1, Out.ok_bind, fdiv_ok hε, Out.ok_bind, harc, Out.ok_bind, fdiv_ok hn0, Out.ok_bind,
    fdiv_ok hK1, Out.ok_bind]
  simp only []
  obtain ⟨p1, d1, d2, d3, d4, d5, d6⟩ := fillReals (.resize .empty b1) (n % 2) b3.symm fun _ => -Real.tan ψ
  have htan : 0 < Real.tan ψ := Real.tan_pos_of_pos_of_lt_pi_div_two hψ0 hψ1
  rw [forN_congr (g := fun i (p : FactoredPoly) => p.setReal i (-Real.tan ψ)) (fun j hj t => by
    have hj0 : j = 0 := by omega
    have hodd : n % 2 = 1 := by omega
    rw [hpole j 0 0 (by omega) (by rw [Nat.cast_zero, zero_mul, zero_div]; exact h0 hodd), Out.ok_bind, complexSn_zero hψ0 hψ1,
      cassert_true (by
        rw [ofReal_im, ofReal_re, abs_zero, abs_neg, abs_of_pos htan]
        positivity), Out.ok_bind, ofReal_re]), d1, Out.ok_bind]
  obtain ⟨q, e1, e2, e3, e4, e5, e6⟩ := fillPairs d2 (n / 2) (by omega) fun j => I * complexSn P.k (θ j) ψ
  rw [forN_congr (g := fun i (p : FactoredPoly) => p.setPair i (I * complexSn P.k (θ i) ψ))
    (fun j hj t => by rw [hpole (n % 2 + j) (2 * j + 1 + n % 2) (θ j) (by omega) (hθ j hj), Out.ok_bind]), e1, Out.ok_bind]
  have hzroots : z.roots = rootsOf [] ((List.range (n / 2)).map fun j => I / ((P.k * Real.sin (θ j) : ℝ) : ℂ)) := by
    rw [FactoredPoly.roots, c5, a5, c6, List.replicate_zero]
  have hproots : q.roots = rootsOf (List.replicate (n % 2) (-Real.tan ψ)) ((List.range (n / 2)).map fun j => I * complexSn P.k (θ j) ψ) := by
    rw [FactoredPoly.roots, e5, d6, e6]
    congr 1
    rw [List.map_const', List.length_range]
  have hznz : rootProduct z.roots 0 ≠ 0 := by
    apply rootProduct_ne_zero
    intro r hr
    rw [hzroots] at hr
    simp only [rootsOf, List.map_nil, List.nil_append, List.mem_append, List.mem_map, List.mem_range] at hr
    rcases hr with ⟨j, hj, rfl⟩ | ⟨_, ⟨j, hj, rfl⟩, rfl⟩
    · exact div_ne_zero I_ne_zero (by exact_mod_cast hsin j hj)
    · rw [map_ne_zero]
      exact div_ne_zero I_ne_zero (by exact_mod_cast hsin j hj)
  have hpnz : rootProduct q.roots 0 ≠ 0 := by
    apply rootProduct_ne_zero
    intro r hr
    rw [hproots] at hr
    simp only [rootsOf, List.mem_append, List.mem_map, List.mem_range, List.mem_replicate] at hr
    have hc : ∀ j < n / 2, I * complexSn P.k (θ j) ψ ≠ 0 := fun j hj h => by
      have := complexSn_im_pos hk1 (hθ0 j hj).1.le (hθ0 j hj).2 hψ0 hψ1
      rcases mul_eq_zero.mp h with h | h
      · exact I_ne_zero h
      · rw [h] at this; simp at this
    rcases hr with (⟨_, ⟨-, rfl⟩, rfl⟩ | ⟨j, hj, rfl⟩) | ⟨_, ⟨j, hj, rfl⟩, rfl⟩
    · exact_mod_cast (neg_lt_zero.mpr htan).ne
    · exact hc j hj
    · rw [map_ne_zero]
      exact hc j hj
  have hz0 : ((z.eval (0 : ℝ) : ℝ) : ℂ) = rootProduct z.roots 0 := by
    rw [eval_ofReal, eval_eq_rootProduct, ofReal_zero]; rfl
  have hp0 : ((q.eval (0 : ℝ) : ℝ) : ℂ) = rootProduct q.roots 0 := by
    rw [eval_ofReal, eval_eq_rootProduct, ofReal_zero]; rfl
  have hz0' : z.eval (0 : ℝ) ≠ 0 := fun h => hznz (by rw [← hz0, h, ofReal_zero])
  rw [fdiv_ok hz0', Out.ok_bind]
  refine ⟨_, rfl, ⟨c2, e2⟩, ?_, ?_, hzroots, hproots, ?_⟩
  · simp only [FactoredPoly.numRoots]; omega
  · simp only [FactoredPoly.numRoots]; omega
  · rw [zpk_value]
    simp only [ofReal_mul, ofReal_div]
    rw [hz0, hp0]
    have : (((if n % 2 = 1 then 1 else 1 - p : ℝ)) : ℂ) = if n % 2 = 1 then 1 else ((1 - p : ℝ) : ℂ) := by
      split_ifs <;> simp
    rw [this]
    field_simp

/-- **C72**: the roots of the prototype.  For every order, all ripples `0 < p` and `0 < s < 1 - p`, and every modulus that the search may
return: if the machine epsilon is small compared to the integrals, and if the modulus puts the imaginary part `V` of the argument
of the poles between zero and the complementary integral, then the zeros are `i / (k sin θ)` and the poles are `i sn`, where the
elliptic integrals of the angles differ from the multiples of `K / n`, and from `V`, by a few epsilons. -/
theorem C72_roots (eps : ℝ) (he : 2 * (1 / 2) ^ 2 ^ 14 ≤ eps) (he1 : eps ≤ 1 / 2000) (n : ℕ) (hn : 1 ≤ n) (p s : ℝ) (hp : 0 < p)
    (hs : 0 < s) (hps : s < 1 - p) (ε k1 : ℝ) (hε : ε = Real.sqrt (1 / (1 - p) ^ 2 - 1)) (hk1 : k1 = ε / Real.sqrt (1 / s ^ 2 - 1))
    (k : ℝ) (k_pos : 0 < k) (hk0 : (1 / 2) ^ 2 ^ 15 ≤ k ^ 2) (hk2 : (1 / 2) ^ 2 ^ 15 ≤ 1 - k ^ 2) (hN : 6 * n * eps * legendreK k ≤ 1)
    (V : ℝ) (hV : V = legendreF (Real.arctan (1 / ε)) (Real.sqrt (1 - k1 ^ 2)) * (legendreK k / n / legendreK k1))
    (hV0 : 5 * eps * legendreK (Real.sqrt (1 - k ^ 2)) ^ 2 < V)
    (hV1 : V + 5 * eps * legendreK (Real.sqrt (1 - k ^ 2)) ^ 2 < legendreK (Real.sqrt (1 - k ^ 2))) :
    ∃ (N : ℕ) (θ : ℕ → ℝ) (ψ : ℝ),
      (∀ j < n / 2, 0 < θ j ∧ θ j < Real.pi / 2 ∧
        |legendreF (θ j) k - ((2 * j + 1 + n % 2 : ℕ) : ℝ) / n * legendreK k| ≤ 5 * eps * legendreK k ^ 2) ∧
      0 < ψ ∧ ψ < Real.pi / 2 ∧ |legendreF ψ (Real.sqrt (1 - k ^ 2)) - V| ≤ 5 * eps * legendreK (Real.sqrt (1 - k ^ 2)) ^ 2 ∧
      ∀ fuel, N ≤ fuel → ∀ A bfuel P, ellipticOrderRipples A bfuel fuel eps n p s = .ok P → P.k = k →
        ∃ sys, elliptic A bfuel fuel eps n p s = .ok sys ∧ sys.Reachable ∧ sys.zeros.numRoots = 2 * (n / 2) ∧ sys.poles.numRoots = n ∧
          sys.zeros.roots = rootsOf [] ((List.range (n / 2)).map fun j => I / ((k * Real.sin (θ j) : ℝ) : ℂ)) ∧
          sys.poles.roots = rootsOf (List.replicate (n % 2) (-Real.tan ψ)) ((List.range (n / 2)).map fun j => I * complexSn k (θ j) ψ) ∧
          sys.eval (0 : ℂ) = if n % 2 = 1 then 1 else ((1 - p : ℝ) : ℂ) := by
  have hpow : (0 : ℝ) < (1 / 2) ^ 2 ^ 15 := by positivity
  have heps : 0 < eps := lt_of_lt_of_le (by positivity) he
  have hn0 : (0 : ℝ) < n := by exact_mod_cast hn
  have hn1 : (1 : ℝ) ≤ n := by exact_mod_cast hn
  have hk2' : k ^ 2 < 1 := by linarith
  have hkp : Real.sqrt (1 - k ^ 2) ^ 2 = 1 - k ^ 2 := Real.sq_sqrt (by linarith)
  have hkp1 : Real.sqrt (1 - k ^ 2) ^ 2 < 1 := by rw [hkp]; linarith
  obtain ⟨r1, r2, r3, r4, r5⟩ := elliptic_ripples hp hs hps
  rw [r3, ← sq s] at r5
  rw [r3] at r1
  rw [← sq s] at r2
  have hε0 : 0 < ε := by rw [hε]; exact Real.sqrt_pos.mpr r1
  have hk1lt : k1 ^ 2 < 1 := by
    rw [hk1, hε, div_pow, Real.sq_sqrt r1.le, Real.sq_sqrt r2.le, div_lt_one r2]
    exact r5
  have hKge := legendreK_ge hk2'
  have hK'ge := legendreK_ge hkp1
  have hK1ge := legendreK_ge hk1lt
  have hpi := Real.pi_gt_three
  obtain ⟨N1, v, hv, hvacc⟩ := C70_K eps heps he1 k hk2'
  obtain ⟨N2, v1, hv1, hv1acc⟩ := C70_K eps heps he1 k1 hk1lt
  obtain ⟨N3, a, ha, haacc⟩ := C70_arcsn_imaginary eps heps he1 (1 / ε) k1 (by positivity) hk1lt.le
  have hk1p : Real.sqrt (1 - k1 ^ 2) ^ 2 ≤ 1 := by rw [Real.sq_sqrt (by linarith)]; linarith [sq_nonneg k1]
  obtain ⟨K, hK⟩ : ∃ K, K = legendreK k := ⟨_, rfl⟩
  obtain ⟨K', hK'⟩ : ∃ K', K' = legendreK (Real.sqrt (1 - k ^ 2)) := ⟨_, rfl⟩
  obtain ⟨K1, hK1⟩ : ∃ K1, K1 = legendreK k1 := ⟨_, rfl⟩
  obtain ⟨F, hF⟩ : ∃ F, F = legendreF (Real.arctan (1 / ε)) (Real.sqrt (1 - k1 ^ 2)) := ⟨_, rfl⟩
  rw [← hK] at hvacc hN hV hKge
  rw [← hK'] at hV0 hV1 hK'ge
  rw [← hK1] at hv1acc hV hK1ge
  rw [← hF] at haacc hV
  have hK0 : 0 < K := by linarith
  have hK'0 : 0 < K' := by linarith
  have hK10 : 0 < K1 := by linarith
  have hVpos : 0 < V := lt_trans (by positivity) hV0
  have hF0 : 0 < F := by
    by_contra h
    have : F * (K / n / K1) ≤ 0 := mul_nonpos_of_nonpos_of_nonneg (not_lt.mp h) (by positivity)
    linarith
  have hclose := ratio_close (e := eps / 4) (by positivity) (by linarith) hK0 hK10 hF0 hn0 hvacc hv1acc haacc
  rw [← hV] at hclose
  obtain ⟨v0, hv0⟩ : ∃ v0, v0 = a * (v / n / v1) := ⟨_, rfl⟩
  rw [← hv0] at hclose
  have hv0pos : 0 < v := pos_of_close hK0 (by linarith) hvacc
  have hv1pos : 0 < v1 := pos_of_close hK10 (by linarith) hv1acc
  have heK : eps * K ≤ 1 / 6 := by
    have : 1 * (eps * K) ≤ n * (eps * K) := mul_le_mul_of_nonneg_right hn1 (by positivity)
    linarith
  have hVK' : V ≤ K' := by
    have : 0 ≤ 5 * eps * K' ^ 2 := by positivity
    linarith
  have heK' : eps * K' ≤ 1 / 5 := by
    have : (5 * (eps * K')) * K' ≤ 1 * K' := by linarith
    have := le_of_mul_le_mul_right this hK'0
    linarith
  -- the angle of the imaginary part
  obtain ⟨N4, ψ, hψ, hψacc, -⟩ := sncndn_core eps he he1 (Real.sqrt (1 - k ^ 2)) (by rw [hkp]; linarith) (by rw [← hK']; linarith) v0
  rw [← hK'] at hψacc
  have hψV : |legendreF ψ (Real.sqrt (1 - k ^ 2)) - V| ≤ 5 * eps * K' ^ 2 :=
    arg_close heps he1 (by linarith) hVpos hVK' (by rw [show eps = 4 * (eps / 4) by ring]; exact hclose) hψacc
  obtain ⟨hψ0, hψ1⟩ := quadrant hkp1 (by linarith [(abs_le.mp hψV).1]) (by rw [← hK']; linarith [(abs_le.mp hψV).2])
  -- the angles of the real parts
  have hcore := fun x : ℝ => sncndn_core eps he he1 k hk2 (by rw [← hK]; linarith) x
  choose Nθ θ hθ hθacc hθ0 using hcore
  have hθ00 : θ 0 = 0 := by
    have h := hθ0 0 (by linarith)
    rw [abs_zero, mul_zero, sub_zero] at h
    have h2 := legendreF_expands hk2' (θ 0) 0
    rw [legendreF_zero, sub_zero, sub_zero] at h2
    exact abs_eq_zero.mp (le_antisymm (h2.trans h) (abs_nonneg _))
  have hstep : 5 * eps * K ^ 2 < K / n := by
    rw [lt_div_iff₀ hn0]
    have : 5 * eps * K ^ 2 * n = (6 * n * eps * K) * (5 / 6 * K) := by ring
    rw [this]
    have : (6 * n * eps * K) * (5 / 6 * K) ≤ 1 * (5 / 6 * K) := mul_le_mul_of_nonneg_right hN (by positivity)
    linarith
  have hθj : ∀ j < n / 2, 0 < θ (((2 * j + 1 + n % 2 : ℕ) : ℝ) * v / n) ∧ θ (((2 * j + 1 + n % 2 : ℕ) : ℝ) * v / n) < Real.pi / 2 ∧
      |legendreF (θ (((2 * j + 1 + n % 2 : ℕ) : ℝ) * v / n)) k - ((2 * j + 1 + n % 2 : ℕ) : ℝ) / n * K| ≤ 5 * eps * K ^ 2 := by
    intro j hj
    obtain ⟨i, hi⟩ : ∃ i, i = 2 * j + 1 + n % 2 := ⟨_, rfl⟩
    rw [← hi]
    have hi1 : (1 : ℝ) ≤ i := by exact_mod_cast (by omega : 1 ≤ i)
    have hin : (i : ℝ) + 1 ≤ n := by exact_mod_cast (by omega : i + 1 ≤ n)
    have hq0 : 0 < (i : ℝ) / n := by positivity
    have hq1 : (i : ℝ) / n ≤ 1 := by rw [div_le_one hn0]; linarith
    have hl : K / n ≤ (i : ℝ) / n * K := by
      rw [div_mul_eq_mul_div]
      gcongr
      exact le_mul_of_one_le_left hK0.le hi1
    have hu : (i : ℝ) / n * K + K / n ≤ K := by
      rw [div_mul_eq_mul_div, ← add_div, div_le_iff₀ hn0, ← add_one_mul, mul_comm K]
      exact mul_le_mul_of_nonneg_right hin hK0.le
    have hx : (i : ℝ) * v / n = (i : ℝ) / n * v := by ring
    have hacc := hθacc ((i : ℝ) * v / n)
    rw [← hK, hx] at hacc
    rw [hx]
    generalize (i : ℝ) / n = q at hq0 hq1 hl hu hacc ⊢
    have hqK : 0 < q * K := by positivity
    have h3 : |legendreF (θ (q * v)) k - q * K| ≤ 5 * eps * K ^ 2 := by
      refine arg_close heps he1 (by linarith) hqK (mul_le_of_le_one_left hK0.le hq1) ?_ hacc
      rw [← mul_sub, abs_mul, abs_of_pos hq0]
      calc q * |v - K| ≤ q * (eps / 4 * K) := mul_le_mul_of_nonneg_left hvacc hq0.le
        _ ≤ eps * (q * K) := by
          have : 0 ≤ eps * (q * K) := by positivity
          linarith
    obtain ⟨b1, b2⟩ := abs_le.mp h3
    obtain ⟨c1, c2⟩ := quadrant hk2' (by linarith : 0 < legendreF (θ (q * v)) k) (by rw [← hK]; linarith)
    exact ⟨c1, c2, h3⟩
  clear hclose hvacc hv1acc haacc hψacc hθacc hθ0 hstep
  obtain ⟨N5, hN5⟩ : ∃ N, ∀ j < n / 2, Nθ (((2 * j + 1 + n % 2 : ℕ) : ℝ) * v / n) ≤ N :=
    ⟨(Finset.range (n / 2)).sup fun j => Nθ (((2 * j + 1 + n % 2 : ℕ) : ℝ) * v / n), fun j hj =>
      Finset.le_sup (f := fun j => Nθ (((2 * j + 1 + n % 2 : ℕ) : ℝ) * v / n)) (Finset.mem_range.mpr hj)⟩
  refine ⟨N1 + N2 + N3 + N4 + N5 + Nθ 0, fun j => θ (((2 * j + 1 + n % 2 : ℕ) : ℝ) * v / n), ψ, fun j hj => by rw [← hK]; exact hθj j hj,
    hψ0, hψ1, by rw [← hK']; exact hψV, fun fuel hf A bfuel P hP hPk => ?_⟩
  obtain ⟨f1, f2, f3, f4, -, -⟩ := ellipticOrderRipples_fields hp hs hps hP
  have hPe : P.epsilon = ε := by rw [f1, hε]
  have hPk1 : P.k1 = k1 := by rw [f2, hPe, hk1]
  have hPK1 : P.K1 = v1 := by
    rw [hPk1, hv1 fuel (by omega)] at f3
    exact (WithTop.coe_inj.mp (Out.ok.inj f3)).symm
  have hPK : P.K = v := by
    rw [hPk, hv fuel (by omega)] at f4
    exact (WithTop.coe_inj.mp (Out.ok.inj f4)).symm
  have := elliptic_run (ψ := ψ) (v0 := v0) (θ := fun j => θ (((2 * j + 1 + n % 2 : ℕ) : ℝ) * v / n)) (arc := a) hn hP (by rw [hPk]; exact k_pos)
    (by rw [hPk]; exact hk2') (by rw [hPe]; exact hε0.ne') (by rw [hPK1]; exact hv1pos.ne')
    (by rw [hPe, hPk1]; exact ha fuel (by omega)) (by rw [hPK, hPK1]; exact hv0)
    (by rw [hPk]; exact hψ fuel (by omega)) hψ0 hψ1
    (fun _ => by have h := hθ 0 fuel (by omega); rw [hθ00] at h; rw [hPk]; exact h)
    (fun j hj => by rw [hPk, hPK]; exact hθ _ fuel (by have := hN5 j hj; omega))
    (fun j hj => ⟨(hθj j hj).1, (hθj j hj).2.1⟩)
  rw [hPk] at this
  exact this

end Verif
