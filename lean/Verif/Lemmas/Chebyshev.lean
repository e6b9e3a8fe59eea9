import Verif.Lemmas.Prototypes
import Mathlib.Analysis.SpecialFunctions.Trigonometric.Chebyshev.RootsExtrema
import Mathlib.Analysis.SpecialFunctions.Arsinh
import Mathlib.Analysis.SpecialFunctions.Pow.Real
import Mathlib.RingTheory.RootsOfUnity.Lemmas

/-!
# Facts about the Chebyshev prototypes
-/

set_option linter.unusedSimpArgs false

namespace Verif
open Complex

/-- `acos` on the imaginary axis -/
theorem cacos_imag (y : ℝ) : cacos (I * y) = (Real.pi / 2 : ℝ) - I * (Real.arsinh y : ℝ) := by
  have h1 : (1 : ℂ) - I * y * (I * y) = ((1 + y ^ 2 : ℝ) : ℂ) := by
    rw [show I * (y : ℂ) * (I * y) = I * I * (y * y) by ring, I_mul_I]; push_cast; ring
  have h2 : csqrt ((1 + y ^ 2 : ℝ) : ℂ) = (Real.sqrt (1 + y ^ 2) : ℝ) := by
    unfold csqrt
    rw [Real.sqrt_eq_rpow, Complex.ofReal_cpow (by positivity)]
    norm_num
  have hpos : 0 < y + Real.sqrt (1 + y ^ 2) := by rw [← Real.exp_arsinh]; exact Real.exp_pos _
  unfold cacos
  rw [h1, h2, show I * (y : ℂ) + I * (Real.sqrt (1 + y ^ 2) : ℝ) = ((y + Real.sqrt (1 + y ^ 2) : ℝ) : ℂ) * I by push_cast; ring,
    log_ofReal_mul hpos I_ne_zero, log_I, Real.arsinh]
  push_cast
  linear_combination (-(Real.pi : ℂ) / 2) * I_mul_I

/-- the angle of the Chebyshev pole `k` -/
noncomputable def chebAngle (n k : ℕ) : ℝ := Real.pi * (2 * k + 1) / (2 * n)

/-- the poles of the Chebyshev I prototype: on an ellipse -/
noncomputable def chebPole (n : ℕ) (b : ℝ) (k : ℕ) : ℂ := I * Complex.cos (chebAngle n k - b * I)

theorem chebyshev1Pole_eq (n k : ℕ) (hn : 0 < n) (ε : ℝ) :
    chebyshev1Pole k n ε = chebPole n (Real.arsinh (1 / ε) / n) k := by
  unfold chebyshev1Pole chebPole chebAngle
  simp only
  have h : I / (ε : ℂ) = I * ((1 / ε : ℝ) : ℂ) := by push_cast; ring
  rw [h, cacos_imag]
  congr 2
  have hn' : (n : ℂ) ≠ 0 := by exact_mod_cast hn.ne'
  push_cast
  field_simp
  ring

theorem chebPole_parts (n : ℕ) (b : ℝ) (k : ℕ) :
    (chebPole n b k).re = -(Real.sin (chebAngle n k) * Real.sinh b) ∧
    (chebPole n b k).im = Real.cos (chebAngle n k) * Real.cosh b := by
  unfold chebPole
  rw [Complex.cos_sub, Complex.cos_mul_I, Complex.sin_mul_I, ← ofReal_cos, ← ofReal_sin, ← ofReal_cosh, ← ofReal_sinh]
  constructor <;> simp [-ofReal_cos, -ofReal_sin, -ofReal_cosh, -ofReal_sinh]

theorem chebAngle_mem {n k : ℕ} (h : k < n) : 0 < chebAngle n k ∧ chebAngle n k < Real.pi := by
  unfold chebAngle
  have hn : (0 : ℝ) < n := by exact_mod_cast (by omega : 0 < n)
  have hk : (k : ℝ) + 1 ≤ n := by exact_mod_cast h
  have hk0 : (0 : ℝ) ≤ k := Nat.cast_nonneg k
  have hpi := Real.pi_pos
  constructor
  · positivity
  · rw [div_lt_iff₀ (by positivity)]
    nlinarith

theorem chebAngle_reflect {n k : ℕ} (h : k < n) : chebAngle n (n - 1 - k) = Real.pi - chebAngle n k := by
  unfold chebAngle
  have hn : (n : ℝ) ≠ 0 := by exact_mod_cast (by omega : n ≠ 0)
  rw [Nat.cast_sub (by omega), Nat.cast_sub (by omega)]
  push_cast
  field_simp
  ring

theorem chebPole_conj {n k : ℕ} (b : ℝ) (h : k < n) : (starRingEnd ℂ) (chebPole n b k) = chebPole n b (n - 1 - k) := by
  obtain ⟨h1, h2⟩ := chebPole_parts n b k
  obtain ⟨h3, h4⟩ := chebPole_parts n b (n - 1 - k)
  apply Complex.ext
  · rw [conj_re, h1, h3, chebAngle_reflect h, Real.sin_pi_sub]
  · rw [conj_im, h2, h4, chebAngle_reflect h, Real.cos_pi_sub]; ring

theorem chebAngle_mid {n : ℕ} (h : n % 2 = 1) : chebAngle n (n / 2) = Real.pi / 2 := by
  unfold chebAngle
  have hn : (n : ℝ) ≠ 0 := by exact_mod_cast (by omega : n ≠ 0)
  have h2 : 2 * ((n / 2 : ℕ) : ℝ) + 1 = n := by exact_mod_cast (by omega : 2 * (n / 2) + 1 = n)
  rw [h2]
  field_simp

theorem chebPole_mid {n : ℕ} (b : ℝ) (h : n % 2 = 1) : chebPole n b (n / 2) = ((chebPole n b (n / 2)).re : ℂ) := by
  apply Complex.ext
  · simp
  · rw [(chebPole_parts n b (n / 2)).2, chebAngle_mid h]; simp

theorem chebPole_re_neg {n k : ℕ} {b : ℝ} (hb : 0 < b) (h : k < n) : (chebPole n b k).re < 0 := by
  rw [(chebPole_parts n b k).1]
  have := Real.sin_pos_of_pos_of_lt_pi (chebAngle_mem h).1 (chebAngle_mem h).2
  have := Real.sinh_pos_iff.2 hb
  nlinarith

theorem chebPole_re_pos {n k : ℕ} {b : ℝ} (hb : b < 0) (h : k < n) : 0 < (chebPole n b k).re := by
  rw [(chebPole_parts n b k).1]
  have := Real.sin_pos_of_pos_of_lt_pi (chebAngle_mem h).1 (chebAngle_mem h).2
  have := Real.sinh_neg_iff.2 hb
  nlinarith

/-! ### products of differences of cosines -/

theorem prod_cos_sub (N : ℕ) (hN : 0 < N) (φ θ : ℂ) :
    ∏ j ∈ Finset.range N, (2 * Complex.cos φ - 2 * Complex.cos (θ + 2 * Real.pi * j / N)) =
      2 * Complex.cos (N * φ) - 2 * Complex.cos (N * θ) := by
  have hN' : (N : ℂ) ≠ 0 := by exact_mod_cast hN.ne'
  have h1 := prod_pow_sub N hN (exp (φ * I)) (exp (θ * I))
  have h2 := prod_pow_sub N hN (exp (-φ * I)) (exp (θ * I))
  have hx : ∀ j ∈ Finset.range N, 2 * Complex.cos φ - 2 * Complex.cos (θ + 2 * Real.pi * j / N) =
      -((exp (φ * I) - exp (2 * Real.pi * I / N) ^ j * exp (θ * I)) * (exp (-φ * I) - exp (2 * Real.pi * I / N) ^ j * exp (θ * I))) *
        (exp (-(θ + 2 * Real.pi * j / N) * I)) := by
    intro j _
    have e0 : exp (2 * Real.pi * I / N) ^ j * exp (θ * I) = exp ((θ + 2 * Real.pi * j / N) * I) := by
      rw [← exp_nat_mul, ← exp_add]
      congr 1
      field_simp
      ring
    rw [e0]
    generalize θ + 2 * Real.pi * j / N = ψ
    rw [two_cos, two_cos]
    have ea : exp (φ * I) * exp (-φ * I) = 1 := by rw [← exp_add]; simp
    have eb : exp (ψ * I) * exp (-ψ * I) = 1 := by rw [← exp_add]; simp
    generalize exp (φ * I) = a at *
    generalize exp (-φ * I) = a' at *
    generalize exp (ψ * I) = c at *
    generalize exp (-ψ * I) = c' at *
    linear_combination c' * ea + (-(a + a') + c) * eb
  rw [Finset.prod_congr rfl hx, Finset.prod_mul_distrib, Finset.prod_neg, Finset.card_range, Finset.prod_mul_distrib, h1, h2]
  have hp : ∏ j ∈ Finset.range N, exp (-(θ + 2 * Real.pi * j / N) * I) = (-1) ^ (N - 1) * exp (-(N * θ) * I) := by
    rw [← exp_sum]
    have hs : ∑ j ∈ Finset.range N, -(θ + 2 * Real.pi * j / N) * I = ((N - 1 : ℕ) : ℂ) * (-(Real.pi * I)) + -(N * θ) * I := by
      have hg : (∑ j ∈ Finset.range N, (j : ℂ)) * 2 = N * ((N - 1 : ℕ) : ℂ) := by
        rw [← Nat.cast_sum]; exact_mod_cast Finset.sum_range_id_mul_two N
      have : ∀ j ∈ Finset.range N, -(θ + 2 * Real.pi * j / N) * I = -θ * I + (-(2 * Real.pi * I / N)) * j := by
        intro j _; ring
      rw [Finset.sum_congr rfl this, Finset.sum_add_distrib, Finset.sum_const, Finset.card_range, ← Finset.mul_sum, nsmul_eq_mul]
      have hg' : ∑ j ∈ Finset.range N, (j : ℂ) = N * ((N - 1 : ℕ) : ℂ) / 2 := by
        rw [eq_div_iff two_ne_zero, hg]
      rw [hg']
      field_simp
      ring
    rw [hs, exp_add, exp_nat_mul, exp_neg, exp_pi_mul_I]
    norm_num
  rw [hp, two_cos, two_cos]
  have hsgn : (-1 : ℂ) ^ N * (-1) ^ (N - 1) = -1 := by
    rw [← pow_add, show N + (N - 1) = 2 * (N - 1) + 1 by omega, pow_succ, pow_mul]; simp
  have ea : exp (φ * I) ^ N = exp (N * φ * I) := by rw [← exp_nat_mul]; congr 1; ring
  have ea' : exp (-φ * I) ^ N = exp (-(N * φ) * I) := by rw [← exp_nat_mul]; congr 1; ring
  have ec : exp (θ * I) ^ N = exp (N * θ * I) := by rw [← exp_nat_mul]; congr 1; ring
  rw [ea, ea', ec]
  have eA : exp (N * φ * I) * exp (-(N * φ) * I) = 1 := by rw [← exp_add]; simp
  have eC : exp (N * θ * I) * exp (-(N * θ) * I) = 1 := by rw [← exp_add]; simp
  generalize exp (N * φ * I) = a at *
  generalize exp (-(N * φ) * I) = a' at *
  generalize exp (N * θ * I) = c at *
  generalize exp (-(N * θ) * I) = c' at *
  generalize (-1 : ℂ) ^ N = s at *
  generalize (-1 : ℂ) ^ (N - 1) = s' at *
  linear_combination ((a - c) * (a' - c) * c') * hsgn - c' * eA + (a + a' - c) * eC

/-- the value of the Chebyshev polynomial of the first kind -/
noncomputable abbrev chebT (n : ℕ) (w : ℝ) : ℝ := (Polynomial.Chebyshev.T ℝ n).eval w

theorem prod_all_angles (n : ℕ) (hn : 0 < n) (b w : ℝ) :
    ∏ j ∈ Finset.range (2 * n), ((w : ℂ) - Complex.cos (chebAngle n j - b * I)) =
      (((chebT n w ^ 2 + Real.sinh (n * b) ^ 2) * 4 / 4 ^ n : ℝ) : ℂ) := by
  obtain ⟨φ, hφ⟩ := Complex.cos_surjective (w : ℂ)
  have hn' : (n : ℂ) ≠ 0 := by exact_mod_cast hn.ne'
  have h := prod_cos_sub (2 * n) (by omega) φ ((chebAngle n 0 : ℝ) - b * I)
  have hang : ∀ j : ℕ, ((chebAngle n 0 : ℝ) : ℂ) - b * I + 2 * Real.pi * j / (2 * n : ℕ) = (chebAngle n j : ℝ) - b * I := by
    intro j
    unfold chebAngle
    push_cast
    field_simp
    ring
  have hx : ∀ j ∈ Finset.range (2 * n), 2 * Complex.cos φ - 2 * Complex.cos ((chebAngle n 0 : ℝ) - b * I + 2 * Real.pi * j / (2 * n : ℕ)) =
      2 * ((w : ℂ) - Complex.cos (chebAngle n j - b * I)) := by
    intro j _
    rw [hang j, hφ]
    ring
  rw [Finset.prod_congr rfl hx, Finset.prod_mul_distrib, Finset.prod_const, Finset.card_range] at h
  have hT : Complex.cos (n * φ) = (chebT n w : ℝ) := by
    have := Polynomial.Chebyshev.T_complex_cos φ n
    rw [hφ] at this
    rw [Polynomial.Chebyshev.complex_ofReal_eval_T, this]
    push_cast
    rfl
  have h1 : Complex.cos ((2 * n : ℕ) * φ) = 2 * (chebT n w : ℝ) ^ 2 - 1 := by
    rw [← hT, ← Complex.cos_two_mul]
    congr 1
    push_cast
    ring
  have h2 : Complex.cos ((2 * n : ℕ) * ((chebAngle n 0 : ℝ) - b * I)) = -(1 + 2 * (Real.sinh (n * b) : ℝ) ^ 2) := by
    have e : ((2 * n : ℕ) : ℂ) * ((chebAngle n 0 : ℝ) - b * I) = Real.pi - (2 * (n * b : ℝ)) * I := by
      unfold chebAngle
      push_cast
      field_simp
      ring
    rw [e, Complex.cos_pi_sub, Complex.cos_mul_I]
    have := Real.cosh_two_mul (n * b)
    have h3 := Real.cosh_sq (n * b)
    have h4 : Real.cosh (2 * (n * b)) = 1 + 2 * Real.sinh (n * b) ^ 2 := by linarith
    have h5 := congrArg (fun x : ℝ => (x : ℂ)) h4
    push_cast at h5 ⊢
    rw [h5]
  rw [h1, h2] at h
  have h4 : (2 : ℂ) ^ (2 * n) = 4 ^ n := by rw [pow_mul]; norm_num
  rw [h4] at h
  have h4n : (4 : ℂ) ^ n ≠ 0 := pow_ne_zero _ (by norm_num)
  push_cast at h ⊢
  rw [eq_div_iff h4n]
  linear_combination h

/-- the squared magnitude of the pole polynomial on the imaginary axis -/
theorem cheb_normSq (n : ℕ) (hn : 0 < n) (b w : ℝ) :
    ∏ k ∈ Finset.range n, normSq (I * w - chebPole n b k) = (chebT n w ^ 2 + Real.sinh (n * b) ^ 2) * 4 / 4 ^ n := by
  have hall := prod_all_angles n hn b w
  rw [two_mul, Finset.prod_range_add] at hall
  have hconj : ∀ k ∈ Finset.range n, (w : ℂ) - Complex.cos (chebAngle n (n + (n - 1 - k)) - b * I) =
      (starRingEnd ℂ) ((w : ℂ) - Complex.cos (chebAngle n k - b * I)) := by
    intro k hk
    have hk := Finset.mem_range.1 hk
    rw [map_sub, conj_ofReal, ← Complex.cos_conj, map_sub, conj_ofReal, map_mul, conj_ofReal, conj_I]
    congr 1
    have e : chebAngle n (n + (n - 1 - k)) = 2 * Real.pi - chebAngle n k := by
      unfold chebAngle
      have hn : (n : ℝ) ≠ 0 := by exact_mod_cast (by omega : n ≠ 0)
      rw [Nat.cast_add, Nat.cast_sub (by omega), Nat.cast_sub (by omega)]
      push_cast
      field_simp
      ring
    rw [e, ← Complex.cos_neg (_ - b * -I), ← Complex.cos_add_two_pi (-_)]
    congr 1
    push_cast
    ring
  rw [← Finset.prod_range_reflect (fun k => (w : ℂ) - Complex.cos (chebAngle n (n + k) - b * I)), ← Finset.prod_mul_distrib,
    Finset.prod_congr rfl fun k hk => by rw [hconj k hk, mul_conj]] at hall
  rw [← Complex.ofReal_prod] at hall
  have := Complex.ofReal_injective hall
  rw [← this]
  refine Finset.prod_congr rfl fun k _ => ?_
  unfold chebPole
  rw [← mul_sub, normSq_mul, normSq_I, one_mul]

theorem cheb_roots_sq (n : ℕ) (hn : 0 < n) (w : ℝ) :
    (∏ k ∈ Finset.range n, (w - Real.cos (chebAngle n k))) ^ 2 = chebT n w ^ 2 * 4 / 4 ^ n := by
  have h := cheb_normSq n hn 0 w
  rw [mul_zero, Real.sinh_zero] at h
  rw [show chebT n w ^ 2 * 4 / 4 ^ n = (chebT n w ^ 2 + 0 ^ 2) * 4 / 4 ^ n by ring, ← h, ← Finset.prod_pow]
  refine Finset.prod_congr rfl fun k _ => ?_
  unfold chebPole
  rw [← mul_sub, normSq_mul, normSq_I, one_mul, show ((chebAngle n k : ℝ) : ℂ) - ((0 : ℝ) : ℂ) * I = (chebAngle n k : ℝ) by simp,
    ← ofReal_cos, ← ofReal_sub, normSq_ofReal]
  ring

/-! ### the prototypes -/

theorem chebyshev_poles (n : ℕ) (Q : ℕ → ℂ) (hQ : ∀ k < n, (starRingEnd ℂ) (Q k) = Q (n - 1 - k))
    (hr : n % 2 = 1 → Q (n / 2) = ((Q (n / 2)).re : ℂ)) :
    ∃ q0 q1 q, FactoredPoly.empty.resize (n % 2) (n / 2) 0 0 = .ok q0 ∧
      forN (n / 2) (fun index (poles : FactoredPoly) => poles.setPair index (Q index)) q0 = .ok q1 ∧
      forN (n % 2) (fun i (poles : FactoredPoly) => poles.setReal i (Q (n / 2)).re) q1 = .ok q ∧
      q.Reachable ∧ q.numRoots = n ∧ q.roots.Perm ((List.range n).map Q) := by
  obtain ⟨q0, a1, a2, a3, a4, a5, a6⟩ := resize_fresh (n % 2) (n / 2) 0 0
  obtain ⟨q1, b1, b2, b3, b4, b5, b6⟩ := fillPairs (.resize .empty a1) (n / 2) a4.symm Q
  obtain ⟨q, c1, c2, c3, c4, c5, c6⟩ := fillReals b2 (n % 2) (by omega) (fun _ => (Q (n / 2)).re)
  refine ⟨q0, q1, q, a1, b1, c1, c2, by simp only [FactoredPoly.numRoots]; omega, ?_⟩
  simp only [FactoredPoly.roots]
  rw [c5, c6, b6]
  have e : (List.range (n % 2)).map (fun _ => (Q (n / 2)).re) = List.replicate (n % 2) (Q (n / 2)).re := by simp
  rw [e]
  exact symmetric_roots n Q _ hQ hr

theorem conjugateClosed_roots (p : FactoredPoly) : ConjugateClosed p.roots := by
  unfold ConjugateClosed FactoredPoly.roots rootsOf
  simp only [List.map_append, List.map_map]
  have e1 : (starRingEnd ℂ) ∘ ofReal = ofReal := by funext r; simp
  have e2 : (starRingEnd ℂ) ∘ (starRingEnd ℂ) = (id : ℂ → ℂ) := by funext r; simp
  rw [e1, e2, List.map_id, List.append_assoc, List.append_assoc]
  exact List.Perm.append_left _ List.perm_append_comm

theorem chebyshev1_spec (n : ℕ) (h1 : 1 ≤ n) (h32 : n ≤ 32) (r : ℝ) (hr1 : r ≠ 1) (ε : ℝ)
    (hε : ε = Real.sqrt (1 / (1 - r) ^ 2 - 1)) (hε0 : ε ≠ 0) :
    ∃ sys, chebyshev1 n r = .ok sys ∧ sys.Reachable ∧ sys.gain = 1 / (2 ^ (n - 1) * ε) ∧ sys.zeros.numRoots = 0 ∧ sys.zeros.roots = [] ∧
      sys.poles.numRoots = n ∧ sys.poles.roots.Perm ((List.range n).map (chebPole n (Real.arsinh (1 / ε) / n))) := by
  obtain ⟨b, hb⟩ : ∃ b, b = Real.arsinh (1 / ε) / n := ⟨_, rfl⟩
  rw [← hb]
  have hQ : ∀ k, chebyshev1Pole k n ε = chebPole n b k := fun k => by rw [chebyshev1Pole_eq n k (by omega), hb]
  obtain ⟨q0, q1, q, a1, a2, a3, a4, a5, a6⟩ := chebyshev_poles n (chebPole n b) (fun k hk => chebPole_conj b hk)
    (fun h => chebPole_mid b h)
  have hg : (2 : ℝ) ^ (n - 1) * ε ≠ 0 := mul_ne_zero (pow_ne_zero _ (by norm_num)) hε0
  refine ⟨⟨1 / (2 ^ (n - 1) * ε), FactoredPoly.empty, q⟩, ?_, ⟨.empty, a4⟩, rfl, rfl, ?_, a5, a6⟩
  · unfold chebyshev1
    rw [fdiv_ok (pow_ne_zero _ (sub_ne_zero.2 (Ne.symm hr1))), Out.ok_bind]
    simp only
    rw [← hε, if_pos ⟨h1, h32⟩, Out.ok_bind, fdiv_ok hg, Out.ok_bind, a1, Out.ok_bind]
    simp only [hQ]
    rw [a2, Out.ok_bind, a3, Out.ok_bind]
    rfl
  · simp [FactoredPoly.roots, FactoredPoly.empty, FactoredPoly.realRoots, FactoredPoly.complexPairs, rootsOf]

theorem normSq_rootProduct (n : ℕ) (Q : ℕ → ℂ) (x : ℂ) :
    normSq (rootProduct ((List.range n).map Q) x) = ∏ k ∈ Finset.range n, normSq (x - Q k) := by
  rw [rootProduct_range, map_prod]

/-- the zeros of the Chebyshev II prototype -/
noncomputable def chebZero (n k : ℕ) : ℂ := I / (Real.cos (chebAngle n k) : ℝ)

theorem chebyshev2Zero_eq (n k : ℕ) : chebyshev2Zero k n = chebZero n k := by
  unfold chebyshev2Zero chebZero chebAngle
  have e : Real.pi / 2 * ((2 * k + 1 : ℕ) : ℝ) / (n : ℝ) = Real.pi * (2 * k + 1) / (2 * n) := by push_cast; ring
  rw [e]
  generalize ((Real.cos (Real.pi * (2 * k + 1) / (2 * n)) : ℝ) : ℂ) = c
  rw [one_div, mul_inv, inv_neg, inv_I, neg_neg, div_eq_mul_inv]

theorem chebyshev2_spec (n : ℕ) (r ε : ℝ) (hr : r * r < 1) (hε : ε = r / Real.sqrt (1 - r * r)) (hε0 : 0 < n → ε ≠ 0) :
    ∃ sys, chebyshev2 n r = .ok sys ∧ sys.Reachable ∧ sys.gain = (if n % 2 = 0 then r else ε * n) ∧
      sys.zeros.numRoots = 2 * (n / 2) ∧ sys.zeros.roots = rootsOf [] ((List.range (n / 2)).map (chebZero n)) ∧
      sys.poles.numRoots = n ∧ sys.poles.roots.Perm ((List.range n).map fun k => 1 / chebPole n (Real.arsinh (1 / ε) / n) k) := by
  obtain ⟨b, hb⟩ : ∃ b, b = Real.arsinh (1 / ε) / n := ⟨_, rfl⟩
  rw [← hb]
  have hQ : ∀ k, 0 < n → chebyshev2Pole k n ε = 1 / chebPole n b k := fun k hn => by
    unfold chebyshev2Pole; rw [chebyshev1Pole_eq n k hn, hb]
  obtain ⟨q0, q1, q, a1, a2, a3, a4, a5, a6⟩ := chebyshev_poles n (fun k => 1 / chebPole n b k)
    (fun k hk => by rw [map_div₀, map_one, chebPole_conj b hk])
    (fun h => by
      rw [chebPole_mid b h]
      generalize (chebPole n b (n / 2)).re = x
      rw [← ofReal_one, ← ofReal_div, ofReal_re])
  obtain ⟨z0, d1, d2, d3, d4, d5, d6⟩ := resize_fresh 0 (n / 2) 0 0
  obtain ⟨z, e1, e2, e3, e4, e5, e6⟩ := fillPairs (.resize .empty d1) (n / 2) d4.symm (chebZero n)
  have hs : Real.sqrt (1 - r * r) ≠ 0 := (Real.sqrt_pos.2 (by linarith)).ne'
  refine ⟨⟨if n % 2 = 0 then r else ε * n, z, q⟩, ?_, ⟨e2, a4⟩, rfl, by simp only [FactoredPoly.numRoots]; omega, ?_, a5, a6⟩
  · unfold chebyshev2
    rw [fdiv_ok hs, Out.ok_bind, ← hε, if_neg (fun h => hε0 h.1 h.2), Out.ok_bind]
    simp only
    rw [a1, Out.ok_bind, d1, Out.ok_bind]
    by_cases hn : 0 < n
    · simp only [hQ _ hn, chebyshev2Zero_eq]
      rw [a2, Out.ok_bind, a3, Out.ok_bind, e1, Out.ok_bind]
      rfl
    · obtain rfl : n = 0 := by omega
      have h1 : q1 = q0 := (Out.ok.inj a2).symm
      have h2 : q = q1 := (Out.ok.inj a3).symm
      have h3 : z = z0 := (Out.ok.inj e1).symm
      rw [h2, h1, h3]
      rfl
  · simp only [FactoredPoly.roots]
    rw [e5, d5, e6]
    simp

end Verif
