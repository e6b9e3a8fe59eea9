import Verif.Lemmas.Chebyshev
import Verif.Props.IirDesign

/-!
# C62, C63: the Chebyshev prototypes, and the filters designed from them

`chebT n w` is the value at `w` of Mathlib's Chebyshev polynomial of the first kind.
-/

set_option linter.unusedSimpArgs false

namespace Verif
open Complex

/-! ### C62: type I -/

theorem cheb1_epsilon {r ε : ℝ} (h0 : 0 < r) (h1 : r < 1) (hε : ε = Real.sqrt (1 / (1 - r) ^ 2 - 1)) :
    0 < ε ∧ ε ^ 2 = 1 / (1 - r) ^ 2 - 1 := by
  have hp : 0 < 1 / (1 - r) ^ 2 - 1 := by
    have h2 : 0 < (1 - r) ^ 2 := by nlinarith
    rw [sub_pos, lt_div_iff₀ h2]
    nlinarith
  exact ⟨by rw [hε]; exact Real.sqrt_pos.2 hp, by rw [hε, Real.sq_sqrt hp.le]⟩

/-- **C62**: for all orders the library supports and all ripples between 0 and 1, the prototype exists, has exactly `n` poles and no
zeros; its poles are in the open left half plane and closed under conjugation. -/
theorem C62_poles (n : ℕ) (hn : 1 ≤ n) (h32 : n ≤ 32) (r : ℝ) (h0 : 0 < r) (h1 : r < 1) :
    ∃ sys, chebyshev1 n r = .ok sys ∧ sys.Reachable ∧ sys.zeros.roots = [] ∧ sys.zeros.numRoots = 0 ∧
      sys.poles.roots.length = n ∧ sys.poles.numRoots = n ∧ ConjugateClosed sys.poles.roots ∧
      ∀ p ∈ sys.poles.roots, p.re < 0 := by
  obtain ⟨he, -⟩ := cheb1_epsilon h0 h1 rfl
  obtain ⟨sys, a1, a2, a3, a4, a5, a6, a7⟩ := chebyshev1_spec n hn h32 r h1.ne _ rfl he.ne'
  refine ⟨sys, a1, a2, a5, a4, by rw [a7.length_eq]; simp, a6, conjugateClosed_roots _, fun p hp => ?_⟩
  obtain ⟨k, hk, rfl⟩ := List.mem_map.1 ((a7.mem_iff).1 hp)
  refine chebPole_re_neg ?_ (List.mem_range.1 hk)
  have : (0 : ℝ) < n := by exact_mod_cast hn
  have := Real.arsinh_pos_iff.2 (one_div_pos.2 he)
  positivity

/-- **C62**: it is a stable prototype in the sense of the designs of C61. -/
theorem C62_prototype (n : ℕ) (hn : 1 ≤ n) (h32 : n ≤ 32) (r : ℝ) (h0 : 0 < r) (h1 : r < 1) :
    ∃ sys, chebyshev1 n r = .ok sys ∧ sys.IsPrototype n := by
  obtain ⟨sys, a1, a2, a3, a4, a5, a6, a7, a8⟩ := C62_poles n hn h32 r h0 h1
  exact ⟨sys, a1, a2, by omega, a6, by rw [a3]; simp, a8⟩

/-- **C62**: `|H(iw)|² = 1 / (1 + ε² T_n(w)²)` where `ε² = 1 / (1 - ripple)² - 1`. -/
theorem C62_magnitude (n : ℕ) (hn : 1 ≤ n) (h32 : n ≤ 32) (r : ℝ) (h0 : 0 < r) (h1 : r < 1) (sys : Zpk) (hs : chebyshev1 n r = .ok sys)
    (w : ℝ) : ‖sys.eval (I * (w : ℂ))‖ ^ 2 = 1 / (1 + (1 / (1 - r) ^ 2 - 1) * chebT n w ^ 2) := by
  obtain ⟨ε, hε⟩ : ∃ ε, ε = Real.sqrt (1 / (1 - r) ^ 2 - 1) := ⟨_, rfl⟩
  obtain ⟨he, he2⟩ := cheb1_epsilon h0 h1 hε
  obtain ⟨sys', a1, a2, a3, a4, a5, a6, a7⟩ := chebyshev1_spec n hn h32 r h1.ne ε hε he.ne'
  rw [hs] at a1
  cases a1
  have hn' : (n : ℝ) ≠ 0 := by exact_mod_cast (by omega : n ≠ 0)
  rw [zpk_value, a3, a5, rootProduct_perm a7, ← Complex.normSq_eq_norm_sq, normSq_div, normSq_rootProduct, cheb_normSq n (by omega),
    mul_div_cancel₀ _ hn', Real.sinh_arsinh, ← he2]
  have hnum : normSq (((1 / (2 ^ (n - 1) * ε) : ℝ) : ℂ) * rootProduct [] (I * w)) = 4 / (4 ^ n * ε ^ 2) := by
    have : rootProduct [] (I * w) = 1 := by simp [rootProduct]
    rw [this, mul_one, normSq_ofReal]
    have h4 : (4 : ℝ) ^ n = 4 * (2 ^ (n - 1) * 2 ^ (n - 1)) := by
      obtain ⟨m, rfl⟩ : ∃ m, n = m + 1 := ⟨n - 1, by omega⟩
      rw [Nat.add_sub_cancel, ← mul_pow, pow_succ]
      norm_num
      ring
    rw [h4]
    have h2 : (2 : ℝ) ^ (n - 1) ≠ 0 := pow_ne_zero _ (by norm_num)
    field_simp
  rw [hnum]
  have h4 : (4 : ℝ) ^ n ≠ 0 := pow_ne_zero _ (by norm_num)
  have hd : 1 + ε ^ 2 * chebT n w ^ 2 ≠ 0 := by positivity
  have hd' : chebT n w ^ 2 * ε ^ 2 + 1 ≠ 0 := by positivity
  field_simp
  ring

/-- **C62**: the gain in the pass band stays between `1 - ripple` and 1, is exactly `1 - ripple` at its edge and smaller beyond. -/
theorem C62_passband (n : ℕ) (hn : 1 ≤ n) (h32 : n ≤ 32) (r : ℝ) (h0 : 0 < r) (h1 : r < 1) (sys : Zpk) (hs : chebyshev1 n r = .ok sys)
    (w : ℝ) :
    (|w| ≤ 1 → 1 - r ≤ ‖sys.eval (I * (w : ℂ))‖ ∧ ‖sys.eval (I * (w : ℂ))‖ ≤ 1) ∧
    (|w| = 1 → ‖sys.eval (I * (w : ℂ))‖ = 1 - r) ∧
    (1 < |w| → ‖sys.eval (I * (w : ℂ))‖ < 1 - r) := by
  have hm := C62_magnitude n hn h32 r h0 h1 sys hs w
  have hr : 0 < 1 - r := by linarith
  have hpos : 0 < 1 / (1 - r) ^ 2 - 1 := by
    rw [sub_pos, lt_div_iff₀ (by positivity)]
    nlinarith
  have hnn := norm_nonneg (sys.eval (I * (w : ℂ)))
  have hone : 1 / (1 + (1 / (1 - r) ^ 2 - 1) * 1) = (1 - r) ^ 2 := by
    rw [mul_one, add_sub_cancel, one_div_one_div]
  have hd : 0 < 1 + (1 / (1 - r) ^ 2 - 1) * chebT n w ^ 2 := by positivity
  have ha : 1 ≤ |w| → 1 ≤ chebT n w ^ 2 := fun h => by
    have := Polynomial.Chebyshev.one_le_abs_eval_T_real n h
    rw [← sq_abs]
    nlinarith [abs_nonneg (chebT n w)]
  have hb : |w| ≤ 1 → chebT n w ^ 2 ≤ 1 := fun h => by
    have := Polynomial.Chebyshev.abs_eval_T_real_le_one n h
    rw [← sq_abs]
    nlinarith [abs_nonneg (chebT n w)]
  refine ⟨fun h => ⟨?_, ?_⟩, fun h => ?_, fun h => ?_⟩
  · apply abs_le_of_sq_le_sq' _ hnn |>.2
    rw [hm]
    refine hone.symm.le.trans (one_div_le_one_div_of_le hd ?_)
    have := hb h
    nlinarith
  · apply abs_le_of_sq_le_sq' _ zero_le_one |>.2
    rw [hm, one_pow, div_le_one hd]
    have := sq_nonneg (chebT n w)
    nlinarith
  · have h2 : chebT n w ^ 2 = 1 := le_antisymm (hb h.le) (ha h.ge)
    rw [h2, hone] at hm
    exact (sq_eq_sq₀ hnn hr.le).1 hm
  · have h2 : 1 < chebT n w ^ 2 := by
      have := Polynomial.Chebyshev.one_lt_abs_eval_T_real (n := n) (by exact_mod_cast (by omega : n ≠ 0)) h
      rw [← sq_abs]
      nlinarith [abs_nonneg (chebT n w)]
    apply lt_of_pow_lt_pow_left₀ 2 hr.le
    rw [hm]
    refine lt_of_lt_of_eq (one_div_lt_one_div_of_lt (by rw [mul_one, add_sub_cancel]; positivity) ?_) hone
    nlinarith

/-- **C62**, what the library does with an order outside 1 to 32 (`1u << (order - 1)`) or without ripple (gain `1 / 0`). -/
theorem C62_unsupported_wrong (n : ℕ) (r : ℝ) (h : n = 0 ∨ 32 < n ∨ r = 0) : chebyshev1 n r = .ub := by
  unfold chebyshev1
  by_cases hr : r = 1
  · rw [fdiv_zero (by rw [hr]; norm_num)]; rfl
  rw [fdiv_ok (pow_ne_zero _ (sub_ne_zero.2 (Ne.symm hr))), Out.ok_bind]
  simp only
  by_cases hn : 1 ≤ n ∧ n ≤ 32
  · rw [if_pos hn, Out.ok_bind, fdiv_zero]
    · rfl
    · rcases h with h | h | h
      · omega
      · omega
      · rw [h]; norm_num
  · rw [if_neg hn]; rfl

/-- **C62** with C61: the complete Chebyshev I low pass: stable, `n` zeros and poles, and for every frequency up to the cutoff the gain
is between `1 - ripple` and 1; exactly `1 - ripple` at the cutoff; smaller above it. -/
theorem C62_lowpass (n : ℕ) (hn : 1 ≤ n) (h32 : n ≤ 32) (r : ℝ) (h0 : 0 < r) (h1 : r < 1) (c : ℝ) (hc0 : 0 < c) (hc1 : c < 1) :
    ∃ f, designLowpass (fun n => chebyshev1 n r) n c = .ok f ∧ f.Stable ∧ f.zeros.numRoots = n ∧ f.poles.numRoots = n ∧
      (∀ w, 0 ≤ w → w ≤ c * Real.pi → 1 - r ≤ ‖response f w‖ ∧ ‖response f w‖ ≤ 1) ∧
      ‖response f (c * Real.pi)‖ = 1 - r ∧
      (∀ w, c * Real.pi < w → w < Real.pi → ‖response f w‖ < 1 - r) := by
  obtain ⟨sys, a1, a2⟩ := C62_prototype n hn h32 r h0 h1
  obtain ⟨f, b1, b2, b3, b4, b5, b6⟩ := C61_lowpass (fun n => chebyshev1 n r) n sys a1 a2 c hc0 hc1
  have hpi := Real.pi_pos
  have ht : 0 < Real.tan (c * Real.pi / 2) := Real.tan_pos_of_pos_of_lt_pi_div_two (by positivity) (by nlinarith)
  have hcos : ∀ w, 0 ≤ w → w < Real.pi → Real.cos (w / 2) ≠ 0 := fun w h0 h1 =>
    (Real.cos_pos_of_mem_Ioo ⟨by linarith, by linarith⟩).ne'
  have hcpi : c * Real.pi < Real.pi := by nlinarith
  have habs : ∀ w, 0 ≤ w → w < Real.pi → |Real.tan (w / 2) / Real.tan (c * Real.pi / 2)| = Real.tan (w / 2) / Real.tan (c * Real.pi / 2) :=
    fun w h0 h1 => abs_of_nonneg (div_nonneg (Real.tan_nonneg_of_nonneg_of_le_pi_div_two (by linarith) (by linarith)) ht.le)
  refine ⟨f, b1, b5, b3, b4, fun w hw0 hw1 => ?_, ?_, fun w hw0 hw1 => ?_⟩
  · rw [b6 w (hcos w hw0 (by linarith))]
    refine (C62_passband n hn h32 r h0 h1 sys a1 _).1 ?_
    rw [habs w hw0 (by linarith), div_le_one ht]
    rcases eq_or_lt_of_le hw1 with h | h
    · rw [h]
    · exact (Real.tan_lt_tan_of_lt_of_lt_pi_div_two (by linarith) (by linarith) (by linarith)).le
  · rw [b6 _ (hcos _ (by positivity) hcpi)]
    refine (C62_passband n hn h32 r h0 h1 sys a1 _).2.1 ?_
    rw [div_self ht.ne', abs_one]
  · have : 0 < c * Real.pi := by positivity
    rw [b6 w (hcos w (by linarith) hw1)]
    refine (C62_passband n hn h32 r h0 h1 sys a1 _).2.2 ?_
    rw [habs w (by linarith) hw1, one_lt_div ht]
    exact Real.tan_lt_tan_of_lt_of_lt_pi_div_two (by linarith) (by linarith) (by linarith)

/-- Non-vacuity of C62: a third order prototype with ripple one half at the edge of the pass band. -/
example : ∃ sys, chebyshev1 3 (1 / 2) = .ok sys ∧ sys.IsPrototype 3 ∧ ‖sys.eval (I * ((1 : ℝ) : ℂ))‖ = 1 / 2 := by
  obtain ⟨sys, h1, h2⟩ := C62_prototype 3 (by norm_num) (by norm_num) (1 / 2) (by norm_num) (by norm_num)
  refine ⟨sys, h1, h2, ?_⟩
  have := (C62_passband 3 (by norm_num) (by norm_num) (1 / 2) (by norm_num) (by norm_num) sys h1 1).2.1 (by norm_num)
  rw [this]
  norm_num

/-! ### C63: type II -/

theorem cheb2_epsilon {r ε : ℝ} (h0 : 0 < r) (h1 : r < 1) (hε : ε = r / Real.sqrt (1 - r * r)) :
    0 < ε ∧ ε ^ 2 = r ^ 2 / (1 - r ^ 2) := by
  have hp : 0 < 1 - r * r := by nlinarith
  refine ⟨by rw [hε]; exact div_pos h0 (Real.sqrt_pos.2 hp), ?_⟩
  rw [hε, div_pow, Real.sq_sqrt hp.le, ← pow_two]

/-- **C63**: for all orders and all ripples between 0 and 1, the prototype exists, has exactly `n` poles, in the open left half plane,
and `n` or `n - 1` zeros (an even number), on the imaginary axis; both are closed under conjugation. -/
theorem C63_roots (n : ℕ) (r : ℝ) (h0 : 0 < r) (h1 : r < 1) :
    ∃ sys, chebyshev2 n r = .ok sys ∧ sys.Reachable ∧ sys.zeros.numRoots = 2 * (n / 2) ∧ sys.zeros.roots.length = 2 * (n / 2) ∧
      sys.poles.roots.length = n ∧ sys.poles.numRoots = n ∧ ConjugateClosed sys.poles.roots ∧ ConjugateClosed sys.zeros.roots ∧
      (∀ p ∈ sys.poles.roots, p.re < 0) ∧ ∀ p ∈ sys.zeros.roots, p.re = 0 := by
  obtain ⟨he, -⟩ := cheb2_epsilon h0 h1 rfl
  obtain ⟨sys, a1, a2, a3, a4, a5, a6, a7⟩ := chebyshev2_spec n r _ (by nlinarith) rfl (fun _ => he.ne')
  refine ⟨sys, a1, a2, a4, by rw [a5]; simp [rootsOf]; omega, by rw [a7.length_eq]; simp, a6, conjugateClosed_roots _,
    conjugateClosed_roots _, fun p hp => ?_, fun p hp => ?_⟩
  · obtain ⟨k, hk, rfl⟩ := List.mem_map.1 ((a7.mem_iff).1 hp)
    have hk := List.mem_range.1 hk
    have : (0 : ℝ) < n := by exact_mod_cast (by omega : 0 < n)
    have := Real.arsinh_pos_iff.2 (one_div_pos.2 he)
    have hre := chebPole_re_neg (b := Real.arsinh (1 / (r / Real.sqrt (1 - r * r))) / n) (by positivity) hk
    have hne : chebPole n (Real.arsinh (1 / (r / Real.sqrt (1 - r * r))) / n) k ≠ 0 := by
      intro h; rw [h] at hre; simp at hre
    simp only [one_div, inv_re]
    rw [one_div] at hre hne
    exact div_neg_of_neg_of_pos hre (normSq_pos.2 hne)
  · rw [a5] at hp
    simp only [rootsOf, List.map_nil, List.nil_append, List.mem_append, List.mem_map, List.mem_range] at hp
    have hz : ∀ k, (chebZero n k).re = 0 := by
      intro k
      unfold chebZero
      rw [Complex.div_ofReal_re, I_re, zero_div]
    rcases hp with ⟨k, -, rfl⟩ | ⟨_, ⟨k, -, rfl⟩, rfl⟩
    · exact hz k
    · rw [conj_re]; exact hz k

/-- **C63**: it is a stable prototype in the sense of the designs of C61. -/
theorem C63_prototype (n : ℕ) (r : ℝ) (h0 : 0 < r) (h1 : r < 1) : ∃ sys, chebyshev2 n r = .ok sys ∧ sys.IsPrototype n := by
  obtain ⟨sys, a1, a2, a3, a4, a5, a6, a7, a8, a9, a10⟩ := C63_roots n r h0 h1
  exact ⟨sys, a1, a2, by omega, a6, fun p hp => (a10 p hp).le, a9⟩

/-- product of the cosines of the angles in the first half -/
noncomputable def chebC (n : ℕ) : ℝ := ∏ k ∈ Finset.range (n / 2), Real.cos (chebAngle n k) ^ 4

theorem cos_chebAngle_pos {n k : ℕ} (h : k < n / 2) : 0 < Real.cos (chebAngle n k) := by
  apply Real.cos_pos_of_mem_Ioo
  have h1 := chebAngle_mem (show k < n by omega)
  refine ⟨by linarith [Real.pi_pos], ?_⟩
  unfold chebAngle
  have hn : (0 : ℝ) < n := by exact_mod_cast (by omega : 0 < n)
  have hk : 2 * (k : ℝ) + 1 < n := by exact_mod_cast (by omega : 2 * k + 1 < n)
  rw [div_lt_iff₀ (by positivity)]
  nlinarith [Real.pi_pos]

theorem chebC_pos (n : ℕ) : 0 < chebC n := Finset.prod_pos fun k hk => by
  have := cos_chebAngle_pos (Finset.mem_range.1 hk)
  positivity

/-- folding the product over all angles to the first half -/
theorem prod_angles_fold (n : ℕ) (v : ℝ) :
    ∏ k ∈ Finset.range n, (v - Real.cos (chebAngle n k)) =
      (∏ k ∈ Finset.range (n / 2), (v ^ 2 - Real.cos (chebAngle n k) ^ 2)) * v ^ (n % 2) := by
  obtain ⟨m, hm⟩ : ∃ m, m = n / 2 := ⟨_, rfl⟩
  rw [← hm]
  have e : n = m + n % 2 + m := by omega
  conv_lhs => rw [show Finset.range n = Finset.range (m + n % 2 + m) by rw [← e], Finset.prod_range_add, Finset.prod_range_add]
  have h1 : ∏ x ∈ Finset.range m, (v - Real.cos (chebAngle n (m + n % 2 + x))) =
      ∏ x ∈ Finset.range m, (v + Real.cos (chebAngle n x)) := by
    rw [← Finset.prod_range_reflect]
    refine Finset.prod_congr rfl fun k hk => ?_
    have hk := Finset.mem_range.1 hk
    rw [show m + n % 2 + (m - 1 - k) = n - 1 - k by omega, chebAngle_reflect (by omega), Real.cos_pi_sub]
    ring
  have h2 : ∏ x ∈ Finset.range (n % 2), (v - Real.cos (chebAngle n (m + x))) = v ^ (n % 2) := by
    rcases Nat.mod_two_eq_zero_or_one n with h | h
    · simp [h]
    · rw [h, Finset.prod_range_one, add_zero, hm, chebAngle_mid h, Real.cos_pi_div_two]; simp
  rw [h1, h2, mul_right_comm, ← Finset.prod_mul_distrib]
  congr 1
  refine Finset.prod_congr rfl fun k _ => ?_
  ring

/-- the numerator of the squared magnitude -/
theorem cheb2_zeros (n : ℕ) (w : ℝ) :
    normSq (rootProduct (rootsOf [] ((List.range (n / 2)).map (chebZero n))) (I * w)) * chebC n =
      (∏ k ∈ Finset.range (n / 2), (1 - w ^ 2 * Real.cos (chebAngle n k) ^ 2)) ^ 2 := by
  unfold rootsOf
  rw [List.map_nil, List.nil_append, rootProduct_append, List.map_map, normSq_mul, normSq_rootProduct, normSq_rootProduct,
    ← Finset.prod_mul_distrib, chebC, ← Finset.prod_mul_distrib, ← Finset.prod_pow]
  refine Finset.prod_congr rfl fun k hk => ?_
  have hc := (cos_chebAngle_pos (Finset.mem_range.1 hk)).ne'
  unfold chebZero
  simp only [Function.comp_apply, map_div₀, conj_I, conj_ofReal]
  generalize Real.cos (chebAngle n k) = c at *
  have hc' : (c : ℂ) ≠ 0 := by exact_mod_cast hc
  have e1 : I * (w : ℂ) - I / c = I * ((w - 1 / c : ℝ) : ℂ) := by push_cast; ring
  have e2 : I * (w : ℂ) - -I / c = I * ((w + 1 / c : ℝ) : ℂ) := by push_cast; ring
  rw [e1, e2, normSq_mul, normSq_mul, normSq_I, normSq_ofReal, normSq_ofReal]
  field_simp
  ring

/-- the denominator -/
theorem cheb2_poles (n : ℕ) (b : ℝ) (hb : ∀ k < n, chebPole n b k ≠ 0) (w : ℝ) :
    normSq (rootProduct ((List.range n).map fun k => 1 / chebPole n b k) (I * w)) * ∏ k ∈ Finset.range n, normSq (I * (0 : ℝ) - chebPole n b k) =
      ∏ k ∈ Finset.range n, normSq (I * w * chebPole n b k - 1) := by
  rw [normSq_rootProduct, ← Finset.prod_mul_distrib]
  refine Finset.prod_congr rfl fun k hk => ?_
  have := hb k (Finset.mem_range.1 hk)
  rw [← normSq_mul, ← normSq_neg]
  congr 1
  push_cast
  field_simp
  ring

theorem cheb2_poles' (n : ℕ) (b w : ℝ) (hw : w ≠ 0) :
    ∏ k ∈ Finset.range n, normSq (I * w * chebPole n b k - 1) =
      (w ^ 2) ^ n * ∏ k ∈ Finset.range n, normSq (I * ((-(1 / w) : ℝ) : ℂ) - chebPole n b k) := by
  have hc : (w ^ 2) ^ n = ∏ k ∈ Finset.range n, w ^ 2 := by rw [Finset.prod_const, Finset.card_range]
  rw [hc, ← Finset.prod_mul_distrib]
  refine Finset.prod_congr rfl fun k _ => ?_
  have h1 : w ^ 2 = normSq (I * w) := by rw [normSq_mul, normSq_I, normSq_ofReal]; ring
  have hw' : (w : ℂ) ≠ 0 := by exact_mod_cast hw
  rw [h1, ← normSq_mul, ← normSq_neg]
  congr 1
  push_cast
  field_simp
  linear_combination I_sq

/-- **C63**, trigonometry: `4^(n-1)` times the product of the cosines is `T_n(0)²`, or `n²` for odd orders. -/
theorem chebC_eq (n : ℕ) (hn : 0 < n) : chebC n * 4 ^ n = 4 * (if n % 2 = 0 then 1 else (n : ℝ) ^ 2) := by
  obtain ⟨m, hm⟩ : ∃ m, m = n / 2 := ⟨_, rfl⟩
  rcases Nat.mod_two_eq_zero_or_one n with h | h
  · have h1 := cheb_roots_sq n hn 0
    rw [prod_angles_fold, h, pow_zero, mul_one, ← Finset.prod_pow] at h1
    have h2 : ∏ k ∈ Finset.range (n / 2), ((0 : ℝ) ^ 2 - Real.cos (chebAngle n k) ^ 2) ^ 2 = chebC n := by
      refine Finset.prod_congr rfl fun k _ => ?_
      ring
    have h3 : chebT n 0 ^ 2 = 1 := by
      have := Polynomial.Chebyshev.T_real_cos (Real.pi / 2) n
      rw [Real.cos_pi_div_two] at this
      unfold chebT
      rw [this]
      have e : ((n : ℤ) : ℝ) * (Real.pi / 2) = m * Real.pi := by
        have : (n : ℝ) = 2 * m := by exact_mod_cast (by omega : n = 2 * m)
        push_cast
        rw [this]; ring
      rw [e, Real.cos_nat_mul_pi, ← pow_mul, mul_comm, pow_mul]
      norm_num
    rw [h2, h3] at h1
    rw [h1, if_pos h, one_mul, mul_one, div_mul_cancel₀ _ (pow_ne_zero _ (by norm_num))]
  · rw [if_neg (by omega)]
    -- the product of the sines of the multiples of π / n
    have hprim : IsPrimitiveRoot (exp (2 * Real.pi * I / (2 * m + 1 : ℕ))) (2 * m + 1) := isPrimitiveRoot_exp _ (by omega)
    have h1 := hprim.prod_one_sub_pow_eq_order
    have hnorm : ∀ k : ℕ, ‖(1 : ℂ) - exp (2 * Real.pi * I / (2 * m + 1 : ℕ)) ^ (k + 1)‖ ^ 2 =
        (2 * Real.sin (Real.pi * (k + 1) / n)) ^ 2 := by
      intro k
      have hnm : ((2 * m + 1 : ℕ) : ℂ) = n := by exact_mod_cast (by omega : 2 * m + 1 = n)
      have hnC : (n : ℂ) ≠ 0 := by exact_mod_cast hn.ne'
      have e : exp (2 * Real.pi * I / (2 * m + 1 : ℕ)) ^ (k + 1) = exp ((2 * (Real.pi * (k + 1) / n) : ℝ) * I) := by
        rw [hnm, ← exp_nat_mul]
        congr 1
        push_cast
        field_simp
      rw [e, ← Complex.normSq_eq_norm_sq, normSq_apply]
      generalize Real.pi * (k + 1) / n = t
      simp only [sub_re, sub_im, one_re, one_im, exp_ofReal_mul_I_re, exp_ofReal_mul_I_im]
      rw [Real.cos_two_mul, Real.sin_two_mul]
      linear_combination (4 * Real.cos t ^ 2 - 4) * Real.sin_sq_add_cos_sq t
    have h2 := congrArg (fun z : ℂ => ‖z‖ ^ 2) h1
    simp only [norm_prod, ← Finset.prod_pow, hnorm] at h2
    rw [two_mul, Finset.prod_range_add, ← Finset.prod_range_reflect (fun k => (2 * Real.sin (Real.pi * ((m + k : ℕ) + 1) / n)) ^ 2),
      ← Finset.prod_mul_distrib] at h2
    have hcos : chebC n = ∏ k ∈ Finset.range m, Real.sin (Real.pi * (k + 1) / n) ^ 4 := by
      unfold chebC
      rw [← hm, ← Finset.prod_range_reflect]
      refine Finset.prod_congr rfl fun k hk => ?_
      have hk := Finset.mem_range.1 hk
      rw [← Real.sin_pi_div_two_sub]
      congr 2
      unfold chebAngle
      rw [Nat.cast_sub (by omega), Nat.cast_sub (by omega)]
      have : (n : ℝ) = 2 * m + 1 := by exact_mod_cast (by omega : n = 2 * m + 1)
      have h0 : (2 * (m : ℝ) + 1) ≠ 0 := by positivity
      rw [this]
      push_cast
      field_simp
      ring
    have hterm : ∀ k ∈ Finset.range m, (2 * Real.sin (Real.pi * (k + 1) / n)) ^ 2 *
        (2 * Real.sin (Real.pi * ((m + (m - 1 - k) : ℕ) + 1) / n)) ^ 2 = 16 * Real.sin (Real.pi * (k + 1) / n) ^ 4 := by
      intro k hk
      have hk := Finset.mem_range.1 hk
      have e : Real.pi * (((m + (m - 1 - k) : ℕ) : ℝ) + 1) / n = Real.pi - Real.pi * (k + 1) / n := by
        rw [Nat.cast_add, Nat.cast_sub (by omega), Nat.cast_sub (by omega)]
        have : (n : ℝ) = 2 * m + 1 := by exact_mod_cast (by omega : n = 2 * m + 1)
        have h0 : (2 * (m : ℝ) + 1) ≠ 0 := by positivity
        rw [this]
        push_cast
        field_simp
        ring
      rw [e, Real.sin_pi_sub]
      ring
    rw [Finset.prod_congr rfl hterm, Finset.prod_mul_distrib, Finset.prod_const, Finset.card_range, ← hcos] at h2
    have h16 : (4 : ℝ) ^ n = 4 * 16 ^ m := by
      rw [show n = 2 * m + 1 by omega, pow_succ, pow_mul]; norm_num; ring
    have hnn : ‖((m + m : ℕ) : ℂ) + 1‖ ^ 2 = (n : ℝ) ^ 2 := by
      have : ((m + m : ℕ) : ℂ) + 1 = (n : ℂ) := by exact_mod_cast (by omega : m + m + 1 = n)
      rw [this, Complex.norm_natCast]
    rw [h16]
    linear_combination 4 * h2 + 4 * hnn

/-- **C63**: `|H(iw)|² = ε² T_n(1/w)² / (1 + ε² T_n(1/w)²)` where `ε² = ripple² / (1 - ripple²)`; at `w = 0` the gain is one. -/
theorem C63_magnitude (n : ℕ) (hn : 1 ≤ n) (r : ℝ) (h0 : 0 < r) (h1 : r < 1) (sys : Zpk) (hs : chebyshev2 n r = .ok sys) :
    (∀ w : ℝ, w ≠ 0 → ‖sys.eval (I * (w : ℂ))‖ ^ 2 =
      r ^ 2 / (1 - r ^ 2) * chebT n (1 / w) ^ 2 / (1 + r ^ 2 / (1 - r ^ 2) * chebT n (1 / w) ^ 2)) ∧
    ‖sys.eval (I * ((0 : ℝ) : ℂ))‖ = 1 := by
  obtain ⟨ε, hε⟩ : ∃ ε, ε = r / Real.sqrt (1 - r * r) := ⟨_, rfl⟩
  obtain ⟨he, he2⟩ := cheb2_epsilon h0 h1 hε
  obtain ⟨sys', a1, a2, a3, a4, a5, a6, a7⟩ := chebyshev2_spec n r ε (by nlinarith) hε (fun _ => he.ne')
  rw [hs] at a1
  cases a1
  have hnR : (0 : ℝ) < n := by exact_mod_cast hn
  obtain ⟨b, hb⟩ : ∃ b, b = Real.arsinh (1 / ε) / n := ⟨_, rfl⟩
  rw [← hb] at a7
  have hb0 : 0 < b := by
    have := Real.arsinh_pos_iff.2 (one_div_pos.2 he)
    rw [hb]; positivity
  have hne : ∀ k < n, chebPole n b k ≠ 0 := fun k hk h => by
    have := chebPole_re_neg hb0 hk
    rw [h] at this
    simp at this
  have hsinh : Real.sinh (n * b) ^ 2 = 1 / ε ^ 2 := by
    rw [hb, mul_div_cancel₀ _ hnR.ne', Real.sinh_arsinh, div_pow, one_pow]
  have hr2 : 0 < 1 - r ^ 2 := by nlinarith
  have h4 : (0 : ℝ) < 4 ^ n := by positivity
  have hC := chebC_pos n
  -- the constant: gain² times the value of the denominator, over the product of the cosines
  have hconst : sys.gain ^ 2 * ((chebT n 0 ^ 2 + 1 / ε ^ 2) * 4 / 4 ^ n) = chebC n / ε ^ 2 * ε ^ 2 := by
    have hCe := chebC_eq n (by omega)
    have hT := cheb_roots_sq n (by omega) 0
    rw [prod_angles_fold] at hT
    rw [div_mul_cancel₀ _ (by positivity)]
    rcases Nat.mod_two_eq_zero_or_one n with h | h
    · rw [if_pos h] at hCe
      rw [h, pow_zero, mul_one, ← Finset.prod_pow] at hT
      have h2 : ∏ k ∈ Finset.range (n / 2), ((0 : ℝ) ^ 2 - Real.cos (chebAngle n k) ^ 2) ^ 2 = chebC n := by
        refine Finset.prod_congr rfl fun k _ => ?_
        ring
      rw [h2] at hT
      have h3 : chebT n 0 ^ 2 = 1 := by
        rw [eq_div_iff h4.ne'] at hT
        linarith
      rw [a3, if_pos h, h3, he2]
      have : chebC n = 4 / 4 ^ n := by rw [eq_div_iff h4.ne', hCe, mul_one]
      rw [this]
      field_simp
      ring
    · rw [if_neg (by omega)] at hCe
      rw [h, pow_one, mul_zero, zero_pow two_ne_zero] at hT
      have h3 : chebT n 0 ^ 2 = 0 := by
        rw [eq_comm, div_eq_zero_iff] at hT
        rcases hT with hT | hT
        · linarith
        · exact absurd hT h4.ne'
      rw [a3, if_neg (by omega), h3]
      have : chebC n = 4 * (n : ℝ) ^ 2 / 4 ^ n := by rw [eq_div_iff h4.ne', hCe]
      rw [this]
      field_simp
      ring
  rw [div_mul_cancel₀ _ (by positivity)] at hconst
  have hP0 := cheb_normSq n (by omega) b 0
  rw [hsinh] at hP0
  obtain ⟨P0, hP0d⟩ : ∃ P0, P0 = (chebT n 0 ^ 2 + 1 / ε ^ 2) * 4 / 4 ^ n := ⟨_, rfl⟩
  rw [← hP0d] at hP0 hconst
  have hP0pos : 0 < P0 := by rw [hP0d]; positivity
  have heval : ∀ w : ℝ, ‖sys.eval (I * (w : ℂ))‖ ^ 2 =
      (∏ k ∈ Finset.range (n / 2), (1 - w ^ 2 * Real.cos (chebAngle n k) ^ 2)) ^ 2 /
        ∏ k ∈ Finset.range n, normSq (I * w * chebPole n b k - 1) := by
    intro w
    have hz := cheb2_zeros n w
    have hp := cheb2_poles n b hne w
    rw [hP0] at hp
    rw [zpk_value, a5, rootProduct_perm a7, ← Complex.normSq_eq_norm_sq, normSq_div, normSq_mul, normSq_ofReal, ← hz, ← hp, ← hconst]
    have hCg : sys.gain ^ 2 * P0 ≠ 0 := by rw [hconst]; exact hC.ne'
    have hg : sys.gain ≠ 0 := by rintro hg; rw [hg] at hCg; simp at hCg
    rcases eq_or_ne (normSq (rootProduct ((List.range n).map fun k => 1 / chebPole n b k) (I * w))) 0 with h | h
    · rw [h]; simp
    · field_simp
  constructor
  · intro w hw
    have hw2 : w ^ 2 ≠ 0 := pow_ne_zero _ hw
    rw [heval w, cheb2_poles' n b w hw, cheb_normSq n (by omega), hsinh, ← he2]
    have hTeven : chebT n (-(1 / w)) ^ 2 = chebT n (1 / w) ^ 2 := by
      unfold chebT
      rw [Polynomial.Chebyshev.T_eval_neg]
      rcases Int.even_or_odd (n : ℤ) with h | h
      · rw [Int.negOnePow_even _ h]; simp
      · rw [Int.negOnePow_odd _ h]; simp
    rw [hTeven]
    have hT := cheb_roots_sq n (by omega) (1 / w)
    have hfold : (∏ k ∈ Finset.range n, (1 / w - Real.cos (chebAngle n k))) ^ 2 * (w ^ 2) ^ n =
        (∏ k ∈ Finset.range (n / 2), (1 - w ^ 2 * Real.cos (chebAngle n k) ^ 2)) ^ 2 := by
      rw [prod_angles_fold]
      have e1 : ∏ k ∈ Finset.range (n / 2), (1 - w ^ 2 * Real.cos (chebAngle n k) ^ 2) =
          (w ^ 2) ^ (n / 2) * ∏ k ∈ Finset.range (n / 2), ((1 / w) ^ 2 - Real.cos (chebAngle n k) ^ 2) := by
        have hc : (w ^ 2) ^ (n / 2) = ∏ k ∈ Finset.range (n / 2), w ^ 2 := by rw [Finset.prod_const, Finset.card_range]
        rw [hc, ← Finset.prod_mul_distrib]
        refine Finset.prod_congr rfl fun k _ => ?_
        field_simp
      have e2 : (w ^ 2) ^ n = ((w ^ 2) ^ (n / 2)) ^ 2 * w ^ (n % 2) * w ^ (n % 2) := by
        rw [← pow_mul, ← pow_mul, ← pow_mul, mul_assoc, ← pow_add, ← pow_add]
        congr 1
        omega
      rw [e1, e2]
      generalize ∏ k ∈ Finset.range (n / 2), ((1 / w) ^ 2 - Real.cos (chebAngle n k) ^ 2) = Q
      have e3 : (1 / w) ^ (n % 2) * w ^ (n % 2) = 1 := by rw [← mul_pow, one_div_mul_cancel hw, one_pow]
      generalize (1 / w) ^ (n % 2) = u at *
      generalize w ^ (n % 2) = v at *
      linear_combination (Q ^ 2 * ((w ^ 2) ^ (n / 2)) ^ 2 * (u * v + 1)) * e3
    rw [← hfold, hT]
    have hd : 1 + ε ^ 2 * chebT n (1 / w) ^ 2 ≠ 0 := by positivity
    have hd' : chebT n (1 / w) ^ 2 * ε ^ 2 + 1 ≠ 0 := by positivity
    have hwn : (w ^ 2) ^ n ≠ 0 := pow_ne_zero _ hw2
    generalize (w ^ 2) ^ n = W at *
    generalize chebT n (1 / w) = T at *
    field_simp
    ring
  · have := heval 0
    have h1 : ‖sys.eval (I * ((0 : ℝ) : ℂ))‖ ^ 2 = 1 := by
      rw [this]
      simp
    exact (sq_eq_sq₀ (norm_nonneg _) zero_le_one).1 (by rw [h1, one_pow])

/-- **C63**: in the stop band the gain never exceeds the ripple; it is exactly the ripple at the edge, and larger before it. -/
theorem C63_stopband (n : ℕ) (hn : 1 ≤ n) (r : ℝ) (h0 : 0 < r) (h1 : r < 1) (sys : Zpk) (hs : chebyshev2 n r = .ok sys) (w : ℝ) :
    (1 ≤ |w| → ‖sys.eval (I * (w : ℂ))‖ ≤ r) ∧
    (|w| = 1 → ‖sys.eval (I * (w : ℂ))‖ = r) ∧
    (|w| < 1 → r < ‖sys.eval (I * (w : ℂ))‖ ∧ ‖sys.eval (I * (w : ℂ))‖ ≤ 1) := by
  obtain ⟨hm, hz⟩ := C63_magnitude n hn r h0 h1 sys hs
  have hnn := norm_nonneg (sys.eval (I * (w : ℂ)))
  by_cases hw : w = 0
  · subst hw
    rw [hz, abs_zero]
    exact ⟨fun h => by linarith, fun h => by linarith, fun _ => ⟨h1, le_rfl⟩⟩
  have hwa : 0 < |w| := abs_pos.2 hw
  have hm := hm w hw
  have hr2 : 0 < 1 - r ^ 2 := by nlinarith
  obtain ⟨E, hE⟩ : ∃ E, E = r ^ 2 / (1 - r ^ 2) := ⟨_, rfl⟩
  have hEpos : 0 < E := by rw [hE]; positivity
  have hE1 : E * (1 - r ^ 2) = r ^ 2 := by rw [hE, div_mul_cancel₀ _ hr2.ne']
  rw [← hE] at hm
  have hd : 0 < 1 + E * chebT n (1 / w) ^ 2 := by positivity
  have hinv : |1 / w| = 1 / |w| := by rw [abs_div, abs_one]
  have hle : 1 ≤ |w| → chebT n (1 / w) ^ 2 ≤ 1 := fun h => by
    have := Polynomial.Chebyshev.abs_eval_T_real_le_one n (x := 1 / w) (by rw [hinv, div_le_one hwa]; exact h)
    rw [← sq_abs]
    nlinarith [abs_nonneg (chebT n (1 / w))]
  have hge : |w| ≤ 1 → 1 ≤ chebT n (1 / w) ^ 2 := fun h => by
    have := Polynomial.Chebyshev.one_le_abs_eval_T_real n (x := 1 / w) (by rw [hinv, le_div_iff₀ hwa, one_mul]; exact h)
    rw [← sq_abs]
    nlinarith [abs_nonneg (chebT n (1 / w))]
  have hgt : |w| < 1 → 1 < chebT n (1 / w) ^ 2 := fun h => by
    have := Polynomial.Chebyshev.one_lt_abs_eval_T_real (n := n) (by exact_mod_cast (by omega : n ≠ 0)) (x := 1 / w)
      (by rw [hinv, lt_div_iff₀ hwa, one_mul]; exact h)
    rw [← sq_abs]
    nlinarith [abs_nonneg (chebT n (1 / w))]
  have hdiff : E * chebT n (1 / w) ^ 2 - r ^ 2 * (1 + E * chebT n (1 / w) ^ 2) = r ^ 2 * (chebT n (1 / w) ^ 2 - 1) := by
    linear_combination chebT n (1 / w) ^ 2 * hE1
  have hr2' : 0 < r ^ 2 := by positivity
  refine ⟨fun h => ?_, fun h => ?_, fun h => ⟨?_, ?_⟩⟩
  · apply abs_le_of_sq_le_sq' _ h0.le |>.2
    rw [hm, div_le_iff₀ hd]
    have := hle h
    nlinarith
  · have h2 : chebT n (1 / w) ^ 2 = 1 := le_antisymm (hle h.ge) (hge h.le)
    apply (sq_eq_sq₀ hnn h0.le).1
    rw [hm, div_eq_iff hd.ne']
    rw [h2] at hdiff ⊢
    linarith
  · apply lt_of_pow_lt_pow_left₀ 2 hnn
    rw [hm, lt_div_iff₀ hd]
    have := hgt h
    nlinarith
  · apply abs_le_of_sq_le_sq' _ zero_le_one |>.2
    rw [hm, one_pow, div_le_one hd]
    linarith

/-- **C63** with C61: the complete Chebyshev II low pass: stable, `n` zeros and poles, and from the cutoff on up to the Nyquist
frequency (exclusive) the gain never exceeds the ripple; at zero frequency it is one. -/
theorem C63_lowpass (n : ℕ) (hn : 1 ≤ n) (r : ℝ) (h0 : 0 < r) (h1 : r < 1) (c : ℝ) (hc0 : 0 < c) (hc1 : c < 1) :
    ∃ f, designLowpass (fun n => chebyshev2 n r) n c = .ok f ∧ f.Stable ∧ f.zeros.numRoots = n ∧ f.poles.numRoots = n ∧
      (∀ w, c * Real.pi ≤ w → w < Real.pi → ‖response f w‖ ≤ r) ∧
      ‖response f (c * Real.pi)‖ = r ∧ ‖response f 0‖ = 1 ∧
      (∀ w, 0 ≤ w → w < c * Real.pi → r < ‖response f w‖ ∧ ‖response f w‖ ≤ 1) := by
  obtain ⟨sys, a1, a2⟩ := C63_prototype n r h0 h1
  obtain ⟨f, b1, b2, b3, b4, b5, b6⟩ := C61_lowpass (fun n => chebyshev2 n r) n sys a1 a2 c hc0 hc1
  have hpi := Real.pi_pos
  have ht : 0 < Real.tan (c * Real.pi / 2) := Real.tan_pos_of_pos_of_lt_pi_div_two (by positivity) (by nlinarith)
  have hcos : ∀ w, 0 ≤ w → w < Real.pi → Real.cos (w / 2) ≠ 0 := fun w h0 h1 =>
    (Real.cos_pos_of_mem_Ioo ⟨by linarith, by linarith⟩).ne'
  have hcpi : c * Real.pi < Real.pi := by nlinarith
  have hcpos : 0 < c * Real.pi := by positivity
  have habs : ∀ w, 0 ≤ w → w < Real.pi → |Real.tan (w / 2) / Real.tan (c * Real.pi / 2)| = Real.tan (w / 2) / Real.tan (c * Real.pi / 2) :=
    fun w h0 h1 => abs_of_nonneg (div_nonneg (Real.tan_nonneg_of_nonneg_of_le_pi_div_two (by linarith) (by linarith)) ht.le)
  refine ⟨f, b1, b5, b3, b4, fun w hw0 hw1 => ?_, ?_, ?_, fun w hw0 hw1 => ?_⟩
  · rw [b6 w (hcos w (by linarith) hw1)]
    refine (C63_stopband n hn r h0 h1 sys a1 _).1 ?_
    rw [habs w (by linarith) hw1, one_le_div ht]
    rcases eq_or_lt_of_le hw0 with h | h
    · rw [h]
    · exact (Real.tan_lt_tan_of_lt_of_lt_pi_div_two (by linarith) (by linarith) (by linarith)).le
  · rw [b6 _ (hcos _ hcpos.le hcpi)]
    refine (C63_stopband n hn r h0 h1 sys a1 _).2.1 ?_
    rw [div_self ht.ne', abs_one]
  · rw [b6 0 (by simp)]
    have := (C63_magnitude n hn r h0 h1 sys a1).2
    simpa using this
  · rw [b6 w (hcos w hw0 (by linarith))]
    refine (C63_stopband n hn r h0 h1 sys a1 _).2.2 ?_
    rw [habs w hw0 (by linarith), div_lt_one ht]
    exact Real.tan_lt_tan_of_lt_of_lt_pi_div_two (by linarith) (by linarith) (by linarith)

/-- **C63**, what the library does with a negative ripple (the descriptions do not check it): all poles in the right half plane. -/
theorem C63_negative_ripple_wrong (n : ℕ) (hn : 1 ≤ n) (r : ℝ) (h0 : -1 < r) (h1 : r < 0) :
    ∃ sys, chebyshev2 n r = .ok sys ∧ sys.poles.roots.length = n ∧ ∀ p ∈ sys.poles.roots, 0 < p.re := by
  have hs : 0 < Real.sqrt (1 - r * r) := Real.sqrt_pos.2 (by nlinarith)
  have he : r / Real.sqrt (1 - r * r) < 0 := div_neg_of_neg_of_pos h1 hs
  obtain ⟨sys, a1, a2, a3, a4, a5, a6, a7⟩ := chebyshev2_spec n r _ (by nlinarith) rfl (fun _ => he.ne)
  refine ⟨sys, a1, by rw [a7.length_eq]; simp, fun p hp => ?_⟩
  obtain ⟨k, hk, rfl⟩ := List.mem_map.1 ((a7.mem_iff).1 hp)
  have hk := List.mem_range.1 hk
  have hnR : (0 : ℝ) < n := by exact_mod_cast hn
  have hb : Real.arsinh (1 / (r / Real.sqrt (1 - r * r))) / n < 0 :=
    div_neg_of_neg_of_pos (Real.arsinh_neg_iff.2 (one_div_neg.2 he)) hnR
  have hre := chebPole_re_pos hb hk
  generalize chebPole n (Real.arsinh (1 / (r / Real.sqrt (1 - r * r))) / n) k = q at *
  have hne : q ≠ 0 := by
    intro h; rw [h] at hre; simp at hre
  simp only [one_div, inv_re]
  exact div_pos hre (normSq_pos.2 hne)

/-- Non-vacuity of C63: a third order prototype with ripple one tenth. -/
example : ∃ sys, chebyshev2 3 (1 / 10) = .ok sys ∧ sys.IsPrototype 3 ∧ ‖sys.eval (I * ((2 : ℝ) : ℂ))‖ ≤ 1 / 10 := by
  obtain ⟨sys, h1, h2⟩ := C63_prototype 3 (1 / 10) (by norm_num) (by norm_num)
  exact ⟨sys, h1, h2, (C63_stopband 3 (by norm_num) (1 / 10) (by norm_num) (by norm_num) sys h1 2).1 (by norm_num)⟩

end Verif
