import Verif.Lemmas.ExpandFloat2
import Verif.Props.PolynomialsRounded

/-!
# C98: expanding a factored polynomial in floating point

`expanded` and `expandedMagnitude` are defined in Verif/Spec/Expansion.lean.
-/

set_option linter.unusedVariables false

namespace Verif
open PocketF Polynomial

variable {F : Type} [Zero F] [Add F] [Sub F] [Mul F] [Fma F] [Neg F]

/-- **C98** every coefficient of the expansion of a polynomial with `N` roots is finite and off from the exact one by at most `3 N u` times
the coefficient added up in magnitude (plus underflow). -/
theorem C98_expand (A : FloatArithNeg F) (one mtwo : F) (h1 : A.finite one ∧ A.val one = 1) (h2 : A.finite mtwo ∧ A.val mtwo = -2)
    (reals : List F) (pairs : List (Cx F)) (hr : ∀ r ∈ reals, A.finite r) (hp : ∀ z ∈ pairs, FinC A z)
    (N : ℕ) (hN : N = reals.length + 2 * pairs.length) (hu : 100 * (N + 1) * A.u ≤ 1) (ht : 100 * (N + 1) * A.tiny ≤ 1)
    (R : List ℝ) (hR : R = reals.map A.val) (P : List (ℝ × ℝ)) (hP : P = pairs.map fun z => (A.val z.re, A.val z.im))
    (hh : 4 * (expandedMagnitude R P).eval 1 ≤ A.huge) :
    ∃ c, PocketF.expandPolynomial one mtwo reals pairs = .ok c ∧ c.length = N + 1 ∧ ∀ i, i ≤ N →
      A.finite (sig c i) ∧ |(expanded R P).coeff i| ≤ (expandedMagnitude R P).coeff i ∧
      |A.val (sig c i) - (expanded R P).coeff i| ≤
        3 * N * A.u * (expandedMagnitude R P).coeff i + 10 * N * A.tiny * (expandedMagnitude R P).eval 1 := by
  have u0 := A.u_nonneg
  have t0 := A.tiny_nonneg
  have Nu0 : 0 ≤ (N : ℝ) * A.u := by positivity
  have Nt0 : 0 ≤ (N : ℝ) * A.tiny := by positivity
  have pw : ∀ k : ℕ, k ≤ 2 * N → (1 + A.u) ^ k - 1 ≤ 3 * N * A.u ∧ (1 + A.u) ^ k ≤ 11 / 10 := by
    intro k hk
    have a : (k : ℝ) ≤ 2 * N := by exact_mod_cast hk
    have b : (k : ℝ) * A.u ≤ 2 * N * A.u := mul_le_mul_of_nonneg_right a u0
    have c := one_add_pow_le u0 k (by linarith)
    have d0 : 0 ≤ (k : ℝ) * A.u := by positivity
    have e : (k : ℝ) * A.u * (1 + k * A.u) ≤ k * A.u * (11 / 10) := mul_le_mul_of_nonneg_left (by linarith) d0
    constructor <;> linarith
  have hlen : (reals.length + pairs.length : ℕ) ≤ N := by omega
  have hlenR : ((reals.length + pairs.length : ℕ) : ℝ) ≤ N := by exact_mod_cast hlen
  have lt : ((reals.length + pairs.length : ℕ) : ℝ) * A.tiny ≤ N * A.tiny := mul_le_mul_of_nonneg_right hlenR t0
  have lr : ((0 + reals.length : ℕ) : ℝ) * A.tiny ≤ N * A.tiny :=
    mul_le_mul_of_nonneg_right (by exact_mod_cast (show 0 + reals.length ≤ N by omega)) t0
  obtain ⟨Q, hQ⟩ : ∃ Q : Cx F → ℝ, ∀ z, Q z = 1 + 2 * |A.val z.re| + (A.val z.re * A.val z.re + A.val z.im * A.val z.im) :=
    ⟨fun z => 1 + 2 * |A.val z.re| + (A.val z.re * A.val z.re + A.val z.im * A.val z.im), fun _ => rfl⟩
  have Q1 : 1 ≤ (pairs.map Q).prod := by
    apply PolyF.prod_one_le
    intro z _
    rw [hQ]
    have := abs_nonneg (A.val z.re)
    have := mul_self_nonneg (A.val z.re)
    have := mul_self_nonneg (A.val z.im)
    linarith
  have R1 : 1 ≤ (reals.map fun r => 1 + |A.val r|).prod := PolyF.prod_one_le _ _ fun r _ => by linarith [abs_nonneg (A.val r)]
  have eM : expandedMagnitude R P = 1 * (reals.map fun r => X + C |A.val r|).prod *
      (pairs.map fun z => X ^ 2 + C (2 * |A.val z.re|) * X + C (A.val z.re * A.val z.re + A.val z.im * A.val z.im)).prod := by
    rw [hR, hP, one_mul]
    unfold expandedMagnitude
    simp only [List.map_map, Function.comp_def, pow_two]
  have eE : expanded R P = 1 * (reals.map fun r => X - C (A.val r)).prod *
      (pairs.map fun z => X ^ 2 + C (-2 * A.val z.re) * X + C (A.val z.re * A.val z.re + A.val z.im * A.val z.im)).prod := by
    rw [hR, hP, one_mul]
    unfold expanded
    simp only [List.map_map, Function.comp_def, pow_two, neg_mul, C_neg, ← sub_eq_add_neg]
  have eV : (expandedMagnitude R P).eval 1 = 1 * (reals.map fun r => 1 + |A.val r|).prod * (pairs.map Q).prod := by
    rw [hR, hP, one_mul]
    unfold expandedMagnitude
    rw [eval_mul, eval_list_prod, eval_list_prod, List.map_map, List.map_map, List.map_map, List.map_map]
    congr 2
    · apply List.map_congr_left
      intro r _
      simp
    · apply List.map_congr_left
      intro z _
      simp only [Function.comp, hQ]
      simp [pow_two]
  have inv0 : ExpandF.Inv A ((List.replicate (reals.length + 2 * pairs.length + 1) (0 : F)).set 0 one) 1 1 1 (9 * (0 : ℕ) * A.tiny * 1 * 1) := by
    intro i hi
    rw [sig_set _ _ _ _ (by simp), coeff_one]
    by_cases h0 : i = 0
    · rw [if_pos h0, if_pos h0]
      exact Near.exact h1.1 h1.2 (by simp) le_rfl (by simp)
    · rw [if_neg h0, if_neg h0]
      have : sig (List.replicate (reals.length + 2 * pairs.length + 1) (0 : F)) i = 0 := by
        unfold sig
        simp only [List.getD_eq_getElem?_getD, List.getElem?_replicate]
        split <;> simp
      rw [this]
      exact Near.zero le_rfl (by simp) le_rfl
  have hbig : 4 * (1 * (reals.map fun r => 1 + |A.val r|).prod) ≤ A.huge := by
    rw [eV] at hh
    have : 1 * (reals.map fun r => 1 + |A.val r|).prod ≤ 1 * (reals.map fun r => 1 + |A.val r|).prod * (pairs.map Q).prod :=
      le_mul_of_one_le_right (by linarith) Q1
    linarith
  obtain ⟨c1, a1, a2, a3, a4, a5⟩ := ExpandF.reals A (by linarith) (by linarith) reals _ 1 1 1 1 0 hr
    (by intro i; rw [coeff_one]; split <;> norm_num) (by simp) le_rfl le_rfl (by rw [mul_one]; exact (pw _ (by omega)).2)
    (by linarith) hbig inv0
  obtain ⟨c2, b1, b2, b3⟩ := ExpandF.pairs A (by linarith) (by linarith) mtwo h2 Q hQ pairs c1 _ _ _ _ _ hp a3 a4.symm (by linarith)
    (by rw [mul_one]; exact one_le_pow₀ (by linarith)) (by rw [mul_one, ← pow_add]; exact (pw _ (by omega)).2)
    (by rw [zero_add]; linarith) (by rw [← eV]; exact hh) a5
  have hl : c2.length = N + 1 := by rw [b2, a2, hN]; simp
  refine ⟨c2, ?_, hl, fun i hi => ?_⟩
  · unfold PocketF.expandPolynomial
    rw [wr_eq (by omega) (by simp; omega)]
    simp only [Out.ok_bind, Int.toNat_zero]
    rw [a1, Out.ok_bind, b1]
  · obtain ⟨f, m, e⟩ := b3 i (by omega)
    rw [← eM, ← eE] at e
    rw [← eM, ← eE] at m
    refine ⟨f, m, e.trans ?_⟩
    rw [← eV, mul_one, ← pow_add, zero_add]
    obtain ⟨g1, g2⟩ := pw (4 * pairs.length + 2 * reals.length) (by omega)
    have k1 := mul_le_mul_of_nonneg_right g1 ((abs_nonneg _).trans m)
    have V0 : 0 ≤ (expandedMagnitude R P).eval 1 := by
      rw [eV]
      positivity
    have k2 : 9 * ((reals.length + pairs.length : ℕ) : ℝ) * A.tiny * (1 + A.u) ^ (4 * pairs.length + 2 * reals.length) ≤ 10 * N * A.tiny := by
      have : ((reals.length + pairs.length : ℕ) : ℝ) * A.tiny * (1 + A.u) ^ (4 * pairs.length + 2 * reals.length) ≤ N * A.tiny * (11 / 10) :=
        mul_le_mul lt g2 (by positivity) Nt0
      linarith
    have k3 := mul_le_mul_of_nonneg_right k2 V0
    linarith

/-- **C98** if no root is to the right of the imaginary axis there is no cancellation: the bound is relative to the exact coefficient. -/
theorem C98_left_half_plane (A : FloatArithNeg F) (one mtwo : F) (h1 : A.finite one ∧ A.val one = 1) (h2 : A.finite mtwo ∧ A.val mtwo = -2)
    (reals : List F) (pairs : List (Cx F)) (hr : ∀ r ∈ reals, A.finite r ∧ A.val r ≤ 0) (hp : ∀ z ∈ pairs, FinC A z ∧ A.val z.re ≤ 0)
    (N : ℕ) (hN : N = reals.length + 2 * pairs.length) (hu : 100 * (N + 1) * A.u ≤ 1) (ht : 100 * (N + 1) * A.tiny ≤ 1)
    (R : List ℝ) (hR : R = reals.map A.val) (P : List (ℝ × ℝ)) (hP : P = pairs.map fun z => (A.val z.re, A.val z.im))
    (hh : 4 * (expanded R P).eval 1 ≤ A.huge) :
    ∃ c, PocketF.expandPolynomial one mtwo reals pairs = .ok c ∧ c.length = N + 1 ∧ ∀ i, i ≤ N →
      A.finite (sig c i) ∧ 0 ≤ (expanded R P).coeff i ∧
      |A.val (sig c i) - (expanded R P).coeff i| ≤ 3 * N * A.u * (expanded R P).coeff i + 10 * N * A.tiny * (expanded R P).eval 1 := by
  have e : expandedMagnitude R P = expanded R P := by
    unfold expandedMagnitude expanded
    congr 2
    · apply List.map_congr_left
      intro r hm
      rw [hR] at hm
      obtain ⟨r', hr', rfl⟩ := List.mem_map.1 hm
      rw [abs_of_nonpos (hr r' hr').2, C_neg, sub_eq_add_neg]
    · apply List.map_congr_left
      intro z hm
      rw [hP] at hm
      obtain ⟨z', hz', rfl⟩ := List.mem_map.1 hm
      simp only
      rw [abs_of_nonpos (hp z' hz').2, mul_neg, C_neg, neg_mul, ← sub_eq_add_neg]
  obtain ⟨c, a, b, d⟩ := C98_expand A one mtwo h1 h2 reals pairs (fun r h => (hr r h).1) (fun z h => (hp z h).1) N hN hu ht R hR P hP
    (by rw [e]; exact hh)
  rw [e] at d
  exact ⟨c, a, b, fun i hi => ⟨(d i hi).1, (abs_nonneg _).trans (d i hi).2.1, (d i hi).2.2⟩⟩

namespace PocketF.Example

/-- `(x + 2) (x² + 2 x + 2)` in `float`: the constant term is 4 and the coefficient of `x²` is 4, to within `1 / 10^4`. -/
example : ∃ c, PocketF.expandPolynomial (Bin.int 1) (Bin.int (-2)) [(Bin.int (-2) : Bin 24 (-149))] [⟨Bin.int (-1), Bin.int 1⟩] = .ok c ∧
    c.length = 4 ∧ |fl.val (sig c 0) - 4| ≤ 1 / 10 ^ 4 ∧ |fl.val (sig c 2) - 4| ≤ 1 / 10 ^ 4 := by
  have hu : fl.u = 2 ^ (-(24 : ℤ)) := rfl
  have htn : fl.tiny = 2 ^ (-150 : ℤ) := by change (2 : ℝ) ^ ((-149 : ℤ) - 1) = _; norm_num
  have hhu : fl.huge = 2 ^ 126 := rfl
  have hval : ∀ k : ℤ, fl.val (Bin.int k) = k := fun k => rfl
  have hfin : ∀ k : ℤ, |k| ≤ 3 → fl.finite (Bin.int k : Bin 24 (-149)) := by
    intro k hk
    have hk' : |(k : ℝ)| ≤ 3 := by exact_mod_cast hk
    change |(((k : ℤ) : ℝ))| ≤ 2 ^ 128
    exact hk'.trans (by norm_num)
  have v1 := hval 1
  have v2 := hval (-2)
  have v3 := hval (-1)
  push_cast at v1 v2 v3
  have e : expanded [-2] [(-1, 1)] = X ^ 3 + C 4 * X ^ 2 + C 6 * X + C 4 := by
    unfold expanded
    simp only [List.map_cons, List.map_nil, List.prod_cons, List.prod_nil, mul_one]
    have f4 : (C 4 : ℝ[X]) = C 2 * C 2 := by rw [← C_mul]; norm_num
    have f6 : (C 6 : ℝ[X]) = C 2 * C 2 + C 2 := by rw [← C_mul, ← C_add]; norm_num
    have f2 : (C 2 : ℝ[X]) * C 2 = C 2 + C 2 := by rw [← C_mul, ← C_add]; norm_num
    norm_num
    rw [f4, f6]
    linear_combination (-(X : ℝ[X]) ^ 2) * f2
  have ev : (expanded [-2] [(-1, 1)]).eval 1 = 15 := by
    rw [e, Polynomial.eval_add, Polynomial.eval_add, Polynomial.eval_add, eval_C_mul, eval_C_mul, eval_pow, eval_pow, eval_X, eval_C]
    norm_num
  have c0 : (expanded [-2] [(-1, 1)]).coeff 0 = 4 := by
    rw [e]
    simp
  have c2 : (expanded [-2] [(-1, 1)]).coeff 2 = 4 := by
    rw [e]
    simp [coeff_X_pow]
  obtain ⟨c, h1, h2, h3⟩ := C98_left_half_plane fl (Bin.int 1) (Bin.int (-2)) ⟨hfin 1 (by norm_num), v1⟩ ⟨hfin (-2) (by norm_num), v2⟩
    [Bin.int (-2)] [⟨Bin.int (-1), Bin.int 1⟩]
    (by
      intro r hr
      rw [List.mem_singleton] at hr
      rw [hr, v2]
      exact ⟨hfin (-2) (by norm_num), by norm_num⟩)
    (by
      intro z hz
      rw [List.mem_singleton] at hz
      rw [hz]
      refine ⟨⟨hfin (-1) (by norm_num), hfin 1 (by norm_num)⟩, ?_⟩
      change fl.val (Bin.int (-1)) ≤ 0
      rw [v3]
      norm_num) 3 rfl (by rw [hu]; norm_num) (by rw [htn]; norm_num) [-2] (by simp [v2]) [(-1, 1)] (by simp [v1, v3])
    (by rw [ev, hhu]; norm_num)
  refine ⟨c, h1, h2, ?_, ?_⟩
  · have := (h3 0 (by norm_num)).2.2
    rw [c0, ev, hu, htn] at this
    refine this.trans (by norm_num)
  · have := (h3 2 (by norm_num)).2.2
    rw [c2, ev, hu, htn] at this
    refine this.trans (by norm_num)

end PocketF.Example

end Verif
