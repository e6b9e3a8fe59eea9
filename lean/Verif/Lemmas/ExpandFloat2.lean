import Verif.Lemmas.ExpandFloat
import Verif.Lemmas.Polynomials
import Verif.Lemmas.Rounding3
import Verif.Model.PolynomialsFloat
import Verif.Spec.Expansion

/-! # Rounding errors of the expansion of a factored polynomial -/

set_option linter.unusedVariables false

namespace Verif
namespace ExpandF
open Polynomial PocketF

theorem coeff_first (P : ℝ[X]) (q : ℝ) (i : ℕ) : (P * (X + C q)).coeff i = (if 0 < i then P.coeff (i - 1) else 0) + P.coeff i * q := by
  rw [mul_add, coeff_add, coeff_mul_C]
  cases i with
  | zero => simp
  | succ i => simp

theorem coeff_second (P : ℝ[X]) (c1 c0 : ℝ) (i : ℕ) : (P * (X ^ 2 + C c1 * X + C c0)).coeff i =
    (if 1 < i then P.coeff (i - 2) else 0) + (if 0 < i then P.coeff (i - 1) else 0) * c1 + P.coeff i * c0 := by
  have e : P * (X ^ 2 + C c1 * X + C c0) = P * X ^ 2 + P * X * C c1 + P * C c0 := by ring
  rw [e, coeff_add, coeff_add, coeff_mul_C, coeff_mul_C, coeff_mul_X_pow']
  have ex : (P * X).coeff i = if 0 < i then P.coeff (i - 1) else 0 := by
    cases i with
    | zero => simp
    | succ i => simp
  rw [ex]
  rfl

theorem coeff_le_eval {M : ℝ[X]} (h : ∀ i, 0 ≤ M.coeff i) (i : ℕ) : M.coeff i ≤ M.eval 1 := by
  rw [eval_eq_sum_range]
  simp only [one_pow, mul_one]
  by_cases hi : i ≤ M.natDegree
  · exact Finset.single_le_sum (f := fun i => M.coeff i) (fun j _ => h j) (Finset.mem_range.2 (by omega))
  · rw [coeff_eq_zero_of_natDegree_lt (by omega)]
    exact Finset.sum_nonneg fun j _ => h j

variable {F : Type} [Zero F] [Add F] [Sub F] [Mul F] [Fma F] [Neg F]

/-- Every number of the list is near the coefficient of `P` with its index. -/
def Inv (A : FloatArithNeg F) (c : List F) (P M : ℝ[X]) (G τ : ℝ) : Prop :=
  ∀ i, i < c.length → Near A.toFloatArith (sig c i) (P.coeff i) (M.coeff i) G τ

theorem near_if (A : FloatArithNeg F) {c : List F} {P M : ℝ[X]} {G τ : ℝ} (h : Inv A c P M G τ) (hG : 1 ≤ G) (hτ : 0 ≤ τ) (p : Prop) [Decidable p] (i : ℕ)
    (hi : i < c.length) : Near A.toFloatArith (if p then sig c i else 0) (if p then P.coeff i else 0) (if p then M.coeff i else 0) G τ := by
  split
  · exact h i hi
  · exact Near.zero hG hτ le_rfl

/-- The loop over the real roots. -/
theorem reals (A : FloatArithNeg F) (hu : 100 * A.u ≤ 1) (ht : 100 * A.tiny ≤ 1) : ∀ (rs : List F) (c : List F) (P M : ℝ[X]) (G B : ℝ) (n : ℕ),
    (∀ r ∈ rs, A.finite r) → (∀ i, 0 ≤ M.coeff i) → B = M.eval 1 → 1 ≤ B → 1 ≤ G →
    (1 + A.u) ^ (2 * rs.length) * G ≤ 11 / 10 → 20 * ((n + rs.length : ℕ) : ℝ) * A.tiny ≤ 1 →
    4 * (B * (rs.map fun r => 1 + |A.val r|).prod) ≤ A.huge → Inv A c P M G (9 * n * A.tiny * G * B) →
    ∃ c', expandReals rs c = .ok c' ∧ c'.length = c.length ∧
      (∀ i, 0 ≤ (M * (rs.map fun r => X + C |A.val r|).prod).coeff i) ∧
      (M * (rs.map fun r => X + C |A.val r|).prod).eval 1 = B * (rs.map fun r => 1 + |A.val r|).prod ∧
      Inv A c' (P * (rs.map fun r => X - C (A.val r)).prod) (M * (rs.map fun r => X + C |A.val r|).prod)
        ((1 + A.u) ^ (2 * rs.length) * G)
        (9 * (n + rs.length : ℕ) * A.tiny * ((1 + A.u) ^ (2 * rs.length) * G) * (B * (rs.map fun r => 1 + |A.val r|).prod))
  | [], c, P, M, G, B, n, _, hM, hB, _, _, _, _, _, h => by
    refine ⟨c, rfl, rfl, by simpa using hM, by simp [hB], by simpa using h⟩
  | r :: rs, c, P, M, G, B, n, hf, hM, hB, hB1, hG, hg, hn, hh, h => by
    have u0 := A.u_nonneg
    have t0 := A.tiny_nonneg
    have q0 := abs_nonneg (A.val r)
    have g1 : (1 : ℝ) ≤ 1 + A.u := by linarith
    have pr : 1 ≤ (rs.map fun r => 1 + |A.val r|).prod := by
      clear hh hn hg hf
      induction rs with
      | nil => simp
      | cons a l ih =>
        simp only [List.map_cons, List.prod_cons]
        exact one_le_mul_of_one_le_of_one_le (by linarith [abs_nonneg (A.val a)]) ih
    simp only [List.map_cons, List.prod_cons, List.length_cons] at hh hg hn ⊢
    have Bq : 1 ≤ B * (1 + |A.val r|) := one_le_mul_of_one_le_of_one_le hB1 (by linarith)
    have e2 : (1 + A.u) ^ (2 * (rs.length + 1)) * G = (1 + A.u) ^ (2 * rs.length) * ((1 + A.u) ^ 2 * G) := by
      rw [← mul_assoc, ← pow_add]; rfl
    have hG' : 1 ≤ (1 + A.u) ^ 2 * G := one_le_mul_of_one_le_of_one_le (one_le_pow₀ g1) hG
    have hg2 : (1 + A.u) ^ 2 * G ≤ 11 / 10 := by
      rw [e2] at hg
      exact (le_mul_of_one_le_left (by linarith) (one_le_pow₀ g1)).trans hg
    have hh1 : 4 * (B * (1 + |A.val r|)) ≤ A.huge := by
      have : B * (1 + |A.val r|) ≤ B * (1 + |A.val r|) * (rs.map fun r => 1 + |A.val r|).prod := le_mul_of_one_le_right (by linarith) pr
      linarith
    have hnt : 20 * (n : ℝ) * A.tiny ≤ 1 := by
      push_cast at hn
      have : 0 ≤ ((rs.length : ℝ) + 1) * A.tiny := by positivity
      linarith
    have hτ : 0 ≤ 9 * n * A.tiny * G * B := by positivity
    have G11 : G ≤ 11 / 10 := (le_mul_of_one_le_left (by linarith) (one_le_pow₀ g1)).trans hg2
    have hτB : 9 * n * A.tiny * G * B ≤ B / 2 := by
      have a : (n : ℝ) * A.tiny * G ≤ 1 / 20 * (11 / 10) := mul_le_mul (by linarith) G11 (by linarith) (by norm_num)
      have := mul_le_mul_of_nonneg_right a (show 0 ≤ B by linarith)
      linarith
    obtain ⟨c1, a1, a2, a3⟩ := mulBy1_sig c (-r)
    have hM1 : ∀ i, 0 ≤ (M * (X + C |A.val r|)).coeff i := by
      intro i
      rw [coeff_first]
      have := mul_nonneg (hM i) q0
      split
      · have := hM (i - 1); linarith
      · linarith
    have hB' : B * (1 + |A.val r|) = (M * (X + C |A.val r|)).eval 1 := by rw [hB]; simp
    have hcle : ∀ i, M.coeff i ≤ B := fun i => by rw [hB]; exact coeff_le_eval hM i
    have inv1 : Inv A c1 (P * (X - C (A.val r))) (M * (X + C |A.val r|)) ((1 + A.u) ^ 2 * G)
        (9 * (n + 1 : ℕ) * A.tiny * ((1 + A.u) ^ 2 * G) * (B * (1 + |A.val r|))) := by
      intro i hi
      rw [a2] at hi
      rw [a3 i hi, show X - C (A.val r) = X + C (-A.val r) by rw [C_neg, sub_eq_add_neg], coeff_first, coeff_first]
      have z := step1 A (near_if A h hG hτ (0 < i) (i - 1) (by omega)) (h i hi) (hf r (by simp)) hG hτ hB1
        (by split; exacts [hcle _, by linarith]) (hcle i) hτB hu ht hg2 hh1
      refine z.mono le_rfl ?_
      push_cast
      have a : A.tiny ≤ A.tiny * (G * (B * (1 + |A.val r|))) :=
        le_mul_of_one_le_right t0 (one_le_mul_of_one_le_of_one_le hG Bq)
      have b : 0 ≤ A.tiny * (G * (B * (1 + |A.val r|))) := by positivity
      have d : (9 * n * A.tiny * G * B * (1 + |A.val r|) + A.tiny) ≤ 9 * (n + 1) * (A.tiny * (G * (B * (1 + |A.val r|)))) := by linarith
      have := mul_le_mul_of_nonneg_left d (show 0 ≤ (1 + A.u) ^ 2 by positivity)
      linarith
    obtain ⟨c2, b1, b2, b3, b4, b5⟩ := reals A hu ht rs c1 _ _ _ _ (n + 1) (fun a ha => hf a (by simp [ha])) hM1 hB' Bq hG'
      (by rw [← e2]; exact hg) (by rw [show n + 1 + rs.length = n + (rs.length + 1) by omega]; exact hn)
      (by rw [mul_assoc]; exact hh) inv1
    refine ⟨c2, by rw [expandReals, a1, Out.ok_bind, b1], by omega, ?_, ?_, ?_⟩
    · rw [← mul_assoc]; exact b3
    · rw [← mul_assoc, ← mul_assoc]; exact b4
    · rw [← mul_assoc P, ← mul_assoc M, ← mul_assoc B, e2, show n + (rs.length + 1) = n + 1 + rs.length by omega]
      exact b5

/-- The loop over the pairs. -/
theorem pairs (A : FloatArithNeg F) (hu : 100 * A.u ≤ 1) (ht : 100 * A.tiny ≤ 1) (two : F) (h2 : A.finite two ∧ A.val two = -2)
    (Q : Cx F → ℝ) (hQ : ∀ z, Q z = 1 + 2 * |A.val z.re| + (A.val z.re * A.val z.re + A.val z.im * A.val z.im)) :
    ∀ (rs : List (Cx F)) (c : List F) (P M : ℝ[X]) (G B : ℝ) (n : ℕ),
    (∀ r ∈ rs, FinC A r) → (∀ i, 0 ≤ M.coeff i) → B = M.eval 1 → 1 ≤ B → 1 ≤ G →
    (1 + A.u) ^ (4 * rs.length) * G ≤ 11 / 10 → 20 * ((n + rs.length : ℕ) : ℝ) * A.tiny ≤ 1 →
    4 * (B * (rs.map Q).prod) ≤ A.huge → Inv A c P M G (9 * n * A.tiny * G * B) →
    ∃ c', PocketF.expandPairs two rs c = .ok c' ∧ c'.length = c.length ∧
      Inv A c' (P * (rs.map fun z => X ^ 2 + C (-2 * A.val z.re) * X + C (A.val z.re * A.val z.re + A.val z.im * A.val z.im)).prod)
        (M * (rs.map fun z => X ^ 2 + C (2 * |A.val z.re|) * X + C (A.val z.re * A.val z.re + A.val z.im * A.val z.im)).prod)
        ((1 + A.u) ^ (4 * rs.length) * G)
        (9 * (n + rs.length : ℕ) * A.tiny * ((1 + A.u) ^ (4 * rs.length) * G) * (B * (rs.map Q).prod))
  | [], c, P, M, G, B, n, _, hM, hB, _, _, _, _, _, h => by
    refine ⟨c, rfl, rfl, by simpa using h⟩
  | r :: rs, c, P, M, G, B, n, hf, hM, hB, hB1, hG, hg, hn, hh, h => by
    have u0 := A.u_nonneg
    have t0 := A.tiny_nonneg
    have q0 := abs_nonneg (A.val r.re)
    have s0 : 0 ≤ A.val r.re * A.val r.re + A.val r.im * A.val r.im := add_nonneg (mul_self_nonneg _) (mul_self_nonneg _)
    have Q1 : ∀ z, 1 ≤ Q z := by
      intro z
      rw [hQ]
      have := abs_nonneg (A.val z.re)
      have := mul_self_nonneg (A.val z.re)
      have := mul_self_nonneg (A.val z.im)
      linarith
    have g1 : (1 : ℝ) ≤ 1 + A.u := by linarith
    have pr : 1 ≤ (rs.map Q).prod := by
      clear hh hn hg hf
      induction rs with
      | nil => simp
      | cons a l ih =>
        simp only [List.map_cons, List.prod_cons]
        exact one_le_mul_of_one_le_of_one_le (Q1 a) ih
    simp only [List.map_cons, List.prod_cons, List.length_cons] at hh hg hn ⊢
    have qr := Q1 r
    have Bq : 1 ≤ B * Q r := one_le_mul_of_one_le_of_one_le hB1 qr
    have e2 : (1 + A.u) ^ (4 * (rs.length + 1)) * G = (1 + A.u) ^ (4 * rs.length) * ((1 + A.u) ^ 4 * G) := by
      rw [← mul_assoc, ← pow_add]; rfl
    have hG' : 1 ≤ (1 + A.u) ^ 4 * G := one_le_mul_of_one_le_of_one_le (one_le_pow₀ g1) hG
    have hg2 : (1 + A.u) ^ 4 * G ≤ 11 / 10 := by
      rw [e2] at hg
      exact (le_mul_of_one_le_left (by linarith) (one_le_pow₀ g1)).trans hg
    have hh1 : 4 * (B * Q r) ≤ A.huge := by
      have : B * Q r ≤ B * Q r * (rs.map Q).prod := le_mul_of_one_le_right (by linarith) pr
      linarith
    have hnt : 20 * (n : ℝ) * A.tiny ≤ 1 := by
      push_cast at hn
      have : 0 ≤ ((rs.length : ℝ) + 1) * A.tiny := by positivity
      linarith
    have hτ : 0 ≤ 9 * n * A.tiny * G * B := by positivity
    have G11 : G ≤ 11 / 10 := (le_mul_of_one_le_left (by linarith) (one_le_pow₀ g1)).trans hg2
    have hτB : 9 * n * A.tiny * G * B ≤ B / 2 := by
      have a : (n : ℝ) * A.tiny * G ≤ 1 / 20 * (11 / 10) := mul_le_mul (by linarith) G11 (by linarith) (by norm_num)
      have := mul_le_mul_of_nonneg_right a (show 0 ≤ B by linarith)
      linarith
    obtain ⟨c1, a1, a2, a3⟩ := mulBy2_sig c (r.re * r.re + r.im * r.im) (two * r.re)
    have nn : ∀ (p : Prop) [Decidable p] (i : ℕ), 0 ≤ (if p then M.coeff i else 0) := by
      intro p _ i
      split
      · exact hM i
      · exact le_rfl
    have hM1 : ∀ i, 0 ≤ (M * (X ^ 2 + C (2 * |A.val r.re|) * X + C (A.val r.re * A.val r.re + A.val r.im * A.val r.im))).coeff i := by
      intro i
      rw [coeff_second]
      have := mul_nonneg (hM i) s0
      have := nn (1 < i) (i - 2)
      have := mul_nonneg (nn (0 < i) (i - 1)) (show 0 ≤ 2 * |A.val r.re| by positivity)
      linarith
    have hB' : B * Q r = (M * (X ^ 2 + C (2 * |A.val r.re|) * X + C (A.val r.re * A.val r.re + A.val r.im * A.val r.im))).eval 1 := by
      rw [hB, hQ]; simp
    have hcle : ∀ i, M.coeff i ≤ B := fun i => by rw [hB]; exact coeff_le_eval hM i
    have hcle' : ∀ (p : Prop) [Decidable p] (i : ℕ), (if p then M.coeff i else 0) ≤ B := by
      intro p _ i
      split
      · exact hcle i
      · linarith
    have inv1 : Inv A c1 (P * (X ^ 2 + C (-2 * A.val r.re) * X + C (A.val r.re * A.val r.re + A.val r.im * A.val r.im)))
        (M * (X ^ 2 + C (2 * |A.val r.re|) * X + C (A.val r.re * A.val r.re + A.val r.im * A.val r.im))) ((1 + A.u) ^ 4 * G)
        (9 * (n + 1 : ℕ) * A.tiny * ((1 + A.u) ^ 4 * G) * (B * Q r)) := by
      intro i hi
      rw [a2] at hi
      rw [a3 i hi, coeff_second, coeff_second]
      have z := step2 A (near_if A h hG hτ (1 < i) (i - 2) (by omega)) (near_if A h hG hτ (0 < i) (i - 1) (by omega)) (h i hi) h2.1 h2.2
        (hf r (by simp)).1 (hf r (by simp)).2 hG hτ hB1 (hcle' _ _) (hcle' _ _) (hcle i) hτB hu ht hg2 (hQ r) hh1
      refine z.mono le_rfl ?_
      push_cast
      have a : A.tiny * (G * B) ≤ A.tiny * (G * B) * Q r := le_mul_of_one_le_right (by positivity) qr
      have d : 9 * n * A.tiny * G * B * Q r + 9 * A.tiny * (G * B) ≤ 9 * (n + 1) * (A.tiny * (G * B) * Q r) := by linarith
      have := mul_le_mul_of_nonneg_left d (show 0 ≤ (1 + A.u) ^ 4 by positivity)
      linarith
    obtain ⟨c2, b1, b2, b5⟩ := pairs A hu ht two h2 Q hQ rs c1 _ _ _ _ (n + 1) (fun a ha => hf a (by simp [ha])) hM1 hB' Bq hG'
      (by rw [← e2]; exact hg) (by rw [show n + 1 + rs.length = n + (rs.length + 1) by omega]; exact hn)
      (by rw [mul_assoc]; exact hh) inv1
    refine ⟨c2, by rw [PocketF.expandPairs, a1, Out.ok_bind, b1], by omega, ?_⟩
    rw [← mul_assoc P, ← mul_assoc M, ← mul_assoc B, e2, show n + (rs.length + 1) = n + 1 + rs.length by omega]
    exact b5

end ExpandF
end Verif
