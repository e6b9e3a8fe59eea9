import Verif.Lemmas.IirDesign
import Mathlib.FieldTheory.KummerExtension
import Mathlib.RingTheory.RootsOfUnity.Complex

set_option linter.unusedSimpArgs false
set_option linter.unusedSectionVars false

namespace Verif
open Complex

/-! ### filling in roots -/

theorem fillPairs {p : FactoredPoly} (hr : p.Reachable) (n : ℕ) (hn : n = p.numPairs) (f : ℕ → ℂ) :
    ∃ q, forN n (fun i (p : FactoredPoly) => p.setPair i (f i)) p = .ok q ∧ q.Reachable ∧ q.numReal = p.numReal ∧
      q.numPairs = p.numPairs ∧ q.realRoots = p.realRoots ∧ q.complexPairs = (List.range n).map f := by
  obtain ⟨q, h1, h2, h3, h4, h5, h6⟩ := forN_inv (body := fun i (p : FactoredPoly) => p.setPair i (f i))
    (fun k q => q.Reachable ∧ q.numReal = p.numReal ∧ q.numPairs = p.numPairs ∧ q.realRoots = p.realRoots ∧
      q.complexPairs = overwrite p.complexPairs 0 ((List.range k).map f)) n p
    ⟨hr, rfl, rfl, rfl, by simp [overwrite_nil]⟩ (by
      rintro k q hk ⟨a1, a2, a3, a4, a5⟩
      obtain ⟨q', b1, b2, b3, b4, b5, b6⟩ := setPair_spec (C27_reachable_wf a1) (show k < q.numPairs by omega) (f k)
      refine ⟨q', b1, .setPair a1 b1, by omega, by omega, by rw [b5, a4], ?_⟩
      rw [b6, a5, List.range_succ, List.map_append, ← overwrite_overwrite _ _ _ _ (by
        rw [complexPairs_length, List.length_map, List.length_range]; omega)]
      rw [List.length_map, List.length_range, zero_add]
      rw [List.map_singleton, ← overwrite_cons _ _ _ _ (by
        rw [overwrite]; simp [complexPairs_length]; omega), overwrite_nil])
  refine ⟨q, h1, h2, h3, h4, h5, ?_⟩
  rw [h6, overwrite_all _ _ (by rw [complexPairs_length, List.length_map, List.length_range]; omega)]

theorem fillReals {p : FactoredPoly} (hr : p.Reachable) (n : ℕ) (hn : n = p.numReal) (f : ℕ → ℝ) :
    ∃ q, forN n (fun i (p : FactoredPoly) => p.setReal i (f i)) p = .ok q ∧ q.Reachable ∧ q.numReal = p.numReal ∧
      q.numPairs = p.numPairs ∧ q.complexPairs = p.complexPairs ∧ q.realRoots = (List.range n).map f := by
  obtain ⟨q, h1, h2, h3, h4, h5, h6⟩ := forN_inv (body := fun i (p : FactoredPoly) => p.setReal i (f i))
    (fun k q => q.Reachable ∧ q.numReal = p.numReal ∧ q.numPairs = p.numPairs ∧ q.complexPairs = p.complexPairs ∧
      q.realRoots = overwrite p.realRoots 0 ((List.range k).map f)) n p
    ⟨hr, rfl, rfl, rfl, by simp [overwrite_nil]⟩ (by
      rintro k q hk ⟨a1, a2, a3, a4, a5⟩
      obtain ⟨q', b1, b2, b3, b4, b5, b6⟩ := setReal_spec (C27_reachable_wf a1) (show k < q.numReal by omega) (f k)
      refine ⟨q', b1, .setReal a1 b1, by omega, by omega, by rw [b6, a4], ?_⟩
      rw [b5, a5, List.range_succ, List.map_append, ← overwrite_overwrite _ _ _ _ (by
        rw [realRoots_length (C27_reachable_wf hr), List.length_map, List.length_range]; omega)]
      rw [List.length_map, List.length_range, zero_add]
      rw [List.map_singleton, ← overwrite_cons _ _ _ _ (by
        rw [overwrite]; simp [realRoots_length (C27_reachable_wf hr)]; omega), overwrite_nil])
  refine ⟨q, h1, h2, h3, h4, h5, ?_⟩
  rw [h6, overwrite_all _ _ (by rw [realRoots_length (C27_reachable_wf hr), List.length_map, List.length_range]; omega)]

/-- A conjugate-symmetric sequence of roots is represented by its first half and, for odd lengths, its middle. -/
theorem symmetric_roots (n : ℕ) (Q : ℕ → ℂ) (r : ℝ) (hQ : ∀ k < n, (starRingEnd ℂ) (Q k) = Q (n - 1 - k))
    (hr : n % 2 = 1 → Q (n / 2) = r) :
    (rootsOf (List.replicate (n % 2) r) ((List.range (n / 2)).map Q)).Perm ((List.range n).map Q) := by
  obtain ⟨m, hm⟩ : ∃ m, m = n / 2 := ⟨_, rfl⟩
  rw [← hm]
  have hsplit : (List.range n).map Q = (List.range m).map Q ++ ((List.range (n % 2)).map fun k => Q (m + k)) ++
      ((List.range m).map fun k => Q (m + n % 2 + k)) := by
    have e : n = m + n % 2 + m := by omega
    conv_lhs => rw [e, List.range_add, List.range_add]
    simp [Function.comp_def]
  have hmid : (List.range (n % 2)).map (fun k => Q (m + k)) = (List.replicate (n % 2) r).map ofReal := by
    rcases Nat.mod_two_eq_zero_or_one n with h | h
    · simp [h]
    · rw [h]; simp [hm, hr h]
  have hlast : ((List.range m).map fun k => Q (m + n % 2 + k)) = (((List.range m).map Q).map (starRingEnd ℂ)).reverse := by
    apply List.ext_getElem
    · simp
    · intro k h1 h2
      simp only [List.length_map, List.length_range] at h1
      simp only [List.getElem_map, List.getElem_range, List.getElem_reverse, List.length_map, List.length_range]
      rw [hQ _ (by omega)]
      congr 1
      omega
  rw [hsplit, hmid, hlast, rootsOf]
  apply List.Perm.append _ (List.reverse_perm _).symm
  exact List.perm_append_comm

theorem rootProduct_range (n : ℕ) (Q : ℕ → ℂ) (x : ℂ) :
    rootProduct ((List.range n).map Q) x = ∏ k ∈ Finset.range n, (x - Q k) := by
  induction n with
  | zero => simp [rootProduct]
  | succ n ih => rw [List.range_succ, List.map_append, rootProduct_append, ih, Finset.prod_range_succ]; simp [rootProduct]

/-! ### Butterworth -/

/-- The poles of the `n`-th order Butterworth prototype. -/
noncomputable def butterPole (n k : ℕ) : ℂ := exp (((Real.pi * (1 / 2 + (k : ℝ) / (n : ℝ) + (1 / 2) / (n : ℝ)) : ℝ) : ℂ) * I)

theorem polar_one (θ : ℝ) : polar 1 θ = exp ((θ : ℂ) * I) := by
  rw [exp_mul_I, polar]
  apply Complex.ext
  · simp [← ofReal_cos, ← ofReal_sin]
  · simp [← ofReal_cos, ← ofReal_sin]

theorem butterPole_conj {n k : ℕ} (h : k < n) : (starRingEnd ℂ) (butterPole n k) = butterPole n (n - 1 - k) := by
  unfold butterPole
  rw [← exp_conj, map_mul, conj_ofReal, conj_I, ← Complex.exp_periodic ((Real.pi * _ : ℝ) * -I)]
  congr 1
  have hn : (n : ℂ) ≠ 0 := by exact_mod_cast (by omega : n ≠ 0)
  have hk : ((n - 1 - k : ℕ) : ℂ) = n - 1 - k := by
    rw [Nat.cast_sub (by omega), Nat.cast_sub (by omega)]; simp
  push_cast
  rw [hk]
  field_simp
  ring

theorem butterPole_mid {n : ℕ} (h : n % 2 = 1) : butterPole n (n / 2) = ((-1 : ℝ) : ℂ) := by
  unfold butterPole
  have e : Real.pi * (1 / 2 + ((n / 2 : ℕ) : ℝ) / (n : ℝ) + (1 / 2) / (n : ℝ)) = Real.pi := by
    have hn : (n : ℝ) ≠ 0 := by exact_mod_cast (by omega : n ≠ 0)
    have h2 : (n : ℝ) = 2 * ((n / 2 : ℕ) : ℝ) + 1 := by
      exact_mod_cast (by omega : n = 2 * (n / 2) + 1)
    have e1 : 1 / 2 + ((n / 2 : ℕ) : ℝ) / (n : ℝ) + (1 / 2) / (n : ℝ) = 1 := by
      field_simp
      linarith
    rw [e1, mul_one]
  rw [e, exp_pi_mul_I]
  simp

theorem butterPole_re {n k : ℕ} (h : k < n) : (butterPole n k).re < 0 := by
  unfold butterPole
  rw [exp_ofReal_mul_I_re]
  have hn : (0 : ℝ) < n := by exact_mod_cast (by omega : 0 < n)
  have hk : (k : ℝ) + 1 ≤ n := by exact_mod_cast h
  have hk0 : (0 : ℝ) ≤ k := Nat.cast_nonneg k
  have e : 1 / 2 + (k : ℝ) / (n : ℝ) + (1 / 2) / (n : ℝ) = 1 / 2 + ((k : ℝ) + 1 / 2) / n := by ring
  rw [e]
  have h1 : 0 < ((k : ℝ) + 1 / 2) / n := div_pos (by linarith) hn
  have h2 : ((k : ℝ) + 1 / 2) / n < 1 := by rw [div_lt_one hn]; linarith
  apply Real.cos_neg_of_pi_div_two_lt_of_lt
  · nlinarith [Real.pi_pos]
  · nlinarith [Real.pi_pos]

theorem butterPole_norm (n k : ℕ) : ‖butterPole n k‖ = 1 := by
  unfold butterPole
  exact norm_exp_ofReal_mul_I _

theorem butterworth_spec (n : ℕ) :
    ∃ sys, butterworth n = .ok sys ∧ sys.Reachable ∧ sys.gain = 1 ∧ sys.zeros.numRoots = 0 ∧ sys.zeros.roots = [] ∧
      sys.poles.numRoots = n ∧ sys.poles.roots.Perm ((List.range n).map (butterPole n)) := by
  unfold butterworth
  obtain ⟨q0, a1, a2, a3, a4, a5, a6⟩ := resize_fresh (n % 2) (n / 2) (-1) 0
  rw [a1, Out.ok_bind]
  obtain ⟨q, b1, b2, b3, b4, b5, b6⟩ := fillPairs (.resize .empty a1) (n / 2) a4.symm
    (fun (index : ℕ) => polar 1 (Real.pi * (1 / 2 + (index : ℝ) / (n : ℝ) + (1 / 2) / (n : ℝ))))
  simp only
  rw [b1, Out.ok_bind]
  refine exists_ok rfl ⟨⟨.empty, b2⟩, rfl, rfl, ?_, ?_, ?_⟩
  · simp [FactoredPoly.roots, FactoredPoly.empty, FactoredPoly.realRoots, FactoredPoly.complexPairs, rootsOf]
  · simp only [FactoredPoly.numRoots]; omega
  · simp only [FactoredPoly.roots]
    rw [b5, a5, b6]
    have e : (List.range (n / 2)).map
        (fun (index : ℕ) => polar 1 (Real.pi * (1 / 2 + (index : ℝ) / (n : ℝ) + (1 / 2) / (n : ℝ)))) =
        (List.range (n / 2)).map (butterPole n) :=
      List.map_congr_left (fun k _ => polar_one _)
    rw [e]
    exact symmetric_roots n (butterPole n) (-1) (fun k hk => butterPole_conj hk) butterPole_mid

theorem prod_pow_sub (n : ℕ) (hn : 0 < n) (x α : ℂ) :
    ∏ k ∈ Finset.range n, (x - exp (2 * Real.pi * I / n) ^ k * α) = x ^ n - α ^ n := by
  have h := X_pow_sub_C_eq_prod (isPrimitiveRoot_exp n hn.ne') (α := α) hn rfl
  have h' := congrArg (Polynomial.eval x) h
  simpa [Polynomial.eval_prod] using h'.symm

theorem butterPole_geom {n : ℕ} (hn : 0 < n) (k : ℕ) :
    butterPole n k = exp (2 * Real.pi * I / ((2 * n : ℕ) : ℂ)) ^ k * butterPole n 0 := by
  unfold butterPole
  rw [← exp_nat_mul, ← exp_add]
  congr 1
  have hn' : (n : ℂ) ≠ 0 := by exact_mod_cast hn.ne'
  push_cast
  field_simp
  ring

/-- The squared magnitude of the Butterworth polynomial on the imaginary axis. -/
theorem butterworth_normSq {n : ℕ} (hn : 0 < n) (w : ℝ) :
    normSq (rootProduct ((List.range n).map (butterPole n)) (I * w)) = 1 + w ^ (2 * n) := by
  have h2n : 0 < 2 * n := by omega
  have hall : ∏ k ∈ Finset.range (2 * n), (I * w - butterPole n k) = (I * w) ^ (2 * n) - butterPole n 0 ^ (2 * n) := by
    rw [← prod_pow_sub (2 * n) h2n]
    exact Finset.prod_congr rfl (fun k _ => by rw [← butterPole_geom hn])
  have hshift : ∀ k, butterPole n (n + k) = -butterPole n k := by
    intro k
    have e : exp (2 * Real.pi * I / ((2 * n : ℕ) : ℂ)) ^ n = -1 := by
      rw [← exp_nat_mul, ← exp_pi_mul_I]
      congr 1
      have hn' : (n : ℂ) ≠ 0 := by exact_mod_cast hn.ne'
      push_cast
      field_simp
    rw [butterPole_geom hn (n + k), pow_add, e, butterPole_geom hn k]
    ring
  have hconj : (starRingEnd ℂ) (∏ k ∈ Finset.range n, (I * w - butterPole n k)) =
      (-1) ^ n * ∏ k ∈ Finset.range n, (I * w - butterPole n (n + k)) := by
    rw [map_prod]
    have e1 : ∀ k ∈ Finset.range n, (starRingEnd ℂ) (I * w - butterPole n k) =
        (-1) * (I * w - butterPole n (n + (n - 1 - k))) := by
      intro k hk
      rw [Finset.mem_range] at hk
      rw [map_sub, map_mul, conj_I, conj_ofReal, butterPole_conj hk, hshift]
      ring
    rw [Finset.prod_congr rfl e1, Finset.prod_mul_distrib, Finset.prod_const, Finset.card_range]
    congr 1
    exact Finset.prod_range_reflect (fun k => I * w - butterPole n (n + k)) n
  have hα : butterPole n 0 ^ (2 * n) = -(-1) ^ n := by
    unfold butterPole
    rw [← exp_nat_mul]
    have e : ((2 * n : ℕ) : ℂ) * (((Real.pi * (1 / 2 + ((0 : ℕ) : ℝ) / (n : ℝ) + (1 / 2) / (n : ℝ)) : ℝ) : ℂ) * I) =
        (n : ℕ) * (Real.pi * I) + Real.pi * I := by
      have hn' : (n : ℂ) ≠ 0 := by exact_mod_cast hn.ne'
      push_cast
      field_simp
      ring
    rw [e, exp_add, exp_nat_mul, exp_pi_mul_I]
    ring
  have key : ((normSq (rootProduct ((List.range n).map (butterPole n)) (I * w)) : ℝ) : ℂ) = 1 + (w : ℂ) ^ (2 * n) := by
    rw [rootProduct_range, ← mul_conj, hconj]
    have e2 : (∏ k ∈ Finset.range n, (I * w - butterPole n k)) *
        ((-1) ^ n * ∏ k ∈ Finset.range n, (I * w - butterPole n (n + k))) =
        (-1) ^ n * ∏ k ∈ Finset.range (2 * n), (I * w - butterPole n k) := by
      rw [two_mul, Finset.prod_range_add]
      ring
    rw [e2, hall, hα, mul_pow, pow_mul, I_sq]
    have e3 : ((-1 : ℂ) ^ n) * (-1) ^ n = 1 := by rw [← mul_pow]; simp
    linear_combination (1 + (w : ℂ) ^ (2 * n)) * e3
  exact_mod_cast key

end Verif
