import Verif.Lemmas.Systems
import Verif.Lemmas.IirFilter
import Mathlib.RingTheory.PowerSeries.Basic
import Mathlib.FieldTheory.RatFunc.AsPolynomial

/-! Responses as identities between power series in `z⁻¹`, truncated to the length of the signal. -/

set_option linter.unusedSimpArgs false
set_option linter.unusedSectionVars false

namespace Verif
open Finset

/-- The signal as a power series. -/
noncomputable def ser (x : List ℝ) : PowerSeries ℝ := PowerSeries.mk (sig x)

/-- The coefficient list, last coefficient first, as a polynomial in `z⁻¹`. -/
noncomputable def revP (c : List ℝ) : Polynomial ℝ :=
  ∑ k ∈ range c.length, Polynomial.C (sig c (c.length - 1 - k)) * Polynomial.X ^ k

theorem coeff_revP_mul (a y : List ℝ) (n : ℕ) :
    PowerSeries.coeff n ((revP a : PowerSeries ℝ) * ser y) =
      ∑ k ∈ range a.length, sig a (a.length - 1 - k) * sigI y ((n : ℤ) - k) := by
  have : (revP a : PowerSeries ℝ) = ∑ k ∈ range a.length, PowerSeries.C (sig a (a.length - 1 - k)) * PowerSeries.X ^ k := by
    unfold revP
    rw [← Polynomial.coeToPowerSeries.ringHom_apply, map_sum]
    apply sum_congr rfl
    intro k _
    simp
  rw [this, sum_mul, map_sum]
  apply sum_congr rfl
  intro k _
  rw [mul_assoc, PowerSeries.coeff_C_mul, PowerSeries.coeff_X_pow_mul']
  congr 1
  split
  · rename_i h
    rw [ser, PowerSeries.coeff_mk, show (n : ℤ) - k = ((n - k : ℕ) : ℤ) by omega, sigI_nat]
  · rename_i h
    rw [sigI_neg (by omega)]

theorem isResponse_iff (b a x y : List ℝ) : IsResponse b a x y ↔ y.length = x.length ∧
    PowerSeries.X ^ x.length ∣ (revP a : PowerSeries ℝ) * ser y - (revP b : PowerSeries ℝ) * ser x := by
  unfold IsResponse
  rw [PowerSeries.X_pow_dvd_iff]
  refine and_congr_right fun _ => forall_congr' fun n => forall_congr' fun _ => ?_
  rw [map_sub, coeff_revP_mul, coeff_revP_mul, sub_eq_zero]

theorem cascade_series : ∀ (ss : List (SectionCoeffs ℝ)) (x y : List ℝ), IsCascadeResponse ss x y →
    y.length = x.length ∧
    PowerSeries.X ^ x.length ∣ (((ss.map fun s => revP (s.den ++ [1])).prod : Polynomial ℝ) : PowerSeries ℝ) * ser y -
      (((ss.map fun s => revP s.num).prod : Polynomial ℝ) : PowerSeries ℝ) * ser x
  | [], x, y, h => by
    have h : y = x := h
    subst h
    simp
  | s :: ss, x, y, ⟨m, h1, h2⟩ => by
    rw [isResponse_iff] at h1
    obtain ⟨e1, d1⟩ := h1
    obtain ⟨e2, d2⟩ := cascade_series ss m y h2
    refine ⟨e2.trans e1, ?_⟩
    rw [e1] at d2
    simp only [List.map_cons, List.prod_cons, Polynomial.coe_mul]
    obtain ⟨p, hp⟩ := d1
    obtain ⟨q, hq⟩ := d2
    refine ⟨(revP (s.den ++ [1]) : PowerSeries ℝ) * q +
      (((ss.map fun s => revP s.num).prod : Polynomial ℝ) : PowerSeries ℝ) * p, ?_⟩
    rw [mul_add, mul_left_comm, ← hq, mul_left_comm, ← hp]
    ring

/-! ### polynomials in `z⁻¹` from values at `1/q` -/

theorem polyEval_sum {U : Type} [CommRing U] [Algebra ℝ U] (x : U) (c : List ℝ) :
    polyEval (algebraMap ℝ U) c x = ∑ i ∈ range c.length, algebraMap ℝ U (sig c i) * x ^ i := by
  unfold polyEval
  rw [List.foldl_reverse]
  induction c with
  | nil => simp
  | cons a c ih =>
    rw [List.foldr_cons, ih, List.length_cons, sum_range_succ', mul_sum]
    congr 1
    · apply sum_congr rfl
      intro i _
      rw [show sig (a :: c) (i + 1) = sig c i by simp [sig]]
      ring
    · simp [sig]

/-- `revP c` is `q ^ degree * c (1/q)`. -/
theorem revP_ratFunc (c : List ℝ) (n : ℕ) (h : c.length = n + 1) :
    algebraMap (Polynomial ℝ) (RatFunc ℝ) (revP c) =
      RatFunc.X ^ n * polyEval (algebraMap ℝ (RatFunc ℝ)) c (RatFunc.X)⁻¹ := by
  rw [polyEval_sum, revP, map_sum, mul_sum, h]
  rw [← sum_range_reflect (fun i => RatFunc.X ^ n * (algebraMap ℝ (RatFunc ℝ) (sig c i) * (RatFunc.X)⁻¹ ^ i))]
  apply sum_congr rfl
  intro k hk
  rw [mem_range] at hk
  have hx : (RatFunc.X : RatFunc ℝ) ≠ 0 := RatFunc.X_ne_zero
  rw [map_mul, map_pow, RatFunc.algebraMap_X, RatFunc.algebraMap_C, RatFunc.algebraMap_eq_C]
  have e : (RatFunc.X : RatFunc ℝ) ^ n = RatFunc.X ^ (n + 1 - 1 - k) * RatFunc.X ^ k := by
    rw [← pow_add]; congr 1; omega
  rw [e, inv_pow]
  have hk' : (RatFunc.X : RatFunc ℝ) ^ (n + 1 - 1 - k) ≠ 0 := pow_ne_zero _ hx
  field_simp

theorem revP_section_num (b : Biquad ℝ) (h : b.Proper) :
    algebraMap (Polynomial ℝ) (RatFunc ℝ) (revP [b.n0, b.n1, b.n2]) =
      RatFunc.X ^ b.numOrder * b.numVal (RatFunc.X)⁻¹ := by
  have hx : (RatFunc.X : RatFunc ℝ) ≠ 0 := RatFunc.X_ne_zero
  obtain ⟨⟨h1, h2, h3⟩, -⟩ := h
  have e : revP [b.n0, b.n1, b.n2] = Polynomial.C b.n2 + Polynomial.C b.n1 * Polynomial.X +
      Polynomial.C b.n0 * Polynomial.X ^ 2 := by
    simp [revP, sum_range_succ, sig]
  rw [e]
  simp only [map_add, map_mul, map_pow, RatFunc.algebraMap_X, RatFunc.algebraMap_C]
  unfold Biquad.numVal
  simp only [RatFunc.algebraMap_eq_C]
  obtain h | h | h : b.numOrder = 0 ∨ b.numOrder = 1 ∨ b.numOrder = 2 := by omega
  · rw [h, h2 (by omega), h3 h]; simp [xsAt]
  · rw [h, h2 (by omega)]; simp [xsAt]; field_simp; ring
  · rw [h]; simp [xsAt]; field_simp; ring

theorem revP_section_den (b : Biquad ℝ) (h : b.Proper) :
    algebraMap (Polynomial ℝ) (RatFunc ℝ) (revP ([b.d0, b.d1] ++ [1])) =
      RatFunc.X ^ b.denOrder * b.denVal (RatFunc.X)⁻¹ := by
  have hx : (RatFunc.X : RatFunc ℝ) ≠ 0 := RatFunc.X_ne_zero
  obtain ⟨-, ⟨h1, h2, h3⟩⟩ := h
  have e : revP ([b.d0, b.d1] ++ [1]) = 1 + Polynomial.C b.d1 * Polynomial.X +
      Polynomial.C b.d0 * Polynomial.X ^ 2 := by
    simp [revP, sum_range_succ, sig]
  rw [e]
  simp only [map_add, map_mul, map_pow, RatFunc.algebraMap_X, RatFunc.algebraMap_C, map_one]
  unfold Biquad.denVal
  simp only [RatFunc.algebraMap_eq_C]
  obtain h | h | h : b.denOrder = 0 ∨ b.denOrder = 1 ∨ b.denOrder = 2 := by omega
  · rw [h, h2 (by omega), h3 h]; simp [xsAt]
  · rw [h, h2 (by omega)]; simp [xsAt]; field_simp; ring
  · rw [h]; simp [xsAt]; field_simp; ring

theorem pow_sum_prod {A : Type} (l : List A) (f : A → ℕ) (g : A → RatFunc ℝ) :
    (l.map fun a => RatFunc.X ^ f a * g a).prod = RatFunc.X ^ (l.map f).sum * (l.map g).prod := by
  induction l with
  | nil => simp
  | cons a l ih => simp only [List.map_cons, List.prod_cons, List.sum_cons, ih]; ring

/-! ### monic denominators -/

theorem rootPoly_monic (rs : List ℝ) (zs : List ℂ) :
    (rootPoly rs zs).Monic ∧ (rootPoly rs zs).natDegree = rs.length + 2 * zs.length := by
  have h1 : ∀ rs : List ℝ, ((rs.map fun r => (Polynomial.X - Polynomial.C r : Polynomial ℝ)).prod).Monic ∧
      ((rs.map fun r => (Polynomial.X - Polynomial.C r : Polynomial ℝ)).prod).natDegree = rs.length := by
    intro rs
    induction rs with
    | nil => simp
    | cons r rs ih =>
      rw [List.map_cons, List.prod_cons]
      have hm := Polynomial.monic_X_sub_C r
      exact ⟨hm.mul ih.1, by rw [hm.natDegree_mul ih.1, ih.2, Polynomial.natDegree_X_sub_C, List.length_cons]; ring⟩
  have hq : ∀ z : ℂ, (Polynomial.X ^ 2 + Polynomial.C (-2 * z.re) * Polynomial.X +
        Polynomial.C (z.re * z.re + z.im * z.im) : Polynomial ℝ).Monic ∧
      (Polynomial.X ^ 2 + Polynomial.C (-2 * z.re) * Polynomial.X +
        Polynomial.C (z.re * z.re + z.im * z.im) : Polynomial ℝ).natDegree = 2 := by
    intro z
    have e : (Polynomial.X ^ 2 + Polynomial.C (-2 * z.re) * Polynomial.X +
        Polynomial.C (z.re * z.re + z.im * z.im) : Polynomial ℝ) = Polynomial.C 1 * Polynomial.X ^ 2 +
        Polynomial.C (-2 * z.re) * Polynomial.X + Polynomial.C (z.re * z.re + z.im * z.im) := by simp
    rw [e]
    refine ⟨?_, Polynomial.natDegree_quadratic one_ne_zero⟩
    unfold Polynomial.Monic
    rw [Polynomial.leadingCoeff_quadratic one_ne_zero]
  have h2 : ∀ zs : List ℂ, ((zs.map fun z => (Polynomial.X ^ 2 + Polynomial.C (-2 * z.re) * Polynomial.X +
        Polynomial.C (z.re * z.re + z.im * z.im) : Polynomial ℝ)).prod).Monic ∧
      ((zs.map fun z => (Polynomial.X ^ 2 + Polynomial.C (-2 * z.re) * Polynomial.X +
        Polynomial.C (z.re * z.re + z.im * z.im) : Polynomial ℝ)).prod).natDegree = 2 * zs.length := by
    intro zs
    induction zs with
    | nil => simp
    | cons r rs ih =>
      rw [List.map_cons, List.prod_cons]
      exact ⟨(hq r).1.mul ih.1, by rw [(hq r).1.natDegree_mul ih.1, ih.2, (hq r).2, List.length_cons]; ring⟩
  exact ⟨(h1 rs).1.mul (h2 zs).1, by
    rw [rootPoly, (h1 rs).1.natDegree_mul (h2 zs).1, (h1 rs).2, (h2 zs).2]⟩

theorem expand_monic {p : FactoredPoly} (hp : p.WF) {c : List ℝ} (h : expandPolynomial p = .ok c) :
    sig c (c.length - 1) = 1 := by
  obtain ⟨c', h1, h2, h3⟩ := expandPolynomial_coeffs hp
  rw [h] at h1
  cases h1
  obtain ⟨m1, m2⟩ := rootPoly_monic p.realRoots p.complexPairs
  rw [h2, h3]
  rw [realRoots_length hp, complexPairs_length] at m2
  rw [show p.numRoots + 1 - 1 = (rootPoly p.realRoots p.complexPairs).natDegree from m2.symm]
  exact m1

/-- The cascade and the transfer function of the same system obey the same difference equation. -/
theorem cascade_isResponse (sort : List Poly3 → List Poly3) (hsort : ∀ l, (sort l).Perm l) (s : Zpk)
    (hz : s.zeros.WF) (hp : s.poles.WF) (h0 : s.order ≠ 0) {secs : List (Biquad ℝ)} {sys : TransferFn ℝ}
    (h1 : cascadedBiquad sort s = .ok secs) (h2 : TransferFn.ofZpk s = .ok sys) (x y : List ℝ)
    (h : IsCascadeResponse (secs.map Biquad.coeffs) x y) : IsResponse sys.num sys.den x y := by
  obtain ⟨secs', a1, -, -, -, -, a2, a3, a4, a5, a6⟩ := cascadedBiquad_spec (U := RatFunc ℝ) sort hsort s hz hp
  rw [h1] at a1
  cases a1
  obtain ⟨cn, b1, b2, b3⟩ := expand_eval (U := RatFunc ℝ) hz (RatFunc.X)⁻¹
  obtain ⟨cd, d1, d2, d3⟩ := expand_eval (U := RatFunc ℝ) hp (RatFunc.X)⁻¹
  unfold TransferFn.ofZpk at h2
  rw [b1, Out.ok_bind, d1, Out.ok_bind] at h2
  cases h2
  simp only
  have hinj : Function.Injective (algebraMap (Polynomial ℝ) (RatFunc ℝ)) := RatFunc.algebraMap_injective ℝ
  have hden : (secs.map fun b => revP (b.coeffs.den ++ [1])).prod = revP cd := by
    apply hinj
    rw [map_list_prod, List.map_map, revP_ratFunc cd _ d2, d3, ← a4, ← a3, ← pow_sum_prod]
    congr 1
    apply List.map_congr_left
    intro b hb
    exact revP_section_den b (a6 b hb)
  have hmap : polyEval (algebraMap ℝ (RatFunc ℝ)) (cn.map fun c => c * s.gain) (RatFunc.X)⁻¹ =
      algebraMap ℝ (RatFunc ℝ) s.gain * s.zeros.eval (RatFunc.X)⁻¹ := by
    rw [← b3, polyEval_sum, polyEval_sum, List.length_map, mul_sum]
    apply sum_congr rfl
    intro i hi
    rw [mem_range] at hi
    have : sig (cn.map fun c => c * s.gain) i = sig cn i * s.gain := by simp [sig, hi]
    rw [this, map_mul]
    ring
  have hnum : (secs.map fun b => revP b.coeffs.num).prod = revP (cn.map fun c => c * s.gain) := by
    apply hinj
    rw [map_list_prod, List.map_map, revP_ratFunc (cn.map fun c => c * s.gain) s.zeros.numRoots (by simp [b2]),
      hmap, ← a5 h0, ← a2, ← pow_sum_prod]
    congr 1
    apply List.map_congr_left
    intro b hb
    exact revP_section_num b (a6 b hb)
  obtain ⟨e1, e2⟩ := cascade_series _ x y h
  rw [isResponse_iff]
  refine ⟨e1, ?_⟩
  rw [List.map_map, List.map_map] at e2
  rw [← hden, ← hnum]
  exact e2

end Verif
