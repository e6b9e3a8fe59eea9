import Verif.Lemmas.LegendreBounds
import Mathlib.Analysis.Calculus.MeanValue

set_option linter.unusedSimpArgs false
set_option linter.unusedSectionVars false

/-! # Jacobi's elliptic functions of a real argument, and the addition theorem -/

namespace Verif

open Classical in
/-- the amplitude -/
noncomputable def jam (k u : ℝ) : ℝ := if h : ∃ φ, legendreF φ k = u then h.choose else 0
/-- sn of a real argument -/
noncomputable def jsn (k u : ℝ) : ℝ := Real.sin (jam k u)
/-- cn of a real argument -/
noncomputable def jcn (k u : ℝ) : ℝ := Real.cos (jam k u)
/-- dn of a real argument -/
noncomputable def jdn (k u : ℝ) : ℝ := jacobiDelta k (jam k u)

section
variable {k : ℝ} (hk : k ^ 2 < 1)
include hk

theorem legendreF_jam (u : ℝ) : legendreF (jam k u) k = u := by
  have h := (C71_amplitude_unique hk u).exists
  rw [jam, dif_pos h]
  exact h.choose_spec

theorem jam_legendreF (φ : ℝ) : jam k (legendreF φ k) = φ :=
  (C71_amplitude_unique hk (legendreF φ k)).unique (legendreF_jam hk _) rfl

theorem jam_unique {u φ : ℝ} (h : legendreF φ k = u) : jam k u = φ := by rw [← h, jam_legendreF hk]

theorem jam_deriv (u : ℝ) : HasDerivAt (jam k) (jdn k u) u := amplitude_deriv hk (jam k) (legendreF_jam hk) u

theorem jsn_deriv (u : ℝ) : HasDerivAt (jsn k) (jcn k u * jdn k u) u := (Real.hasDerivAt_sin _).comp u (jam_deriv hk u)

theorem jcn_deriv (u : ℝ) : HasDerivAt (jcn k) (-(jsn k u * jdn k u)) u := by
  refine ((Real.hasDerivAt_cos _).comp u (jam_deriv hk u)).congr_deriv ?_
  rw [jsn]; ring

theorem jdn_pos (u : ℝ) : 0 < jdn k u := delta_pos hk _

theorem jdn_deriv (u : ℝ) : HasDerivAt (jdn k) (-(k ^ 2 * (jsn k u * jcn k u))) u := by
  refine ((delta_deriv hk _).comp u (jam_deriv hk u)).congr_deriv ?_
  have := (jdn_pos hk u).ne'
  rw [jdn] at this ⊢
  rw [jsn, jcn]
  field_simp

theorem jcn_sq (u : ℝ) : jcn k u ^ 2 = 1 - jsn k u ^ 2 := by
  have := Real.sin_sq_add_cos_sq (jam k u)
  rw [jsn, jcn]; linarith

theorem jdn_sq (u : ℝ) : jdn k u ^ 2 = 1 - k ^ 2 * jsn k u ^ 2 := delta_sq hk.le _

theorem jsn_sq_le (u : ℝ) : jsn k u ^ 2 ≤ 1 := Real.sin_sq_le_one _

theorem jsn_den_pos (u v : ℝ) : 0 < 1 - k ^ 2 * jsn k u ^ 2 * jsn k v ^ 2 := by
  have h1 := jsn_sq_le hk u
  have h2 := jsn_sq_le hk v
  have h3 : jsn k u ^ 2 * jsn k v ^ 2 ≤ 1 := mul_le_one₀ h1 (sq_nonneg _) h2
  have h4 : k ^ 2 * (jsn k u ^ 2 * jsn k v ^ 2) ≤ k ^ 2 * 1 := mul_le_mul_of_nonneg_left h3 (sq_nonneg k)
  nlinarith

theorem jam_zero : jam k 0 = 0 := jam_unique hk (legendreF_zero k)
theorem jsn_zero : jsn k 0 = 0 := by rw [jsn, jam_zero hk, Real.sin_zero]
theorem jcn_zero : jcn k 0 = 1 := by rw [jcn, jam_zero hk, Real.cos_zero]
theorem jdn_zero : jdn k 0 = 1 := by rw [jdn, jam_zero hk, jacobiDelta]; simp

theorem jam_K : jam k (legendreK k) = Real.pi / 2 := jam_unique hk rfl
theorem jsn_K : jsn k (legendreK k) = 1 := by rw [jsn, jam_K hk, Real.sin_pi_div_two]

theorem jam_add (u : ℝ) : jam k (u + 2 * legendreK k) = jam k u + Real.pi := by
  apply jam_unique hk
  rw [legendreF_add_pi hk, legendreF_jam hk]

theorem jsn_add_period (u : ℝ) : jsn k (u + 2 * legendreK k) = -jsn k u := by
  rw [jsn, jsn, jam_add hk, Real.sin_add_pi]

theorem legendreF_neg' (φ : ℝ) : legendreF (-φ) k = -legendreF φ k := by
  have hd : ∀ φ, HasDerivAt (fun φ => legendreF (-φ) k + legendreF φ k) 0 φ := by
    intro φ
    have h1 := (legendreF_deriv hk (-φ)).comp φ (hasDerivAt_neg φ)
    have := h1.add (legendreF_deriv hk φ)
    refine this.congr_deriv ?_
    rw [Real.sin_neg, neg_sq]; ring
  have h := is_const_of_deriv_eq_zero (fun φ => (hd φ).differentiableAt) (fun φ => (hd φ).deriv) φ 0
  simp only [neg_zero, legendreF_zero, add_zero] at h
  linarith

theorem jam_neg (u : ℝ) : jam k (-u) = -jam k u := by
  apply jam_unique hk
  rw [legendreF_neg' hk, legendreF_jam hk]

theorem jsn_neg (u : ℝ) : jsn k (-u) = -jsn k u := by rw [jsn, jsn, jam_neg hk, Real.sin_neg]
theorem jcn_neg (u : ℝ) : jcn k (-u) = jcn k u := by rw [jcn, jcn, jam_neg hk, Real.cos_neg]
theorem jdn_neg (u : ℝ) : jdn k (-u) = jdn k u := by rw [jdn, jdn, jam_neg hk, jacobiDelta, jacobiDelta, Real.sin_neg, neg_sq]

theorem jam_strictMono : StrictMono (jam k) := by
  apply strictMono_of_deriv_pos
  intro u
  rw [(jam_deriv hk u).deriv]
  exact jdn_pos hk u

/-- the addition theorem of sn -/
theorem jsn_add (u v : ℝ) : jsn k (u + v) =
    (jsn k u * jcn k v * jdn k v + jsn k v * jcn k u * jdn k u) / (1 - k ^ 2 * jsn k u ^ 2 * jsn k v ^ 2) := by
  obtain ⟨C, hC⟩ : ∃ C, C = u + v := ⟨_, rfl⟩
  have hd : ∀ t, HasDerivAt (fun t => (jsn k t * jcn k (C - t) * jdn k (C - t) + jsn k (C - t) * jcn k t * jdn k t) /
      (1 - k ^ 2 * jsn k t ^ 2 * jsn k (C - t) ^ 2)) 0 t := by
    intro t
    have hsub : HasDerivAt (fun t : ℝ => C - t) (-1) t := by simpa using (hasDerivAt_id t).const_sub C
    have s1 := jsn_deriv hk t
    have c1 := jcn_deriv hk t
    have d1 := jdn_deriv hk t
    have s2 := (jsn_deriv hk (C - t)).comp t hsub
    have c2 := (jcn_deriv hk (C - t)).comp t hsub
    have d2 := (jdn_deriv hk (C - t)).comp t hsub
    have hnum := ((s1.mul c2).mul d2).add ((s2.mul c1).mul d1)
    have hden := (((s1.pow 2).const_mul (k ^ 2)).mul (s2.pow 2)).const_sub 1
    have hpos := jsn_den_pos hk t (C - t)
    refine (hnum.div hden hpos.ne').congr_deriv ?_
    rw [div_eq_zero_iff]
    left
    have e1 := jcn_sq hk t
    have e2 := jcn_sq hk (C - t)
    have e3 := jdn_sq hk t
    have e4 := jdn_sq hk (C - t)
    simp only [Function.comp_apply, Pi.mul_apply, Pi.add_apply, Pi.pow_apply]
    generalize jsn k t = S1 at *
    generalize jcn k t = C1 at *
    generalize jdn k t = D1 at *
    generalize jsn k (C - t) = S2 at *
    generalize jcn k (C - t) = C2 at *
    generalize jdn k (C - t) = D2 at *
    have a1 : S2 ^ 2 * (C1 ^ 2 * D1 ^ 2) - S1 ^ 2 * (C2 ^ 2 * D2 ^ 2) = (S2 ^ 2 - S1 ^ 2) * (1 - k ^ 2 * S1 ^ 2 * S2 ^ 2) := by
      rw [e1, e2, e3, e4]; ring
    have a2 : S1 * S2 * ((D2 ^ 2 - D1 ^ 2) + k ^ 2 * (C2 ^ 2 - C1 ^ 2)) = S1 * S2 * (2 * k ^ 2 * (S1 ^ 2 - S2 ^ 2)) := by
      rw [e1, e2, e3, e4]; ring
    simp only [Nat.cast_ofNat, Nat.add_one_sub_one, pow_one, show (2 : ℕ) - 1 = 1 from rfl]
    linear_combination (1 - k ^ 2 * S1 ^ 2 * S2 ^ 2) * a2 + 2 * k ^ 2 * S1 * S2 * a1
  have h := is_const_of_deriv_eq_zero (fun t => (hd t).differentiableAt) (fun t => (hd t).deriv) C u
  simp only [sub_self, jsn_zero hk, jcn_zero hk, jdn_zero hk] at h
  rw [show C - u = v by rw [hC]; ring] at h
  rw [← hC, ← h]
  simp

/-- the product formula -/
theorem jsn_mul (u v : ℝ) : jsn k (u + v) * jsn k (u - v) = (jsn k u ^ 2 - jsn k v ^ 2) / (1 - k ^ 2 * jsn k v ^ 2 * jsn k u ^ 2) := by
  have h := jsn_add hk u (-v)
  rw [jsn_neg hk, jcn_neg hk, jdn_neg hk, neg_sq] at h
  rw [sub_eq_add_neg, jsn_add hk, h]
  have e1 := jcn_sq hk u
  have e2 := jcn_sq hk v
  have e3 := jdn_sq hk u
  have e4 := jdn_sq hk v
  have hpos := (jsn_den_pos hk u v).ne'
  have hpos' : 1 - k ^ 2 * jsn k v ^ 2 * jsn k u ^ 2 = 1 - k ^ 2 * jsn k u ^ 2 * jsn k v ^ 2 := by ring
  rw [hpos']
  generalize jsn k u = S1 at *
  generalize jcn k u = C1 at *
  generalize jdn k u = D1 at *
  generalize jsn k v = S2 at *
  generalize jcn k v = C2 at *
  generalize jdn k v = D2 at *
  have a1 : S2 ^ 2 * (C1 ^ 2 * D1 ^ 2) - S1 ^ 2 * (C2 ^ 2 * D2 ^ 2) = (S2 ^ 2 - S1 ^ 2) * (1 - k ^ 2 * S1 ^ 2 * S2 ^ 2) := by
    rw [e1, e2, e3, e4]; ring
  generalize 1 - k ^ 2 * S1 ^ 2 * S2 ^ 2 = E at *
  field_simp
  linear_combination -a1

/-- the square of sn of a sum, in terms of the square and of the product sn cn dn -/
theorem jsn_add_sq (u v : ℝ) : jsn k (u + v) ^ 2 =
    (jsn k u ^ 2 * (1 - jsn k v ^ 2) * (1 - k ^ 2 * jsn k v ^ 2) + jsn k v ^ 2 * (1 - jsn k u ^ 2) * (1 - k ^ 2 * jsn k u ^ 2) +
      2 * (jsn k u * jcn k u * jdn k u) * (jsn k v * jcn k v * jdn k v)) / (1 - k ^ 2 * jsn k u ^ 2 * jsn k v ^ 2) ^ 2 := by
  rw [jsn_add hk, div_pow]
  congr 1
  rw [← jcn_sq hk u, ← jdn_sq hk u, ← jcn_sq hk v, ← jdn_sq hk v]
  ring

theorem jsn_sub_K (u : ℝ) : jsn k (2 * legendreK k - u) = jsn k u := by
  have h := jsn_add_period hk (-u)
  rw [jsn_neg hk, neg_neg, neg_add_eq_sub] at h
  exact h

theorem jam_mem {u : ℝ} (h0 : 0 < u) (h1 : u < legendreK k) : 0 < jam k u ∧ jam k u < Real.pi / 2 := by
  constructor
  · have := jam_strictMono hk h0; rwa [jam_zero hk] at this
  · have := jam_strictMono hk h1; rwa [jam_K hk] at this

theorem jsn_lt {u v : ℝ} (h0 : 0 ≤ u) (huv : u < v) (hv : v ≤ legendreK k) : jsn k u < jsn k v := by
  apply Real.sin_lt_sin_of_lt_of_le_pi_div_two
  · have := (jam_strictMono hk).monotone h0
    rw [jam_zero hk] at this
    linarith [Real.pi_pos]
  · have := (jam_strictMono hk).monotone hv
    rwa [jam_K hk] at this
  · exact jam_strictMono hk huv

theorem jcn_pos {u : ℝ} (h0 : 0 ≤ u) (h1 : u < legendreK k) : 0 < jcn k u := by
  apply Real.cos_pos_of_mem_Ioo
  have h2 := (jam_strictMono hk).monotone h0
  have h3 := jam_strictMono hk h1
  rw [jam_zero hk] at h2
  rw [jam_K hk] at h3
  exact ⟨by linarith [Real.pi_pos], h3⟩

theorem legendreK_pos : 0 < legendreK k := by have := legendreK_ge hk; linarith [Real.pi_pos]

end
end Verif
