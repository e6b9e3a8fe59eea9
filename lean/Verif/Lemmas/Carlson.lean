import Verif.Spec.Elliptic
import Mathlib.MeasureTheory.Function.Jacobian
import Mathlib.Topology.Order.IntermediateValue

/-! # Carlson's integral: symmetry, homogeneity, duplication, Taylor polynomial -/

set_option linter.unusedSimpArgs false

namespace Verif
open MeasureTheory Set

/-- substitution on the positive half line -/
theorem integral_substitution (f f' g : ℝ → ℝ) (s : Set ℝ) (hs : MeasurableSet s)
    (hd : ∀ t ∈ s, HasDerivAt f (f' t) t) (hi : InjOn f s) (him : f '' s = Ioi 0) :
    ∫ t in Ioi (0 : ℝ), g t = ∫ t in s, |f' t| * g (f t) := by
  rw [← him, integral_image_eq_integral_abs_deriv_smul hs (fun t ht => (hd t ht).hasDerivWithinAt) hi g]
  rfl

theorem symmetricRF_swap12 (x y z : ℝ) : symmetricRF x y z = symmetricRF y x z := by
  unfold symmetricRF
  congr 2
  ext t
  rw [mul_comm (t + x)]

theorem symmetricRF_swap23 (x y z : ℝ) : symmetricRF x y z = symmetricRF x z y := by
  unfold symmetricRF
  congr 2
  ext t
  rw [mul_right_comm (t + x)]

theorem symmetricRF_scale (c x y z : ℝ) (hc : 0 < c) : symmetricRF (c * x) (c * y) (c * z) = symmetricRF x y z / Real.sqrt c := by
  unfold symmetricRF
  have h := integral_comp_mul_left_Ioi (fun t => 1 / Real.sqrt ((t + c * x) * (t + c * y) * (t + c * z))) 0 hc
  rw [mul_zero] at h
  have e : ∀ t : ℝ, 1 / Real.sqrt ((c * t + c * x) * (c * t + c * y) * (c * t + c * z)) =
      (c * Real.sqrt c)⁻¹ * (1 / Real.sqrt ((t + x) * (t + y) * (t + z))) := by
    intro t
    have : (c * t + c * x) * (c * t + c * y) * (c * t + c * z) = (c * c * c) * ((t + x) * (t + y) * (t + z)) := by ring
    rw [this, Real.sqrt_mul (by positivity), Real.sqrt_mul (by positivity), Real.sqrt_mul_self hc.le]
    rw [one_div, one_div, mul_inv]
  simp only [e] at h
  rw [integral_const_mul] at h
  have hs : 0 < Real.sqrt c := Real.sqrt_pos.2 hc
  rw [smul_eq_mul] at h
  have : (∫ t in Ioi (0 : ℝ), 1 / Real.sqrt ((t + c * x) * (t + c * y) * (t + c * z))) =
      (Real.sqrt c)⁻¹ * ∫ t in Ioi (0 : ℝ), 1 / Real.sqrt ((t + x) * (t + y) * (t + z)) := by
    field_simp at h ⊢
    linarith
  rw [this]
  field_simp

/-- the substitution behind the duplication theorem -/
noncomputable def dupMap (x y z t : ℝ) : ℝ :=
  (t + Real.sqrt (t + x) * Real.sqrt (t + y) + Real.sqrt (t + y) * Real.sqrt (t + z) + Real.sqrt (t + z) * Real.sqrt (t + x) -
    (Real.sqrt x * Real.sqrt y + Real.sqrt y * Real.sqrt z + Real.sqrt z * Real.sqrt x)) / 4

theorem dupMap_strictMono (x y z : ℝ) : StrictMono (dupMap x y z) := by
  intro s t h
  unfold dupMap
  have h1 := Real.sqrt_le_sqrt (show s + x ≤ t + x by linarith)
  have h2 := Real.sqrt_le_sqrt (show s + y ≤ t + y by linarith)
  have h3 := Real.sqrt_le_sqrt (show s + z ≤ t + z by linarith)
  have a1 := mul_le_mul h1 h2 (Real.sqrt_nonneg _) (Real.sqrt_nonneg _)
  have a2 := mul_le_mul h2 h3 (Real.sqrt_nonneg _) (Real.sqrt_nonneg _)
  have a3 := mul_le_mul h3 h1 (Real.sqrt_nonneg _) (Real.sqrt_nonneg _)
  linarith

theorem dupMap_zero (x y z : ℝ) : dupMap x y z 0 = 0 := by
  unfold dupMap
  simp

theorem dupMap_image (x y z : ℝ) : dupMap x y z '' Ioi 0 = Ioi 0 := by
  apply Subset.antisymm
  · rintro _ ⟨t, ht, rfl⟩
    have := dupMap_strictMono x y z ht
    rwa [dupMap_zero] at this
  · intro u hu
    have hu : 0 < u := hu
    have hc : ContinuousOn (dupMap x y z) (Icc 0 (4 * u + (Real.sqrt x * Real.sqrt y + Real.sqrt y * Real.sqrt z + Real.sqrt z * Real.sqrt x))) := by
      unfold dupMap
      fun_prop
    obtain ⟨L, hL⟩ : ∃ L, L = Real.sqrt x * Real.sqrt y + Real.sqrt y * Real.sqrt z + Real.sqrt z * Real.sqrt x := ⟨_, rfl⟩
    have hL0 : 0 ≤ L := by rw [hL]; positivity
    rw [← hL] at hc
    have hle : u ≤ dupMap x y z (4 * u + L) := by
      unfold dupMap
      rw [← hL]
      have : 0 ≤ Real.sqrt (4 * u + L + x) * Real.sqrt (4 * u + L + y) := by positivity
      have : 0 ≤ Real.sqrt (4 * u + L + y) * Real.sqrt (4 * u + L + z) := by positivity
      have : 0 ≤ Real.sqrt (4 * u + L + z) * Real.sqrt (4 * u + L + x) := by positivity
      linarith
    obtain ⟨t, ht, hte⟩ := intermediate_value_Icc (by linarith) hc ⟨by rw [dupMap_zero]; exact hu.le, hle⟩
    refine ⟨t, ?_, hte⟩
    rcases ht.1.lt_or_eq with h | h
    · exact h
    · rw [← h, dupMap_zero] at hte
      linarith

/-- **Duplication theorem** (DLMF 19.26.18) -/
theorem symmetricRF_duplication (x y z : ℝ) (hx : 0 ≤ x) (hy : 0 ≤ y) (hz : 0 ≤ z) :
    symmetricRF ((x + (Real.sqrt x * Real.sqrt y + Real.sqrt y * Real.sqrt z + Real.sqrt z * Real.sqrt x)) / 4)
      ((y + (Real.sqrt x * Real.sqrt y + Real.sqrt y * Real.sqrt z + Real.sqrt z * Real.sqrt x)) / 4)
      ((z + (Real.sqrt x * Real.sqrt y + Real.sqrt y * Real.sqrt z + Real.sqrt z * Real.sqrt x)) / 4) = symmetricRF x y z := by
  obtain ⟨L, hL⟩ : ∃ L, L = Real.sqrt x * Real.sqrt y + Real.sqrt y * Real.sqrt z + Real.sqrt z * Real.sqrt x := ⟨_, rfl⟩
  rw [← hL]
  unfold symmetricRF
  congr 1
  rw [integral_substitution (dupMap x y z)
    (fun t => (Real.sqrt (t + x) + Real.sqrt (t + y)) * (Real.sqrt (t + y) + Real.sqrt (t + z)) * (Real.sqrt (t + z) + Real.sqrt (t + x)) /
      (8 * (Real.sqrt (t + x) * Real.sqrt (t + y) * Real.sqrt (t + z)))) _ (Ioi 0) measurableSet_Ioi ?_
    (dupMap_strictMono x y z).injective.injOn (dupMap_image x y z)]
  · apply setIntegral_congr_fun measurableSet_Ioi
    intro t ht
    have ht : 0 < t := ht
    simp only []
    have ha : 0 < Real.sqrt (t + x) := Real.sqrt_pos.2 (by linarith)
    have hb : 0 < Real.sqrt (t + y) := Real.sqrt_pos.2 (by linarith)
    have hc : 0 < Real.sqrt (t + z) := Real.sqrt_pos.2 (by linarith)
    have ha2 : Real.sqrt (t + x) ^ 2 = t + x := Real.sq_sqrt (by linarith)
    have hb2 : Real.sqrt (t + y) ^ 2 = t + y := Real.sq_sqrt (by linarith)
    have hc2 : Real.sqrt (t + z) ^ 2 = t + z := Real.sq_sqrt (by linarith)
    have hroot : Real.sqrt ((t + x) * (t + y) * (t + z)) = Real.sqrt (t + x) * Real.sqrt (t + y) * Real.sqrt (t + z) := by
      rw [Real.sqrt_mul (by positivity), Real.sqrt_mul (by linarith)]
    rw [hroot]
    have hd : dupMap x y z t = (t + Real.sqrt (t + x) * Real.sqrt (t + y) + Real.sqrt (t + y) * Real.sqrt (t + z) +
        Real.sqrt (t + z) * Real.sqrt (t + x) - L) / 4 := by rw [hL]; rfl
    rw [hd]
    generalize Real.sqrt (t + x) = a at *
    generalize Real.sqrt (t + y) = b at *
    generalize Real.sqrt (t + z) = c at *
    have e : ((t + a * b + b * c + c * a - L) / 4 + (x + L) / 4) * ((t + a * b + b * c + c * a - L) / 4 + (y + L) / 4) *
        ((t + a * b + b * c + c * a - L) / 4 + (z + L) / 4) = ((a + b) * (b + c) * (c + a) / 8) * ((a + b) * (b + c) * (c + a) / 8) := by
      have e1 : (t + a * b + b * c + c * a - L) / 4 + (x + L) / 4 = (a + b) * (c + a) / 4 := by linear_combination (-1 / 4) * ha2
      have e2 : (t + a * b + b * c + c * a - L) / 4 + (y + L) / 4 = (a + b) * (b + c) / 4 := by linear_combination (-1 / 4) * hb2
      have e3 : (t + a * b + b * c + c * a - L) / 4 + (z + L) / 4 = (c + a) * (b + c) / 4 := by linear_combination (-1 / 4) * hc2
      rw [e1, e2, e3]
      ring
    rw [e, Real.sqrt_mul_self (by positivity), abs_of_pos (by positivity)]
    field_simp
  · intro t ht
    have ht : 0 < t := ht
    have hxp : 0 < t + x := by linarith
    have hyp : 0 < t + y := by linarith
    have hzp : 0 < t + z := by linarith
    have hda : HasDerivAt (fun t : ℝ => Real.sqrt (t + x)) (1 / (2 * Real.sqrt (t + x))) t :=
      ((hasDerivAt_id t).add_const x).sqrt hxp.ne'
    have hdb : HasDerivAt (fun t : ℝ => Real.sqrt (t + y)) (1 / (2 * Real.sqrt (t + y))) t :=
      ((hasDerivAt_id t).add_const y).sqrt hyp.ne'
    have hdc : HasDerivAt (fun t : ℝ => Real.sqrt (t + z)) (1 / (2 * Real.sqrt (t + z))) t :=
      ((hasDerivAt_id t).add_const z).sqrt hzp.ne'
    have h := (((((hasDerivAt_id t).add (hda.mul hdb)).add (hdb.mul hdc)).add (hdc.mul hda)).sub_const L).div_const 4
    have ha : 0 < Real.sqrt (t + x) := Real.sqrt_pos.2 hxp
    have hb : 0 < Real.sqrt (t + y) := Real.sqrt_pos.2 hyp
    have hc : 0 < Real.sqrt (t + z) := Real.sqrt_pos.2 hzp
    have hfun : dupMap x y z = fun t => (id t + Real.sqrt (t + x) * Real.sqrt (t + y) + Real.sqrt (t + y) * Real.sqrt (t + z) +
        Real.sqrt (t + z) * Real.sqrt (t + x) - L) / 4 := by
      rw [hL]; rfl
    rw [hfun]
    refine h.congr_deriv ?_
    generalize Real.sqrt (t + x) = a at *
    generalize Real.sqrt (t + y) = b at *
    generalize Real.sqrt (t + z) = c at *
    field_simp
    ring

/-! ### near equal arguments -/

theorem inv_sq_image : (fun v : ℝ => 1 / v ^ 2 - 1) '' Ioo 0 1 = Ioi 0 := by
  ext u
  simp only [mem_image, mem_Ioo, mem_Ioi]
  constructor
  · rintro ⟨v, ⟨h0, h1⟩, rfl⟩
    have : 1 < 1 / v ^ 2 := by
      rw [lt_div_iff₀ (by positivity)]
      nlinarith
    linarith
  · intro hu
    have hs : 0 < Real.sqrt (1 + u) := Real.sqrt_pos.2 (by linarith)
    refine ⟨1 / Real.sqrt (1 + u), ⟨by positivity, ?_⟩, ?_⟩
    · rw [div_lt_one hs]
      exact Real.lt_sqrt_of_sq_lt (by linarith)
    · rw [one_div_pow, Real.sq_sqrt (by linarith)]
      field_simp
      ring

theorem symmetricRF_near (X Y Z : ℝ) (hs : X + Y + Z = 0) (hX : X < 1) (hY : Y < 1) (hZ : Z < 1) :
    symmetricRF (1 - X) (1 - Y) (1 - Z) =
      ∫ v in (0 : ℝ)..1, 1 / Real.sqrt (1 + ((X * Y + X * Z + Y * Z) * v ^ 4 - X * Y * Z * v ^ 6)) := by
  unfold symmetricRF
  rw [integral_substitution (fun v : ℝ => 1 / v ^ 2 - 1) (fun v => -2 / v ^ 3) _ (Ioo 0 1) measurableSet_Ioo ?_ ?_ inv_sq_image]
  · rw [intervalIntegral.integral_of_le zero_le_one, integral_Ioc_eq_integral_Ioo, ← integral_const_mul]
    apply setIntegral_congr_fun measurableSet_Ioo
    rintro v ⟨h0, h1⟩
    simp only []
    have hv1 : v ^ 2 < 1 := by nlinarith
    have hq : ∀ W, W < 1 → 0 < 1 - W * v ^ 2 := by
      intro W hW
      by_cases h : 0 ≤ W
      · nlinarith [sq_nonneg v]
      · nlinarith [sq_nonneg v]
    have e : (1 / v ^ 2 - 1 + (1 - X)) * (1 / v ^ 2 - 1 + (1 - Y)) * (1 / v ^ 2 - 1 + (1 - Z)) =
        (1 / v ^ 3) * (1 / v ^ 3) * (1 + ((X * Y + X * Z + Y * Z) * v ^ 4 - X * Y * Z * v ^ 6)) := by
      have hZ' : Z = -X - Y := by linarith
      subst hZ'
      field_simp
      ring
    have e' : 1 + ((X * Y + X * Z + Y * Z) * v ^ 4 - X * Y * Z * v ^ 6) = (1 - X * v ^ 2) * (1 - Y * v ^ 2) * (1 - Z * v ^ 2) := by
      have hZ' : Z = -X - Y := by linarith
      subst hZ'
      ring
    have hp : 0 < 1 + ((X * Y + X * Z + Y * Z) * v ^ 4 - X * Y * Z * v ^ 6) := by
      rw [e']
      exact mul_pos (mul_pos (hq X hX) (hq Y hY)) (hq Z hZ)
    rw [e, Real.sqrt_mul (by positivity), Real.sqrt_mul_self (by positivity), abs_of_neg (by
      apply div_neg_of_neg_of_pos <;> [norm_num; positivity])]
    have := Real.sqrt_pos.2 hp
    field_simp
  · rintro v ⟨h0, h1⟩
    have h := ((hasDerivAt_pow 2 v).inv (by positivity)).sub_const 1
    have hf : (fun v : ℝ => 1 / v ^ 2 - 1) = fun v => (v ^ 2)⁻¹ - 1 := by
      ext v
      rw [one_div]
    rw [hf]
    refine h.congr_deriv ?_
    simp
    field_simp
  · rintro a ⟨ha, -⟩ b ⟨hb, -⟩ hab
    simp only [sub_left_inj, one_div, inv_inj] at hab
    exact (pow_left_inj₀ ha.le hb.le (by norm_num)).1 hab

/-- the binomial series of the inverse square root -/
theorem inv_sqrt_taylor (u : ℝ) (h : |u| ≤ 1 / 4) :
    |1 / Real.sqrt (1 + u) - (1 - u / 2 + 3 * u ^ 2 / 8 - 5 * u ^ 3 / 16)| ≤ u ^ 4 / 2 := by
  have hu2 : 0 ≤ u ^ 2 := sq_nonneg u
  have ha : |u| ^ 2 = u ^ 2 := sq_abs u
  have ha0 := abs_nonneg u
  have hu2' : u ^ 2 ≤ 1 / 16 := by
    rw [← ha]
    calc |u| ^ 2 ≤ (1 / 4) ^ 2 := by gcongr
      _ = 1 / 16 := by norm_num
  have hu3 : |u ^ 3| ≤ 1 / 64 := by
    rw [abs_pow]
    calc |u| ^ 3 ≤ (1 / 4) ^ 3 := by gcongr
      _ = 1 / 64 := by norm_num
  have hu4 : 0 ≤ u ^ 4 := by positivity
  have hu4' : u ^ 4 ≤ 1 / 256 := by
    have : u ^ 4 = (u ^ 2) ^ 2 := by ring
    rw [this]
    calc (u ^ 2) ^ 2 ≤ (1 / 16) ^ 2 := by gcongr
      _ = 1 / 256 := by norm_num
  rw [abs_le] at h hu3
  have hu : 0 < 1 + u := by linarith
  obtain ⟨r, hr⟩ : ∃ r, r = Real.sqrt (1 + u) := ⟨_, rfl⟩
  obtain ⟨p, hp⟩ : ∃ p, p = 1 - u / 2 + 3 * u ^ 2 / 8 - 5 * u ^ 3 / 16 := ⟨_, rfl⟩
  rw [← hr, ← hp]
  have hr2 : r ^ 2 = 1 + u := by rw [hr, Real.sq_sqrt hu.le]
  have hr1 : 4 / 5 ≤ r := by
    rw [hr]
    apply Real.le_sqrt_of_sq_le
    linarith
  have hpu : p * (1 + u) = 1 + u / 2 - u ^ 2 / 8 + u ^ 3 / 16 - 5 * u ^ 4 / 16 := by rw [hp]; ring
  have hpu1 : 4 / 5 ≤ p * (1 + u) := by rw [hpu]; linarith
  have key : (1 / r - p) * (r + p * (1 + u)) = u ^ 4 * (35 / 64 - 14 * u / 64 + 35 * u ^ 2 / 256 - 25 * u ^ 3 / 256) := by
    have h1 : (1 / r - p) * (r + p * (1 + u)) = 1 - p ^ 2 * (1 + u) + p * ((1 + u) / r - r) := by
      have : r ≠ 0 := by linarith
      field_simp
      ring
    have h2 : (1 + u) / r - r = 0 := by
      have : r ≠ 0 := by linarith
      rw [← hr2]
      field_simp
      ring
    rw [h1, h2, hp]
    ring
  have hnum : 35 / 64 - 14 * u / 64 + 35 * u ^ 2 / 256 - 25 * u ^ 3 / 256 ≤ 4 / 5 := by linarith
  have hnum0 : 0 ≤ 35 / 64 - 14 * u / 64 + 35 * u ^ 2 / 256 - 25 * u ^ 3 / 256 := by linarith
  obtain ⟨D, hD⟩ : ∃ D, D = r + p * (1 + u) := ⟨_, rfl⟩
  obtain ⟨n, hn⟩ : ∃ n, n = 35 / 64 - 14 * u / 64 + 35 * u ^ 2 / 256 - 25 * u ^ 3 / 256 := ⟨_, rfl⟩
  have hden : 8 / 5 ≤ D := by rw [hD]; linarith
  rw [← hD, ← hn] at key
  rw [← hn] at hnum hnum0
  have hD0 : D ≠ 0 := by linarith
  have he : 1 / r - p = u ^ 4 * (n / D) := by
    rw [← mul_div_assoc, ← key]
    field_simp
  have hq : n / D ≤ 1 / 2 := by
    rw [div_le_iff₀ (by linarith)]
    linarith
  have hq0 : 0 ≤ n / D := by apply div_nonneg <;> linarith
  rw [he, abs_of_nonneg (by positivity)]
  calc u ^ 4 * (n / D) ≤ u ^ 4 * (1 / 2) := by gcongr
    _ = u ^ 4 / 2 := by ring

/-- the polynomial the library evaluates -/
theorem rf_taylor (X Y Z δ : ℝ) (hs : X + Y + Z = 0) (hX : |X| ≤ δ) (hY : |Y| ≤ δ) (hZ : |Z| ≤ δ) (hδ : δ ≤ 2 / 5) :
    |(X * Y + X * Z + Y * Z) * (X * Y + X * Z + Y * Z) * (X * Y * Z) / 16 -
      5 * (X * Y + X * Z + Y * Z) * (X * Y + X * Z + Y * Z) * (X * Y + X * Z + Y * Z) / 208 +
      3 * (X * Y * Z) * (X * Y * Z) / 104 - 3 * (X * Y + X * Z + Y * Z) * (X * Y * Z) / 44 +
      (X * Y + X * Z + Y * Z) * (X * Y + X * Z + Y * Z) / 24 + X * Y * Z / 14 - (X * Y + X * Z + Y * Z) / 10 + 1 -
      symmetricRF (1 - X) (1 - Y) (1 - Z)| ≤ δ ^ 8 / 3 * symmetricRF (1 - X) (1 - Y) (1 - Z) := by
  have hδ0 : 0 ≤ δ := le_trans (abs_nonneg _) hX
  rw [symmetricRF_near X Y Z hs (by linarith [le_abs_self X]) (by linarith [le_abs_self Y]) (by linarith [le_abs_self Z])]
  obtain ⟨E2, hE2⟩ : ∃ E2, E2 = X * Y + X * Z + Y * Z := ⟨_, rfl⟩
  obtain ⟨E3, hE3⟩ : ∃ E3, E3 = X * Y * Z := ⟨_, rfl⟩
  rw [← hE2, ← hE3]
  have h2 : |E2| ≤ δ ^ 2 := by
    have hZ' : Z = -X - Y := by linarith
    have hneg : -E2 = X ^ 2 + X * Y + Y ^ 2 := by rw [hE2, hZ']; ring
    have hXs : X ^ 2 ≤ δ ^ 2 := sq_le_sq' (abs_le.1 hX).1 (abs_le.1 hX).2
    have hYs : Y ^ 2 ≤ δ ^ 2 := sq_le_sq' (abs_le.1 hY).1 (abs_le.1 hY).2
    have hZs : Z ^ 2 ≤ δ ^ 2 := sq_le_sq' (abs_le.1 hZ).1 (abs_le.1 hZ).2
    have hpos : 0 ≤ -E2 := by
      rw [hneg]
      nlinarith [sq_nonneg (X + Y), sq_nonneg X, sq_nonneg Y]
    rw [← abs_neg, abs_of_nonneg hpos, hneg]
    by_cases hXY : 0 ≤ X * Y
    · rw [hZ'] at hZs
      nlinarith
    · push Not at hXY
      by_cases hc : X ^ 2 ≤ Y ^ 2
      · nlinarith [abs_mul_abs_self X, abs_mul_abs_self Y, sq_abs X, sq_abs Y, abs_nonneg X, abs_nonneg Y, abs_mul X Y, abs_of_neg hXY,
          sq_le_sq.1 hc]
      · push Not at hc
        nlinarith [abs_mul_abs_self X, abs_mul_abs_self Y, sq_abs X, sq_abs Y, abs_nonneg X, abs_nonneg Y, abs_mul X Y, abs_of_neg hXY,
          sq_lt_sq.1 hc]
  have h3 : |E3| ≤ δ ^ 3 := by
    rw [hE3, abs_mul, abs_mul]
    calc |X| * |Y| * |Z| ≤ δ * δ * δ := by gcongr
      _ = δ ^ 3 := by ring
  clear hE2 hE3 hX hY hZ hs
  have hu : ∀ v ∈ Icc (0 : ℝ) 1, |E2 * v ^ 4 - E3 * v ^ 6| ≤ (δ ^ 2 + δ ^ 3) * v ^ 4 := by
    rintro v ⟨hv0, hv1⟩
    calc |E2 * v ^ 4 - E3 * v ^ 6| ≤ |E2 * v ^ 4| + |E3 * v ^ 6| := abs_sub _ _
      _ = |E2| * v ^ 4 + |E3| * v ^ 6 := by rw [abs_mul, abs_mul, abs_of_nonneg (show 0 ≤ v ^ 4 by positivity), abs_of_nonneg (show 0 ≤ v ^ 6 by positivity)]
      _ ≤ δ ^ 2 * v ^ 4 + δ ^ 3 * v ^ 4 := by
        have : v ^ 6 ≤ v ^ 4 := pow_le_pow_of_le_one hv0 hv1 (by norm_num)
        gcongr
      _ = _ := by ring
  have hd : δ ^ 2 + δ ^ 3 ≤ 7 / 5 * δ ^ 2 := by nlinarith [sq_nonneg δ]
  have hd2 : δ ^ 2 ≤ 4 / 25 := by nlinarith
  have hu1 : ∀ v ∈ Icc (0 : ℝ) 1, |E2 * v ^ 4 - E3 * v ^ 6| ≤ 1 / 4 := by
    intro v hv
    refine (hu v hv).trans ?_
    have : v ^ 4 ≤ 1 := pow_le_one₀ hv.1 hv.2
    have h0 : 0 ≤ v ^ 4 := by have := hv.1; positivity
    calc (δ ^ 2 + δ ^ 3) * v ^ 4 ≤ (7 / 5 * δ ^ 2) * 1 := by gcongr
      _ ≤ 1 / 4 := by linarith
  obtain ⟨J, hJ⟩ : ∃ J, J = ∫ v in (0 : ℝ)..1, 1 / Real.sqrt (1 + (E2 * v ^ 4 - E3 * v ^ 6)) := ⟨_, rfl⟩
  rw [← hJ]
  have hcont : ContinuousOn (fun v : ℝ => 1 / Real.sqrt (1 + (E2 * v ^ 4 - E3 * v ^ 6))) (uIcc 0 1) := by
    rw [uIcc_of_le zero_le_one]
    apply ContinuousOn.div continuousOn_const (by fun_prop)
    intro v hv
    have := abs_le.1 (hu1 v hv)
    exact (Real.sqrt_pos.2 (by linarith)).ne'
  have hint := hcont.intervalIntegrable (μ := volume)
  have hJ1 : 4 / 5 ≤ J := by
    have hc : ∫ _ in (0 : ℝ)..1, (4 / 5 : ℝ) = 4 / 5 := by simp
    rw [hJ, ← hc]
    apply intervalIntegral.integral_mono_on zero_le_one (by simp) hint
    intro v hv
    have := abs_le.1 (hu1 v hv)
    rw [div_le_div_iff₀ (by norm_num) (Real.sqrt_pos.2 (by linarith))]
    have h5 : Real.sqrt (1 + (E2 * v ^ 4 - E3 * v ^ 6)) ≤ 5 / 4 := by
      apply Real.sqrt_le_iff.2
      constructor
      · norm_num
      · linarith
    linarith
  -- the polynomial
  have hP : ∫ v in (0 : ℝ)..1, (1 - (E2 * v ^ 4 - E3 * v ^ 6) / 2 + 3 * (E2 * v ^ 4 - E3 * v ^ 6) ^ 2 / 8 -
      5 * (E2 * v ^ 4 - E3 * v ^ 6) ^ 3 / 16) =
      E2 * E2 * E3 / 16 - 5 * E2 * E2 * E2 / 208 + 3 * E3 * E3 / 104 - 3 * E2 * E3 / 44 + E2 * E2 / 24 + E3 / 14 - E2 / 10 + 1
        - 15 * E2 * E3 ^ 2 / 272 + 5 * E3 ^ 3 / 304 := by
    rw [intervalIntegral.integral_eq_sub_of_hasDerivAt (f := fun v : ℝ => v - E2 * v ^ 5 / 10 + E3 * v ^ 7 / 14 + E2 ^ 2 * v ^ 9 / 24 -
      3 * E2 * E3 * v ^ 11 / 44 + 3 * E3 ^ 2 * v ^ 13 / 104 - 5 * E2 ^ 3 * v ^ 13 / 208 + E2 ^ 2 * E3 * v ^ 15 / 16 -
      15 * E2 * E3 ^ 2 * v ^ 17 / 272 + 5 * E3 ^ 3 * v ^ 19 / 304) ?_ (Continuous.intervalIntegrable (by fun_prop) _ _)]
    · norm_num
      ring
    · intro v _
      have hm : ∀ (c d : ℝ) (n : ℕ), HasDerivAt (fun v : ℝ => c * v ^ n / d) (c * (n * v ^ (n - 1)) / d) v := fun c d n =>
        ((hasDerivAt_pow n v).const_mul c).div_const d
      have h := (((((((((hasDerivAt_id v).sub (hm E2 10 5)).add (hm E3 14 7)).add (hm (E2 ^ 2) 24 9)).sub (hm (3 * E2 * E3) 44 11)).add
        (hm (3 * E3 ^ 2) 104 13)).sub (hm (5 * E2 ^ 3) 208 13)).add (hm (E2 ^ 2 * E3) 16 15)).sub (hm (15 * E2 * E3 ^ 2) 272 17)).add
        (hm (5 * E3 ^ 3) 304 19)
      refine h.congr_deriv ?_
      norm_num
      ring
  have herr : |J - ∫ v in (0 : ℝ)..1, (1 - (E2 * v ^ 4 - E3 * v ^ 6) / 2 + 3 * (E2 * v ^ 4 - E3 * v ^ 6) ^ 2 / 8 -
      5 * (E2 * v ^ 4 - E3 * v ^ 6) ^ 3 / 16)| ≤ δ ^ 8 * (17 / 8) / 17 := by
    rw [hJ, ← intervalIntegral.integral_sub hint (Continuous.intervalIntegrable (by fun_prop) _ _)]
    have hb : ∫ v in (0 : ℝ)..1, (δ ^ 8 * (17 / 8)) * v ^ 16 = δ ^ 8 * (17 / 8) / 17 := by
      rw [intervalIntegral.integral_const_mul, integral_pow]
      norm_num
      ring
    rw [← hb, ← Real.norm_eq_abs]
    apply intervalIntegral.norm_integral_le_of_norm_le zero_le_one
    · refine Filter.Eventually.of_forall fun v hv => ?_
      have hv' : v ∈ Icc (0 : ℝ) 1 := ⟨hv.1.le, hv.2⟩
      rw [Real.norm_eq_abs]
      refine (inv_sqrt_taylor _ (hu1 v hv')).trans ?_
      have h4 : (E2 * v ^ 4 - E3 * v ^ 6) ^ 4 ≤ (7 / 5 * δ ^ 2 * v ^ 4) ^ 4 := by
        rw [← Even.pow_abs (by decide : Even 4)]
        have hv4 : 0 ≤ v ^ 4 := by have := hv'.1; positivity
        have : |E2 * v ^ 4 - E3 * v ^ 6| ≤ 7 / 5 * δ ^ 2 * v ^ 4 := (hu v hv').trans (by gcongr)
        gcongr
      calc (E2 * v ^ 4 - E3 * v ^ 6) ^ 4 / 2 ≤ (7 / 5 * δ ^ 2 * v ^ 4) ^ 4 / 2 := by gcongr
        _ = δ ^ 8 * ((7 / 5) ^ 4 / 2) * v ^ 16 := by ring
        _ ≤ δ ^ 8 * (17 / 8) * v ^ 16 := by
          have h8 : 0 ≤ δ ^ 8 := by positivity
          have h16 : 0 ≤ v ^ 16 := by have := hv'.1; positivity
          exact mul_le_mul_of_nonneg_right (mul_le_mul_of_nonneg_left (by norm_num) h8) h16
    · exact Continuous.intervalIntegrable (by fun_prop) _ _
  rw [hP] at herr
  have hd1 : |15 * E2 * E3 ^ 2 / 272| ≤ 15 / 272 * δ ^ 8 := by
    have : |15 * E2 * E3 ^ 2 / 272| = 15 / 272 * (|E2| * |E3| ^ 2) := by
      rw [abs_div, abs_mul, abs_mul, abs_pow]
      norm_num
      ring
    rw [this]
    calc 15 / 272 * (|E2| * |E3| ^ 2) ≤ 15 / 272 * (δ ^ 2 * (δ ^ 3) ^ 2) := by gcongr
      _ = _ := by ring
  have hd2 : |5 * E3 ^ 3 / 304| ≤ 2 / 304 * δ ^ 8 := by
    have : |5 * E3 ^ 3 / 304| = 5 / 304 * |E3| ^ 3 := by
      rw [abs_div, abs_mul, abs_pow]
      norm_num
      ring
    rw [this]
    calc 5 / 304 * |E3| ^ 3 ≤ 5 / 304 * (δ ^ 3) ^ 3 := by gcongr
      _ = 5 / 304 * δ * δ ^ 8 := by ring
      _ ≤ 5 / 304 * (2 / 5) * δ ^ 8 := by
        have : 0 ≤ δ ^ 8 := by positivity
        gcongr
      _ = _ := by ring
  have h8 : 0 ≤ δ ^ 8 := by positivity
  have hfin : δ ^ 8 / 3 * (4 / 5) ≤ δ ^ 8 / 3 * J := by gcongr
  rw [abs_le] at *
  constructor <;> linarith

end Verif
