import Verif.Model.Elliptic
import Verif.Lemmas.Carlson

/-! # Property C69: Carlson's symmetric elliptic integral -/

set_option linter.unusedSimpArgs false

namespace Verif
open Set

theorem whileN_add {σ : Type} {cond : σ → Bool} {body : σ → Out σ} : ∀ (fuel : ℕ) (s s' : σ) (j : ℕ),
    whileN fuel cond body s = .ok s' → whileN (fuel + j) cond body s = .ok s'
  | 0, _, _, _, h => by simp [whileN] at h
  | fuel + 1, s, s', j, h => by
    rw [show fuel + 1 + j = fuel + j + 1 by omega]
    unfold whileN at h ⊢
    split
    · rename_i hc
      rw [if_pos hc] at h
      cases hb : body s with
      | ok t =>
        rw [hb, Out.ok_bind] at h
        rw [Out.ok_bind]
        exact whileN_add fuel t s' j h
      | assertFail => rw [hb] at h; simp [bind, Out.bind] at h
      | throws => rw [hb] at h; simp [bind, Out.bind] at h
      | ub => rw [hb] at h; simp [bind, Out.bind] at h
    · rename_i hc
      rwa [if_neg hc] at h

theorem fsqrt_ok {x : ℝ} (h : 0 ≤ x) : fsqrt x = .ok (Real.sqrt x) := by rw [fsqrt, if_pos h]

/-! ### the loop -/

/-- what the loop of `CarlsonRF` keeps: `δ` is the inverse of the factor of `Q`, `R` the value to be computed -/
structure RfInv (δ R : ℝ) (s : RfState ℝ) : Prop where
  x0 : 0 ≤ s.x
  y0 : 0 ≤ s.y
  z0 : 0 ≤ s.z
  l0 : 0 ≤ s.lambda
  amn : s.Amn = (s.x + s.y + s.z) / 3
  an : s.An = s.Amn + s.lambda
  qx : |s.Amn - s.x| ≤ δ * s.Q
  qy : |s.Amn - s.y| ≤ δ * s.Q
  qz : |s.Amn - s.z| ≤ δ * s.Q
  value : symmetricRF (s.x + s.lambda) (s.y + s.lambda) (s.z + s.lambda) = R

/-- the step of the mean -/
noncomputable def rfLambda (s : RfState ℝ) : ℝ :=
  Real.sqrt (s.x + s.lambda) * Real.sqrt (s.y + s.lambda) + Real.sqrt (s.y + s.lambda) * Real.sqrt (s.z + s.lambda) +
    Real.sqrt (s.z + s.lambda) * Real.sqrt (s.x + s.lambda)

theorem rfStep_ok {δ R : ℝ} {s : RfState ℝ} (h : RfInv δ R s) :
    ∃ s', rfStep s = .ok s' ∧ RfInv δ R s' ∧ s'.Q = s.Q / 4 ∧ s'.x + s'.lambda = (s.x + s.lambda + rfLambda s) / 4 ∧
      s'.y + s'.lambda = (s.y + s.lambda + rfLambda s) / 4 ∧ s'.z + s'.lambda = (s.z + s.lambda + rfLambda s) / 4 := by
  obtain ⟨x, y, z, Amn, An, l, Q⟩ := s
  obtain ⟨hx, hy, hz, hl, hamn, han, qx, qy, qz, hv⟩ := h
  simp only at *
  have hp : ∀ a b : ℝ, 0 ≤ a → 0 ≤ b → fsqrt (a * b + (a + b) * l + l * l) = .ok (Real.sqrt (a + l) * Real.sqrt (b + l)) := by
    intro a b ha hb
    rw [fsqrt_ok (by positivity), ← Real.sqrt_mul (by positivity)]
    congr 2
    ring
  have hL : 0 ≤ rfLambda ⟨x, y, z, Amn, An, l, Q⟩ := by
    unfold rfLambda
    positivity
  have hsum : Real.sqrt (x + l) * Real.sqrt (y + l) + Real.sqrt (x + l) * Real.sqrt (z + l) + Real.sqrt (z + l) * Real.sqrt (y + l) =
      rfLambda ⟨x, y, z, Amn, An, l, Q⟩ := by
    unfold rfLambda
    ring
  obtain ⟨L, hLe⟩ : ∃ L, L = rfLambda ⟨x, y, z, Amn, An, l, Q⟩ := ⟨_, rfl⟩
  rw [← hLe] at hL hsum ⊢
  refine ⟨⟨x / 4, y / 4, z / 4, Amn / 4, Amn / 4 + (l + L) / 4, (l + L) / 4, Q / 4⟩, ?_, ?_, rfl, by ring, by ring, by ring⟩
  · unfold rfStep
    simp only []
    rw [hp x y hx hy, Out.ok_bind, hp x z hx hz, Out.ok_bind, hp z y hz hy, Out.ok_bind, hsum]
    rfl
  · have hq : ∀ a : ℝ, |Amn - a| ≤ δ * Q → |Amn / 4 - a / 4| ≤ δ * (Q / 4) := by
      intro a ha
      rw [show Amn / 4 - a / 4 = (Amn - a) / 4 by ring, abs_div, abs_of_pos (show (0 : ℝ) < 4 by norm_num)]
      linarith
    refine ⟨by simp only; positivity, by simp only; positivity, by simp only; positivity, by simp only; positivity, ?_, rfl, hq x qx, hq y qy, hq z qz, ?_⟩
    · simp only
      rw [hamn]
      ring
    · simp only
      rw [← hv, ← symmetricRF_duplication (x + l) (y + l) (z + l) (by positivity) (by positivity) (by positivity)]
      have : Real.sqrt (x + l) * Real.sqrt (y + l) + Real.sqrt (y + l) * Real.sqrt (z + l) + Real.sqrt (z + l) * Real.sqrt (x + l) = L := by
        rw [← hsum]; ring
      rw [this]
      congr 1 <;> ring

/-- all three arguments are at least `m` -/
def RfAbove (m : ℝ) (s : RfState ℝ) : Prop := m ≤ s.x + s.lambda ∧ m ≤ s.y + s.lambda ∧ m ≤ s.z + s.lambda

theorem rfLambda_above {m : ℝ} (hm : 0 ≤ m) {s : RfState ℝ} (h : RfAbove m s) : 3 * m ≤ rfLambda s := by
  obtain ⟨h1, h2, h3⟩ := h
  have e : m = Real.sqrt m * Real.sqrt m := (Real.mul_self_sqrt hm).symm
  have a1 := Real.sqrt_le_sqrt h1
  have a2 := Real.sqrt_le_sqrt h2
  have a3 := Real.sqrt_le_sqrt h3
  have b1 := mul_le_mul a1 a2 (Real.sqrt_nonneg _) (Real.sqrt_nonneg _)
  have b2 := mul_le_mul a2 a3 (Real.sqrt_nonneg _) (Real.sqrt_nonneg _)
  have b3 := mul_le_mul a3 a1 (Real.sqrt_nonneg _) (Real.sqrt_nonneg _)
  unfold rfLambda
  linarith

theorem rf_loop (δ R m : ℝ) (hm : 0 < m) : ∀ (k : ℕ) (s : RfState ℝ), RfInv δ R s → RfAbove m s → s.Q ≤ 4 ^ k * m →
    ∃ s', whileN (k + 1) (fun s : RfState ℝ => decide (s.Q > |s.An|)) rfStep s = .ok s' ∧ RfInv δ R s' ∧ s'.Q ≤ |s'.An| ∧ m ≤ s'.An
  | k, s, h, ha, hq => by
    have hA' : m ≤ s.An := by
      obtain ⟨h1, h2, h3⟩ := ha
      rw [h.an, h.amn]
      linarith
    have hA : m ≤ |s.An| := le_trans hA' (le_abs_self _)
    by_cases hc : s.Q > |s.An|
    · match k with
      | 0 =>
        exfalso
        simp at hq
        linarith
      | k + 1 =>
        obtain ⟨t, e1, ht, hQ, hx, hy, hz⟩ := rfStep_ok h
        have hL := rfLambda_above hm.le ha
        obtain ⟨h1, h2, h3⟩ := ha
        obtain ⟨s', e2, hs', hs2⟩ := rf_loop δ R m hm k t ht ⟨by rw [hx]; linarith, by rw [hy]; linarith, by rw [hz]; linarith⟩ (by
          rw [hQ, pow_succ] at *
          linarith)
        refine ⟨s', ?_, hs', hs2⟩
        rw [whileN, if_pos (decide_eq_true hc), e1, Out.ok_bind, e2]
    · refine ⟨s, ?_, h, not_lt.1 hc, hA'⟩
      rw [whileN, if_neg (by simpa using hc)]

theorem four_pow_large (Q m : ℝ) (hm : 0 < m) : ∃ k : ℕ, Q ≤ 4 ^ k * m := by
  obtain ⟨k, hk⟩ := pow_unbounded_of_one_lt (Q / m) (show (1 : ℝ) < 4 by norm_num)
  exact ⟨k, by rw [div_lt_iff₀ hm] at hk; exact hk.le⟩

/-- the loop ends from every legal start -/
theorem rf_loop_start (δ R : ℝ) (s : RfState ℝ) (h : RfInv δ R s) (hL : 0 < rfLambda s) (hA : 0 < s.An) :
    ∃ N s', (∀ fuel, N ≤ fuel → whileN fuel (fun s : RfState ℝ => decide (s.Q > |s.An|)) rfStep s = .ok s') ∧ RfInv δ R s' ∧
      s'.Q ≤ |s'.An| ∧ 0 < s'.An := by
  by_cases hc : s.Q > |s.An|
  · obtain ⟨t, e1, ht, hQ, hx, hy, hz⟩ := rfStep_ok h
    have hx0 := h.x0
    have hy0 := h.y0
    have hz0 := h.z0
    have hl0 := h.l0
    obtain ⟨k, hk⟩ := four_pow_large t.Q (rfLambda s / 4) (by positivity)
    obtain ⟨s', e2, hs', hs2, hs3⟩ := rf_loop δ R (rfLambda s / 4) (by positivity) k t ht
      ⟨by rw [hx]; linarith, by rw [hy]; linarith, by rw [hz]; linarith⟩ hk
    refine ⟨k + 2, s', fun fuel hf => ?_, hs', hs2, by linarith⟩
    obtain ⟨j, rfl⟩ := Nat.exists_eq_add_of_le hf
    apply whileN_add
    rw [whileN, if_pos (decide_eq_true hc), e1, Out.ok_bind, e2]
  · refine ⟨1, s, fun fuel hf => ?_, h, not_lt.1 hc, hA⟩
    obtain ⟨j, rfl⟩ := Nat.exists_eq_add_of_le hf
    apply whileN_add
    rw [whileN, if_neg (by simpa using hc)]

/-- at most one of the three is zero -/
def AtMostOneZero (x y z : ℝ) : Prop := 0 < x + y ∧ 0 < y + z ∧ 0 < z + x

theorem zeroCount (x y z : ℝ) (hx : 0 ≤ x) (hy : 0 ≤ y) (hz : 0 ≤ z) : open Classical in
    (if x = 0 then 1 else 0) + (if y = 0 then 1 else 0) + (if z = 0 then 1 else 0) ≥ 2 ↔ ¬ AtMostOneZero x y z := by
  have key : ∀ a b : ℝ, 0 ≤ a → 0 ≤ b → (0 < a + b ↔ ¬ (a = 0 ∧ b = 0)) := by
    intro a b ha hb
    constructor
    · rintro h ⟨rfl, rfl⟩
      simp at h
    · intro h
      rcases ha.eq_or_lt with h1 | h1
      · rcases hb.eq_or_lt with h2 | h2
        · exact absurd ⟨h1.symm, h2.symm⟩ h
        · linarith
      · linarith
  rw [AtMostOneZero, key x y hx hy, key y z hy hz, key z x hz hx]
  by_cases h1 : x = 0 <;> by_cases h2 : y = 0 <;> by_cases h3 : z = 0 <;> simp [h1, h2, h3]

/-! ### C69 -/

theorem rfLambda_start (eps x y z : ℝ) (hx : 0 ≤ x) (hy : 0 ≤ y) (h : AtMostOneZero x y z) :
    0 < rfLambda (rfStart eps x y z) := by
  obtain ⟨h1, h2, h3⟩ := h
  unfold rfLambda rfStart
  simp only [add_zero]
  rcases hx.eq_or_lt with hx' | hx'
  · have hy' : 0 < y := by linarith
    have hz' : 0 < z := by linarith
    have := mul_pos (Real.sqrt_pos.2 hy') (Real.sqrt_pos.2 hz')
    positivity
  · rcases hy.eq_or_lt with hy' | hy'
    · have hz' : 0 < z := by linarith
      have := mul_pos (Real.sqrt_pos.2 hz') (Real.sqrt_pos.2 hx')
      positivity
    · have := mul_pos (Real.sqrt_pos.2 hx') (Real.sqrt_pos.2 hy')
      positivity

/-- the threshold of the library and its eighth power -/
theorem rf_delta (eps : ℝ) (h0 : 0 < eps) (h1 : eps ≤ 1 / 2000) :
    ∃ δ : ℝ, 0 < δ ∧ δ ≤ 2 / 5 ∧ δ ^ 8 = 3 * (eps / 4) ∧ δ * (3 * (eps / 4)) ^ (-(1 : ℝ) / 8) = 1 := by
  have hp : 0 < 3 * (eps / 4) := by positivity
  refine ⟨(3 * (eps / 4)) ^ ((1 : ℝ) / 8), Real.rpow_pos_of_pos hp _, ?_, ?_, ?_⟩
  · have h8 : (3 * (eps / 4)) ^ ((1 : ℝ) / 8) ≤ (((2 / 5 : ℝ)) ^ (8 : ℕ)) ^ ((1 : ℝ) / 8) := by
      apply Real.rpow_le_rpow hp.le _ (by norm_num)
      norm_num
      linarith
    refine h8.trans (le_of_eq ?_)
    rw [← Real.rpow_natCast, ← Real.rpow_mul (by norm_num)]
    norm_num
  · rw [← Real.rpow_natCast, ← Real.rpow_mul hp.le]
    norm_num
  · rw [← Real.rpow_add hp]
    norm_num

theorem rfStart_inv (eps x y z δ : ℝ) (hx : 0 ≤ x) (hy : 0 ≤ y) (hz : 0 ≤ z) (hδ : δ * (3 * (eps / 4)) ^ (-(1 : ℝ) / 8) = 1) :
    RfInv δ (symmetricRF x y z) (rfStart eps x y z) := by
  refine ⟨hx, hy, hz, le_refl _, rfl, by simp [rfStart], ?_, ?_, ?_, by simp [rfStart]⟩ <;>
    (unfold rfStart; simp only []; rw [← mul_assoc, hδ, one_mul])
  · exact le_trans (le_max_left _ _) (le_max_left _ _)
  · exact le_trans (le_max_right _ _) (le_max_left _ _)
  · exact le_max_right _ _

/-- **C69**: for all nonnegative arguments of which at most one is zero, `CarlsonRF` ends (the number of turns depends on the
arguments only) and its relative error is at most a quarter of the machine epsilon. -/
theorem C69_accuracy (eps : ℝ) (he0 : 0 < eps) (he1 : eps ≤ 1 / 2000) (x y z : ℝ) (hx : 0 ≤ x) (hy : 0 ≤ y) (hz : 0 ≤ z)
    (h : AtMostOneZero x y z) :
    ∃ (N : ℕ) (v : ℝ), (∀ fuel, N ≤ fuel → carlsonRF fuel eps x y z = .ok (v : WithTop ℝ)) ∧
      |v - symmetricRF x y z| ≤ eps / 4 * symmetricRF x y z := by
  obtain ⟨δ, hδ0, hδ1, hδ8, hδ⟩ := rf_delta eps he0 he1
  obtain ⟨N, s, hloop, hinv, hQ, hA⟩ := rf_loop_start δ _ _ (rfStart_inv eps x y z δ hx hy hz hδ) (rfLambda_start eps x y z hx hy h) (by
    obtain ⟨h1, h2, h3⟩ := h
    unfold rfStart
    simp only []
    linarith)
  obtain ⟨hx', hy', hz', hl', hamn, han, qx, qy, qz, hv⟩ := hinv
  have hA0 : 0 ≤ s.An := by rw [han, hamn]; positivity
  rw [abs_of_nonneg hA0] at hQ
  have hXd : ∀ a : ℝ, |s.Amn - a| ≤ δ * s.Q → |(s.Amn - a) / s.An| ≤ δ := by
    intro a ha
    rw [abs_div, abs_of_pos hA, div_le_iff₀ hA]
    exact ha.trans (by gcongr)
  have hroot : 0 < Real.sqrt s.An := Real.sqrt_pos.2 hA
  have hsum : (s.Amn - s.x) / s.An + (s.Amn - s.y) / s.An + (s.Amn - s.z) / s.An = 0 := by
    rw [← add_div, ← add_div, hamn]
    ring_nf
  have htay := rf_taylor _ _ _ δ hsum (hXd _ qx) (hXd _ qy) (hXd _ qz) hδ1
  have harg : ∀ a : ℝ, a + s.lambda = s.An * (1 - (s.Amn - a) / s.An) := by
    intro a
    rw [mul_sub, mul_div_cancel₀ _ hA.ne', mul_one, han]
    ring
  rw [harg, harg, harg, symmetricRF_scale _ _ _ _ hA] at hv
  obtain ⟨W, hW⟩ : ∃ W, W = symmetricRF (1 - (s.Amn - s.x) / s.An) (1 - (s.Amn - s.y) / s.An) (1 - (s.Amn - s.z) / s.An) := ⟨_, rfl⟩
  rw [← hW] at hv htay
  refine ⟨N, rfSeries ((s.Amn - s.x) / s.An) ((s.Amn - s.y) / s.An) ((s.Amn - s.z) / s.An) / Real.sqrt s.An, fun fuel hf => ?_, ?_⟩
  · unfold carlsonRF
    rw [if_neg (by rw [zeroCount x y z hx hy hz]; simpa using h), hloop fuel hf, Out.ok_bind, fdiv_ok hA.ne', Out.ok_bind,
      fdiv_ok hA.ne', Out.ok_bind, fdiv_ok hA.ne', Out.ok_bind, fsqrt_ok hA0, Out.ok_bind, fdiv_ok hroot.ne']
    rfl
  · rw [← hv, ← sub_div, abs_div, abs_of_pos hroot, ← mul_div_assoc]
    apply div_le_div_of_nonneg_right _ hroot.le
    have : eps / 4 = δ ^ 8 / 3 := by rw [hδ8]; ring
    rw [this]
    exact htay

/-- a complete integral, an incomplete one and one of three different positive numbers, in double precision -/
example : AtMostOneZero 0 (1 / 2) 1 ∧ AtMostOneZero 1 2 3 ∧ (0 : ℝ) < 2 ^ (-52 : ℤ) ∧ (2 : ℝ) ^ (-52 : ℤ) ≤ 1 / 2000 := by
  unfold AtMostOneZero
  norm_num

/-- **C69**: two or three zeros give infinity at once, which is right: the integral diverges. -/
theorem C69_infinite (fuel : ℕ) (eps x y z : ℝ) (hx : 0 ≤ x) (hy : 0 ≤ y) (hz : 0 ≤ z) (h : ¬ AtMostOneZero x y z) :
    carlsonRF fuel eps x y z = .ok ⊤ ∧
      ¬ MeasureTheory.IntegrableOn (fun t => 1 / Real.sqrt ((t + x) * (t + y) * (t + z))) (Ioi 0) := by
  refine ⟨by rw [carlsonRF, if_pos ((zeroCount x y z hx hy hz).2 h)], ?_⟩
  have key : ∀ a : ℝ, 0 ≤ a → ¬ MeasureTheory.IntegrableOn (fun t => 1 / Real.sqrt ((t + a) * t * t)) (Ioi 0) := by
    intro a ha hint
    have h1 : MeasureTheory.IntegrableOn (fun t : ℝ => t⁻¹) (Ioc 0 1) := by
      have h2 : MeasureTheory.IntegrableOn (fun t => Real.sqrt (1 + a) * (1 / Real.sqrt ((t + a) * t * t))) (Ioc 0 1) :=
        (hint.mono_set Ioc_subset_Ioi_self).const_mul _
      refine MeasureTheory.Integrable.mono' h2 (by fun_prop) ?_
      refine (MeasureTheory.ae_restrict_iff' measurableSet_Ioc).2 (Filter.Eventually.of_forall ?_)
      rintro t ⟨h0, h1⟩
      have hs : 0 < Real.sqrt (t + a) := Real.sqrt_pos.2 (by linarith)
      rw [Real.norm_eq_abs, abs_of_pos (by positivity), mul_assoc, Real.sqrt_mul (by positivity), Real.sqrt_mul_self h0.le]
      have hle : Real.sqrt (t + a) ≤ Real.sqrt (1 + a) := Real.sqrt_le_sqrt (by linarith)
      calc t⁻¹ = Real.sqrt (t + a) * (1 / (Real.sqrt (t + a) * t)) := by field_simp
        _ ≤ Real.sqrt (1 + a) * (1 / (Real.sqrt (t + a) * t)) := by gcongr
    have h3 : IntervalIntegrable (fun t : ℝ => t⁻¹) MeasureTheory.volume 0 1 :=
      (intervalIntegrable_iff_integrableOn_Ioc_of_le zero_le_one).2 h1
    rw [intervalIntegrable_inv_iff] at h3
    simp at h3
  rw [← zeroCount x y z hx hy hz] at h
  by_cases h1 : x = 0 <;> by_cases h2 : y = 0 <;> by_cases h3 : z = 0 <;> simp [h1, h2, h3] at h
  · subst h1 h2 h3
    have := key 0 le_rfl
    simpa using this
  · subst h1 h2
    have := key z hz
    simpa [mul_comm, mul_left_comm, mul_assoc] using this
  · subst h1 h3
    have := key y hy
    simpa [mul_comm, mul_left_comm, mul_assoc] using this
  · subst h2 h3
    have := key x hx
    simpa [mul_comm, mul_left_comm, mul_assoc] using this

/-- **C69**: equal arguments give the exact value, `1 / √x`, without a turn of the loop. -/
theorem C69_equal (fuel : ℕ) (eps x : ℝ) (hx : 0 < x) :
    carlsonRF (fuel + 1) eps x x x = .ok ((1 / Real.sqrt x : ℝ) : WithTop ℝ) ∧ symmetricRF x x x = 1 / Real.sqrt x := by
  have h3 : (x + x + x) / 3 = x := by ring
  constructor
  · unfold carlsonRF
    rw [if_neg (by simp [hx.ne']), whileN, if_neg (by simp [rfStart, h3, hx.le])]
    simp only [Out.ok_bind, rfStart, h3, sub_self]
    simp only [fdiv_ok hx.ne', Out.ok_bind, fsqrt_ok hx.le, fdiv_ok (Real.sqrt_pos.2 hx).ne']
    simp [rfSeries]
  · have h1 := symmetricRF_scale x 1 1 1 hx
    simp only [mul_one] at h1
    have h2 := symmetricRF_near 0 0 0 (by norm_num) (by norm_num) (by norm_num) (by norm_num)
    rw [h1]
    simp at h2
    rw [h2]

/-! ### complex types -/

theorem csqrt_ofReal {a : ℝ} (h : 0 ≤ a) : csqrt (a : ℂ) = ((Real.sqrt a : ℝ) : ℂ) := by
  rw [csqrt, Real.sqrt_eq_rpow, Complex.ofReal_cpow h]
  norm_num

/-- a real state as a complex one -/
def RfState.toComplex (s : RfState ℝ) : RfState ℂ := ⟨s.x, s.y, s.z, s.Amn, s.An, s.lambda, s.Q⟩

theorem rfStepC_toComplex {s s' : RfState ℝ} (h : rfStep s = .ok s') : rfStepC s.toComplex = s'.toComplex := by
  unfold rfStep at h
  simp only [fsqrt] at h
  split at h
  swap
  · simp [bind, Out.bind] at h
  rename_i h1
  rw [Out.ok_bind] at h
  split at h
  swap
  · simp [bind, Out.bind] at h
  rename_i h2
  rw [Out.ok_bind] at h
  split at h
  swap
  · simp [bind, Out.bind] at h
  rename_i h3
  rw [Out.ok_bind, Out.pure_def] at h
  have h := (Out.ok.inj h).symm
  subst h
  unfold rfStepC RfState.toComplex
  simp only []
  have e : ∀ a b l : ℝ, (a : ℂ) * b + (a + b) * l + l * l = ((a * b + (a + b) * l + l * l : ℝ) : ℂ) := by
    intro a b l
    push_cast
    ring
  rw [e, e, e, csqrt_ofReal h1, csqrt_ofReal h2, csqrt_ofReal h3]
  push_cast
  rfl

theorem rf_loop_complex : ∀ (fuel : ℕ) (s s' : RfState ℝ),
    whileN fuel (fun s : RfState ℝ => decide (s.Q > |s.An|)) rfStep s = .ok s' →
    whileN fuel (fun s : RfState ℂ => decide (s.Q > ‖s.An‖)) (fun s => .ok (rfStepC s)) s.toComplex = .ok s'.toComplex
  | 0, _, _, h => by simp [whileN] at h
  | fuel + 1, s, s', h => by
    have hc : (decide (s.toComplex.Q > ‖s.toComplex.An‖)) = decide (s.Q > |s.An|) := by
      simp [RfState.toComplex]
    unfold whileN at h ⊢
    simp only [hc] at h ⊢
    split at h
    · rename_i hd
      rw [if_pos hd]
      cases hb : rfStep s with
      | ok t =>
        rw [hb, Out.ok_bind] at h
        rw [Out.ok_bind, rfStepC_toComplex hb]
        exact rf_loop_complex fuel t s' h
      | assertFail => rw [hb] at h; simp [bind, Out.bind] at h
      | throws => rw [hb] at h; simp [bind, Out.bind] at h
      | ub => rw [hb] at h; simp [bind, Out.bind] at h
    · rename_i hd
      rw [if_neg hd]
      rw [Out.ok.inj h]

/-- **C69**: for complex types, arguments that are real and nonnegative give the same value, with the same number of turns. -/
theorem C69_complex (eps : ℝ) (he0 : 0 < eps) (he1 : eps ≤ 1 / 2000) (x y z : ℝ) (hx : 0 ≤ x) (hy : 0 ≤ y) (hz : 0 ≤ z)
    (h : AtMostOneZero x y z) :
    ∃ (N : ℕ) (v : ℝ), (∀ fuel, N ≤ fuel → carlsonRF fuel eps x y z = .ok (v : WithTop ℝ) ∧
        carlsonRFC fuel eps x y z = .ok ((v : ℂ) : WithTop ℂ)) ∧
      |v - symmetricRF x y z| ≤ eps / 4 * symmetricRF x y z := by
  obtain ⟨N, v, hv, hacc⟩ := C69_accuracy eps he0 he1 x y z hx hy hz h
  refine ⟨N, v, fun fuel hf => ⟨hv fuel hf, ?_⟩, hacc⟩
  have hvf := hv fuel hf
  have hcount : ¬ ((open Classical in (if x = 0 then 1 else 0) + (if y = 0 then 1 else 0) + (if z = 0 then 1 else 0)) ≥ 2) := by
    rw [zeroCount x y z hx hy hz]
    simpa using h
  unfold carlsonRF at hvf
  rw [if_neg hcount] at hvf
  obtain ⟨s, hs, hrest⟩ := Out.bind_eq_ok.1 hvf
  obtain ⟨X, hX, hrest⟩ := Out.bind_eq_ok.1 hrest
  obtain ⟨Y, hY, hrest⟩ := Out.bind_eq_ok.1 hrest
  obtain ⟨Z, hZ, hrest⟩ := Out.bind_eq_ok.1 hrest
  obtain ⟨root, hroot, hrest⟩ := Out.bind_eq_ok.1 hrest
  obtain ⟨w, hw, hrest⟩ := Out.bind_eq_ok.1 hrest
  have hsC := rf_loop_complex fuel _ s hs
  have hstart : (rfStart eps x y z).toComplex = rfStartC eps x y z := by
    unfold rfStart rfStartC RfState.toComplex
    simp only []
    have e : ((x : ℂ) + y + z) / 3 = (((x + y + z) / 3 : ℝ) : ℂ) := by push_cast; ring
    rw [e, ← Complex.ofReal_sub, ← Complex.ofReal_sub, ← Complex.ofReal_sub, Complex.norm_real, Complex.norm_real, Complex.norm_real]
    rfl
  rw [hstart] at hsC
  have hA : s.An ≠ 0 := by
    intro h0
    rw [fdiv, if_pos h0] at hX
    exact absurd hX (by simp)
  rw [fdiv_ok hA] at hX hY hZ
  have hX := Out.ok.inj hX
  have hY := Out.ok.inj hY
  have hZ := Out.ok.inj hZ
  have hA0 : 0 ≤ s.An := by
    by_contra hh
    rw [fsqrt, if_neg hh] at hroot
    exact absurd hroot (by simp)
  rw [fsqrt_ok hA0] at hroot
  have hroot := Out.ok.inj hroot
  have hr0 : root ≠ 0 := by
    intro h0
    rw [fdiv, if_pos h0] at hw
    exact absurd hw (by simp)
  rw [fdiv_ok hr0] at hw
  have hw := Out.ok.inj hw
  have hvw : w = v := by
    have := Out.ok.inj hrest
    exact_mod_cast this
  unfold carlsonRFC
  have hcountC : ¬ ((open Classical in (if (x : ℂ) = 0 then 1 else 0) + (if (y : ℂ) = 0 then 1 else 0) + (if (z : ℂ) = 0 then 1 else 0)) ≥ 2) := by
    simpa using hcount
  rw [if_neg hcountC, hsC, Out.ok_bind, if_neg (by simpa [RfState.toComplex] using hA)]
  rw [Out.pure_def]
  congr 2
  rw [← hvw, ← hw, ← hroot, ← hX, ← hY, ← hZ]
  unfold rfSeries RfState.toComplex
  simp only []
  rw [csqrt_ofReal hA0]
  push_cast
  rfl

end Verif
