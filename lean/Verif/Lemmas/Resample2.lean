import Verif.Lemmas.Resample
import Verif.Lemmas.RationalExact
import Mathlib.Algebra.Order.Floor.Ring
import Mathlib.Data.Rat.Cast.CharZero

set_option linter.unusedSectionVars false
set_option linter.unusedSimpArgs false

namespace Verif
open Finset Rational

/-- All numbers that occur fit 64 bit integers: `W` bounds the lengths on the oversampled grid, `q` is the denominator of the
start point, `a / b` the rate ratio, `P` the number of phases. -/
structure Fits (W q a b P : ℤ) : Prop where
  hW : 0 < W
  hq : 0 < q
  ha : 0 < a
  hb : 0 < b
  hP : 0 < P
  bound : W * (q * b * a * P) ≤ 2 ^ 62

theorem holds64 : Holds int64Debug (2 ^ 63 - 1) := by unfold Holds int64Debug; norm_num

theorem Fits.le {W q a b P : ℤ} (f : Fits W q a b P) {x r : ℤ} (h : W * (q * b * a * P) = x * r) (hx : 0 ≤ x) (hr : 0 < r) :
    x ≤ 2 ^ 62 := by
  have := f.bound
  rw [h] at this
  nlinarith

theorem Fits.max {W q a b P : ℤ} (f : Fits W q a b P) : W * (q * b * a * P) ≤ 2 ^ 62 := f.bound

section
variable {W q a b P : ℤ} (f : Fits W q a b P)
include f
theorem Fits.q_le : q ≤ 2 ^ 62 := by
  have := f.hW; have := f.hq; have := f.ha; have := f.hb; have := f.hP
  exact f.le (r := W * b * a * P) (by ring) (by positivity) (by positivity)
theorem Fits.a_le : a ≤ 2 ^ 62 := by
  have := f.hW; have := f.hq; have := f.ha; have := f.hb; have := f.hP
  exact f.le (r := W * b * q * P) (by ring) (by positivity) (by positivity)
theorem Fits.b_le : b ≤ 2 ^ 62 := by
  have := f.hW; have := f.hq; have := f.ha; have := f.hb; have := f.hP
  exact f.le (r := W * q * a * P) (by ring) (by positivity) (by positivity)
theorem Fits.P_le : P ≤ 2 ^ 62 := by
  have := f.hW; have := f.hq; have := f.ha; have := f.hb; have := f.hP
  exact f.le (r := W * b * a * q) (by ring) (by positivity) (by positivity)
theorem Fits.W_le : W ≤ 2 ^ 62 := by
  have := f.hW; have := f.hq; have := f.ha; have := f.hb; have := f.hP
  exact f.le (r := P * b * a * q) (by ring) (by positivity) (by positivity)
theorem Fits.qb_le : q * b ≤ 2 ^ 62 := by
  have := f.hW; have := f.hq; have := f.ha; have := f.hb; have := f.hP
  exact f.le (r := W * a * P) (by ring) (by positivity) (by positivity)
theorem Fits.aP_le : a * P ≤ 2 ^ 62 := by
  have := f.hW; have := f.hq; have := f.ha; have := f.hb; have := f.hP
  exact f.le (r := W * q * b) (by ring) (by positivity) (by positivity)
theorem Fits.qaP_le : q * (a * P) ≤ 2 ^ 62 := by
  have := f.hW; have := f.hq; have := f.ha; have := f.hb; have := f.hP
  exact f.le (r := W * b) (by ring) (by positivity) (by positivity)
theorem Fits.qbP_le : q * b * P ≤ 2 ^ 62 := by
  have := f.hW; have := f.hq; have := f.ha; have := f.hb; have := f.hP
  exact f.le (r := W * a) (by ring) (by positivity) (by positivity)
theorem Fits.Wb_le : W * b ≤ 2 ^ 62 := by
  have := f.hW; have := f.hq; have := f.ha; have := f.hb; have := f.hP
  exact f.le (r := q * a * P) (by ring) (by positivity) (by positivity)
theorem Fits.Wqb_le : W * (q * b) ≤ 2 ^ 62 := by
  have := f.hW; have := f.hq; have := f.ha; have := f.hb; have := f.hP
  exact f.le (r := a * P) (by ring) (by positivity) (by positivity)
end

/-- `ChangeSampleRate` -/
theorem changeRate_ok {s : Rational} {m q a b W P : ℤ} (f : Fits W q a b P) (hs : Rep s m q) (hm0 : 0 ≤ m) (hm : m * a ≤ 2 ^ 62) :
    ∃ r, changeSampleRate b a s = .ok r ∧ Rep r (m * a) (q * b) := by
  have ha := f.ha
  obtain ⟨t, t1, t2⟩ := make_rep holds64 f.hb (show |a| ≤ 2 ^ 63 - 1 by rw [abs_of_pos f.ha]; have := f.a_le; omega)
    (by have := f.b_le; omega)
  have hmm : m ≤ m * a := by nlinarith
  have hqb := f.qb_le
  have hq := f.q_le
  obtain ⟨r, r1, r2⟩ := mul_rep (m := m * a) (D := q * b) hs t2 (mul_pos f.hq f.hb) (by ring) holds64
    (hs.within (by rw [abs_of_nonneg hm0]; omega) (by omega))
    (t2.within (by rw [abs_of_pos f.ha]; have := f.a_le; omega) (by have := f.b_le; omega))
    (by rw [abs_of_nonneg (by positivity)]; omega) (by omega)
  refine ⟨r, ?_, r2⟩
  unfold changeSampleRate
  rw [t1, Out.ok_bind, r1]

/-- Where an input position lies on the oversampled grid. -/
theorem index_ok {r : Rational} {M D : ℤ} {P : ℕ} (hP : 0 < P) (hr : Rep r M D) (h0 : 0 ≤ M) (hM : M ≤ 2 ^ 62) (hDP : D * P ≤ 2 ^ 62) :
    ∃ (i p : ℕ) (w1 w2 : ℕ) (i2 p2 : ℕ), inputIndex2Sample r P = .ok (⟨i, p, w1⟩, ⟨i2, p2, w2⟩) ∧
      p < P ∧ p2 < P ∧ ((i * P + p : ℕ) : ℤ) = M * P / D ∧ i2 * P + p2 = i * P + p + 1 ∧ (0 < w1 + w2 ∧ w1 + w2 ≤ 2 ^ 62) ∧
      (w2 : ℚ) / (w1 + w2 : ℕ) = Int.fract (((M * P : ℤ) : ℚ) / D) := by
  have hD := hr.2.1
  have hP' : (0 : ℤ) < P := by exact_mod_cast hP
  have hDM : D ≤ 2 ^ 62 := by nlinarith
  have hPM : (P : ℤ) ≤ 2 ^ 62 := by nlinarith
  have m0 := Int.emod_nonneg M hD.ne'
  have m1 := Int.emod_lt_of_pos M hD
  obtain ⟨u, u1, u2⟩ := frac_rep hr h0 holds64 (by omega) (by omega)
  have hmul0 : 0 ≤ M % D * P := by positivity
  have hmul1 : M % D * P ≤ D * P := by nlinarith
  obtain ⟨w, v1, v2⟩ := mulInt_rep (k := P) u2 hP'.le holds64 (by rw [abs_of_nonneg m0]; omega) (by omega) (by omega)
    (by rw [abs_of_nonneg hmul0]; omega)
  have hfl := floor_rep v2 hmul0 holds64 (by omega)
  obtain ⟨t, t1, t2⟩ := frac_rep v2 hmul0 holds64 (by omega) (by omega)
  have hfl2 := floor_rep hr h0 holds64 (by omega)
  have n0 := Int.emod_nonneg (M % D * P) hD.ne'
  have n1 := Int.emod_lt_of_pos (M % D * P) hD
  obtain ⟨e, e0, e1, e2⟩ := t2.split
  have tn0 : 0 ≤ t.num := by rw [e2] at n0; exact nonneg_of_mul_nonneg_left n0 e0
  have tn1 : t.num < t.den := by
    rw [e1] at n1
    rw [e1] at e2
    rw [e2] at n1
    exact lt_of_mul_lt_mul_right n1 e0.le
  have td := t2.den_le
  have q0 : 0 ≤ M / D := Int.ediv_nonneg h0 hD.le
  have p0 : 0 ≤ M % D * P / D := Int.ediv_nonneg hmul0 hD.le
  have p1 : M % D * P / D < P := by
    rw [Int.ediv_lt_iff_lt_mul hD]
    nlinarith
  have hsub : int64Debug.sub t.den t.num = .ok (t.den - t.num) := sub_tot holds64 (by rw [abs_of_nonneg (by omega)]; omega)
  obtain ⟨i, hi⟩ : ∃ i : ℕ, M / D = i := ⟨(M / D).toNat, by omega⟩
  obtain ⟨p, hp⟩ : ∃ p : ℕ, M % D * P / D = p := ⟨(M % D * P / D).toNat, by omega⟩
  obtain ⟨w2, hw2⟩ : ∃ w2 : ℕ, t.num = w2 := ⟨t.num.toNat, by omega⟩
  obtain ⟨w1, hw1⟩ : ∃ w1 : ℕ, t.den - t.num = w1 := ⟨(t.den - t.num).toNat, by omega⟩
  have hpP : p < P := by omega
  refine ⟨i, p, w1, w2, if (p + 1) % P = 0 then i + 1 else i, (p + 1) % P, ?_, hpP, Nat.mod_lt _ hP, ?_, ?_, ?_, ?_⟩
  · simp only [inputIndex2Sample, u1, v1, Out.ok_bind, hfl, if_neg hP.ne', t1, den_tot t2.1.1, hsub, hfl2, hi, hp, hw2, hw1, toSize_nat,
      Out.pure_def]
    rw [← hw2, hsub, Out.ok_bind, hw1, toSize_nat]
  · push_cast
    rw [← hi, ← hp]
    have hM := Int.emod_add_mul_ediv M D
    conv_rhs => rw [← hM]
    rw [add_mul, show D * (M / D) * (P : ℤ) = M / D * P * D by ring, Int.add_mul_ediv_right _ _ hD.ne']
    ring
  · by_cases h : p + 1 = P
    · rw [h, Nat.mod_self, if_pos rfl, ← h]; ring
    · rw [Nat.mod_eq_of_lt (by omega), if_neg (by omega)]; ring
  · constructor <;> omega
  · have hsum : ((w1 + w2 : ℕ) : ℤ) = t.den := by push_cast; omega
    have : ((w2 : ℕ) : ℚ) / ((w1 + w2 : ℕ) : ℚ) = t.val := by
      unfold Rational.val
      rw [← hsum, hw2]
      push_cast
      rfl
    rw [this, t2.2.2]
    have hM := Int.emod_add_mul_ediv M D
    have hN := Int.emod_add_mul_ediv (M % D * P) D
    have hD' : (D : ℚ) ≠ 0 := by exact_mod_cast hD.ne'
    symm
    rw [Int.fract_eq_iff]
    refine ⟨?_, ?_, M / D * P + M % D * P / D, ?_⟩
    · apply div_nonneg
      · exact_mod_cast n0
      · exact_mod_cast hD.le
    · rw [div_lt_one (by exact_mod_cast hD)]
      exact_mod_cast n1
    · rw [← sub_div, div_eq_iff hD']
      have : M * P - M % D * P % D = (M / D * P + M % D * P / D) * D := by
        conv_lhs => rw [← hM]
        conv_lhs => rw [show M % D + D * (M / D) = M from hM]
        have h2 : M * P = M % D * P + D * (M / D) * P := by rw [← add_mul, hM]
        rw [h2]
        linarith
      exact_mod_cast this

section
variable {R : Type} [CommRing R]

/-- The dot product at position `i P + p` of the oversampled grid. -/
theorem dotProductSample_spec {dot : List R → List R → Out R} (hd : IsDot dot) (x h : List R) (v : PolyphaseView R) (P : ℕ)
    (hr : v.Represents P h) (hP : 0 < P) (i p : ℕ) (hp : p < P) (hmax : i * P + p < x.length * P + h.length) :
    dotProductSample dot x (v.phaseList p) i = .ok (upsampleAt x h P (i * P + p)) := by
  have hv : v.filterCount = P := hr.1
  have hl : v.buffer.length = h.length := hr.2.1
  obtain ⟨s, hs⟩ : ∃ s, s = phaseSize h.length P p := ⟨_, rfl⟩
  have hlen : (v.phaseList p).length = s := by rw [phaseList_length v (by omega), hl, hv, hs]
  have hq : (i * P + p) / P = i := by
    rw [add_comm, Nat.add_mul_div_right _ _ hP, Nat.div_eq_of_lt hp, zero_add]
  have hpm : (i * P + p) % P = p := by
    rw [add_comm, Nat.add_mul_mod_self_right, Nat.mod_eq_of_lt hp]
  have hN : i + 1 ≤ x.length + s := by
    by_cases hi : i < x.length
    · omega
    · obtain ⟨j, hj⟩ : ∃ j, i = x.length + j := ⟨i - x.length, by omega⟩
      have : p + j * P < h.length := by
        rw [hj, add_mul] at hmax
        omega
      have := (phaseSize_lt h.length P p j hp).2 this
      omega
  unfold dotProductSample
  simp only [hlen]
  obtain ⟨a, ha⟩ : ∃ a, a = i + 1 - s := ⟨_, rfl⟩
  obtain ⟨c, hc⟩ : ∃ c, c = min x.length (i + 1) - a := ⟨_, rfl⟩
  have hle : a ≤ min x.length (i + 1) := by omega
  rw [show max (0 : ℤ) ((i : ℤ) - s + 1) = (a : ℤ) by omega,
    show min (x.length : ℤ) ((i : ℤ) + 1) = ((min x.length (i + 1) : ℕ) : ℤ) by omega]
  rw [show ((min x.length (i + 1) : ℕ) : ℤ) - a = (c : ℤ) by omega, cassert_true (by omega), Out.ok_bind]
  rw [show (a : ℤ) - ((i : ℤ) - s + 1) = ((a + s - (i + 1) : ℕ) : ℤ) by omega, toSize_nat, toSize_nat, toSize_nat]
  rw [dot_sub hd x (v.phaseList p) a (a + s - (i + 1)) c (by omega) (by rw [hlen]; omega)]
  congr 1
  rw [upsampleAt_window x h P (i * P + p) a c hP (by rw [hq, hpm, ← hs]; omega) (by rw [hq, hpm, ← hs]; omega)]
  apply sum_congr rfl
  intro t ht'
  rw [mem_range] at ht'
  rw [Represents.sig hr hp (by rw [← hs]; omega), ← hs, hq, hpm]
  congr 3
  congr 1
  omega

end

section
variable {R : Type} [Field R] [CharZero R] [DecidableEq R]

/-- One output sample: position `m / q` of the output, i.e. `m a P / (q b)` of the oversampled grid. -/
theorem resampleStep_spec {dot : List R → List R → Out R} (hd : IsDot dot) (x h : List R) (v : PolyphaseView R) (P : ℕ)
    (hr : v.Represents P h) {W q : ℤ} {rates : Rational} (hrc : Canon rates) (f : Fits W q rates.num rates.den P)
    (k : ℕ) (y : List R) (hk : k < y.length) (s : Rational) (m : ℤ) (hs : Rep s m q) (hm0 : 0 ≤ m)
    (hpos : (m + q) * rates.num * P ≤ ((x.length * P + h.length : ℕ) - 1 : ℤ) * (q * rates.den))
    (hW : ((x.length * P + h.length : ℕ) : ℤ) ≤ W) :
    ∃ s', resampleStep dot x v rates k (y, s) = .ok (y.set k (lerpAt (upsampleAt x h P) (s.val * rates.val * P)), s') ∧
      Rep s' (m + q) q := by
  obtain ⟨a, ha⟩ : ∃ a, a = rates.num := ⟨_, rfl⟩
  obtain ⟨b, hb⟩ : ∃ b, b = rates.den := ⟨_, rfl⟩
  rw [← ha, ← hb] at f hpos
  have hP : 0 < P := by exact_mod_cast f.hP
  have hv : v.filterCount = P := hr.1
  have fq := f.hq
  have fa := f.ha
  have fb := f.hb
  have fP := f.hP
  have hqb := mul_pos fq fb
  have hmm : (m + q) * a * P ≤ 2 ^ 62 := by
    have h1 := f.Wqb_le
    have : ((x.length * P + h.length : ℕ) - 1 : ℤ) * (q * b) ≤ W * (q * b) := mul_le_mul_of_nonneg_right (by omega) hqb.le
    omega
  have hmq : (m + q) ≤ (m + q) * a := by nlinarith
  have hmq2 : (m + q) * a ≤ (m + q) * a * P := by nlinarith [mul_pos (show 0 < m + q by omega) fa]
  have hma : m * a ≤ (m + q) * a := by nlinarith
  obtain ⟨r, r1, r2⟩ := changeRate_ok f hs hm0 (by omega)
  have hma0 : 0 ≤ m * a := mul_nonneg hm0 fa.le
  obtain ⟨i, p, w1, w2, i2, p2, g1, g2, g3, g4, g5, ⟨g6, _⟩, g7⟩ := index_ok hP r2 hma0 (by omega) f.qbP_le
  -- bound on the grid position
  have hgrid : i * P + p + 1 < x.length * P + h.length := by
    have h1 : ((i * P + p : ℕ) : ℤ) * (q * b) ≤ m * a * P := by
      rw [g4]; exact Int.ediv_mul_le _ hqb.ne'
    have h2 : m * a * P < (m + q) * a * P := by nlinarith [mul_pos (mul_pos fq fa) fP]
    have h3 : ((i * P + p : ℕ) : ℤ) * (q * b) < ((x.length * P + h.length : ℕ) - 1 : ℤ) * (q * b) := by omega
    have := lt_of_mul_lt_mul_right h3 hqb.le
    omega
  have d1 := dotProductSample_spec hd x h v P hr hP i p g2 (by omega)
  have d2 := dotProductSample_spec hd x h v P hr hP i2 p2 g3 (by omega)
  rw [g5] at d2
  obtain ⟨s', s1, s2⟩ := addInt_rep (k := 1) hs holds64 (by have := f.q_le; omega)
    (by rw [mul_one, abs_of_pos fq]; have := f.q_le; omega) (by rw [mul_one, abs_of_nonneg (by omega)]; omega)
  rw [mul_one] at s2
  refine ⟨s', ?_, s2⟩
  have hw : ((w1 : R) + (w2 : R)) ≠ 0 := by
    rw [← Nat.cast_add]
    exact_mod_cast g6.ne'
  simp only [resampleStep, den_tot hrc.1, Out.ok_bind, ← ha, ← hb, r1, PolyphaseView.numPhases, hv, g1, phase_ok v (hv ▸ g2),
    phase_ok v (hv ▸ g3), d1, d2, if_neg hw, wr_eq (show (0 : ℤ) ≤ k by omega) (show (k : ℤ) < y.length by omega), s1, Out.pure_def]
  have hv' : s.val * rates.val * P = ((m * a * P : ℤ) : ℚ) / ((q * b : ℤ) : ℚ) := by
    rw [hs.2.2]
    unfold Rational.val
    rw [← ha, ← hb]
    push_cast
    rw [div_mul_div_comm, div_mul_eq_mul_div]
  have hfl : ⌊s.val * rates.val * P⌋.toNat = i * P + p := by
    obtain ⟨d, hd'⟩ := Int.eq_ofNat_of_zero_le hqb.le
    rw [hv', hd', Int.cast_natCast, Rat.floor_intCast_div_natCast, ← hd', ← g4, Int.toNat_natCast]
  have hfr : ((Int.fract (s.val * rates.val * P) : ℚ) : R) = (w2 : R) / ((w1 : R) + (w2 : R)) := by
    rw [hv', ← g7]
    push_cast
    rfl
  have : lerpAt (upsampleAt x h P) (s.val * rates.val * P) =
      (upsampleAt x h P (i * P + p) * (w1 : R) + upsampleAt x h P (i * P + p + 1) * (w2 : R)) / ((w1 : R) + (w2 : R)) := by
    unfold lerpAt
    rw [hfl, hfr]
    field_simp
    ring
  rw [this]
  rfl

/-- What the suspension point of resampling promises. -/
theorem resampleSuspension_spec {W q : ℤ} {rates next : Rational} (hrc : Canon rates) {F P : ℕ} (hF : 0 < F)
    (f : Fits W q rates.num rates.den P) (m : ℤ) (hs : Rep next m q) (hm0 : 0 ≤ m)
    (hpos : m * rates.num * P ≤ W * (q * rates.den)) (hW : ((P + F : ℕ) : ℤ) ≤ W) :
    ∃ sp, findResampleSuspensionPoint next F P rates = .ok sp ∧ Canon sp.startPoint ∧ 0 ≤ sp.startPoint.val ∧
      sp.startPoint.val * rates.val + sp.firstInputSample = next.val * rates.val ∧
      (sp.firstInputSample = 0 ∨ (sp.firstInputSample * P + F - 1 : ℚ) ≤ next.val * rates.val * P) ∧
      next.val * rates.val * P < (sp.firstInputSample + 1) * P + F - 1 := by
  obtain ⟨a, ha⟩ : ∃ a, a = rates.num := ⟨_, rfl⟩
  obtain ⟨b, hb⟩ : ∃ b, b = rates.den := ⟨_, rfl⟩
  rw [← ha, ← hb] at f hpos
  have fq := f.hq
  have fa := f.ha
  have fb := f.hb
  have fP := f.hP
  have hqb := mul_pos fq fb
  have hWqb := f.Wqb_le
  have hmap : m * a * P ≤ 2 ^ 62 := by omega
  have hma0 : 0 ≤ m * a := mul_nonneg hm0 fa.le
  have hmap0 : 0 ≤ m * a * P := mul_nonneg hma0 fP.le
  have hma : m * a ≤ m * a * P := by nlinarith
  have hmm : m ≤ m * a := by nlinarith
  have hqbP := f.qbP_le
  have hD : 0 < q * b * P := mul_pos hqb fP
  have hF1 : (0 : ℤ) ≤ (F : ℤ) - 1 := by omega
  have hFD0 : 0 ≤ ((F : ℤ) - 1) * (q * b) := mul_nonneg hF1 hqb.le
  have hFD : ((F : ℤ) - 1) * (q * b) + q * b * P ≤ W * (q * b) := by
    have : ((F : ℤ) - 1 + P) * (q * b) ≤ W * (q * b) := mul_le_mul_of_nonneg_right (by omega) hqb.le
    linarith
  have hqFW : (F : ℤ) - 1 ≤ W := by omega
  have hval : next.val * rates.val * P = ((m * a * P : ℤ) : ℚ) / ((q * b : ℤ) : ℚ) := by
    rw [hs.2.2]
    unfold Rational.val
    rw [← ha, ← hb]
    push_cast
    rw [div_mul_div_comm, div_mul_eq_mul_div]
  have hqbQ : (0 : ℚ) < ((q * b : ℤ) : ℚ) := by exact_mod_cast hqb
  obtain ⟨r, r1, r2⟩ := changeRate_ok f hs hm0 (by omega)
  obtain ⟨o, o1, o2⟩ := make_rep holds64 fP (show |(F : ℤ) - 1| ≤ 2 ^ 63 - 1 by rw [abs_of_nonneg hF1]; have := f.W_le; omega)
    (by have := f.P_le; omega)
  have r2' := r2.scale fP
  have o2' := o2.scale hqb
  rw [show (P : ℤ) * (q * b) = q * b * P by ring] at o2'
  obtain ⟨X, hX⟩ : ∃ X, X = m * a * P - ((F : ℤ) - 1) * (q * b) := ⟨_, rfl⟩
  obtain ⟨d, d1, d2⟩ := sub_rep r2' o2' holds64 (by rw [abs_of_nonneg hmap0]; omega) (by rw [abs_of_nonneg hFD0]; omega)
    (by rw [abs_le]; constructor <;> omega) (by omega)
  rw [← hX] at d2
  have z2 := (rep_ofInt 0).scale hD
  rw [zero_mul, one_mul] at z2
  have hcmp := (compare_rep d2 z2 holds64 (show |X| ≤ 2 ^ 63 - 1 by rw [abs_le]; constructor <;> omega) (by norm_num) (by omega)).1
  have hstep : findResampleSuspensionPoint next F P rates = (if X ≤ 0 then .ok ⟨0, next⟩ else do
      let whole ← Rational.floor int64Debug d
      let fr ← Rational.frac int64Debug d
      let inputStartPoint ← Rational.add int64Debug fr o
      let d ← Rational.denominator int64Debug rates
      let outputStartPoint ← changeSampleRate rates.num d inputStartPoint
      pure ⟨toSize whole, outputStartPoint⟩) := by
    unfold findResampleSuspensionPoint
    rw [den_tot hrc.1, Out.ok_bind, ← ha, ← hb, r1, Out.ok_bind, o1, Out.ok_bind, d1, Out.ok_bind, hcmp, Out.ok_bind]
    simp only [decide_eq_true_eq, ha]
    rfl
  rw [hstep]
  by_cases hle : X ≤ 0
  · rw [if_pos hle]
    refine ⟨_, rfl, hs.1, ?_, by simp, .inl rfl, ?_⟩
    · simp only
      rw [hs.2.2]
      apply div_nonneg
      · exact_mod_cast hm0
      · exact_mod_cast fq.le
    · simp only [Nat.cast_zero, zero_add, one_mul]
      rw [hval, div_lt_iff₀ hqbQ]
      have : m * a * P < (P + F - 1) * (q * b) := by
        have : (P + F - 1 : ℤ) * (q * b) = P * (q * b) + ((F : ℤ) - 1) * (q * b) := by ring
        have := mul_pos fP hqb
        omega
      exact_mod_cast this
  · rw [if_neg hle]
    have hX0 : 0 ≤ X := by omega
    have hfl := floor_rep d2 hX0 holds64 (by omega)
    obtain ⟨u, u1, u2⟩ := frac_rep d2 hX0 holds64 (by omega) (by omega)
    have m0 := Int.emod_nonneg X hD.ne'
    have m1 := Int.emod_lt_of_pos X hD
    obtain ⟨y, y1, y2⟩ := add_rep u2 o2' holds64 (by rw [abs_of_nonneg m0]; omega) (by rw [abs_of_nonneg hFD0]; omega)
      (by rw [abs_of_nonneg (by omega)]; omega) (by omega)
    obtain ⟨Y, hY⟩ : ∃ Y, Y = X % (q * b * P) + ((F : ℤ) - 1) * (q * b) := ⟨_, rfl⟩
    rw [← hY] at y2
    have hY0 : 0 ≤ Y := by omega
    have hY1 : Y ≤ 2 ^ 62 := by omega
    obtain ⟨t, t1, t2⟩ := make_rep holds64 fa (show |b| ≤ 2 ^ 63 - 1 by rw [abs_of_pos fb]; have := f.b_le; omega)
      (by have := f.a_le; omega)
    have hqaP := f.qaP_le
    have hqaP0 : 0 < q * (a * P) := mul_pos fq (mul_pos fa fP)
    obtain ⟨st, st1, st2⟩ := mul_rep (m := Y) (D := q * (a * P)) y2 t2 hqaP0 (by ring) holds64
      (y2.within (by rw [abs_of_nonneg hY0]; omega) (by omega))
      (t2.within (by rw [abs_of_pos fb]; have := f.b_le; omega) (by have := f.a_le; omega))
      (by rw [abs_of_nonneg hY0]; omega) (by omega)
    have q0 : 0 ≤ X / (q * b * P) := Int.ediv_nonneg hX0 hD.le
    obtain ⟨w, hw⟩ : ∃ w : ℕ, X / (q * b * P) = w := ⟨(X / (q * b * P)).toNat, by omega⟩
    have hXd := Int.emod_add_mul_ediv X (q * b * P)
    rw [hw] at hXd
    refine ⟨⟨w, st⟩, ?_, st2.1, ?_, ?_, ?_, ?_⟩
    · rw [hfl, Out.ok_bind, u1, Out.ok_bind, y1, Out.ok_bind, den_tot hrc.1, Out.ok_bind]
      unfold changeSampleRate
      rw [← ha, ← hb, t1, Out.ok_bind, st1, Out.ok_bind, hw, toSize_nat]
      rfl
    · simp only
      rw [st2.2.2]
      apply div_nonneg
      · exact_mod_cast hY0
      · exact_mod_cast hqaP0.le
    · simp only
      have e : next.val * rates.val = ((m * a : ℤ) : ℚ) / ((q * b : ℤ) : ℚ) := by
        rw [hs.2.2]
        unfold Rational.val
        rw [← ha, ← hb]
        push_cast
        rw [div_mul_div_comm]
      rw [e, st2.2.2]
      unfold Rational.val
      rw [← ha, ← hb]
      have e2 : Y = m * a * P - q * b * P * w := by omega
      rw [e2]
      have n1 : (q : ℚ) ≠ 0 := by exact_mod_cast fq.ne'
      have n2 : (a : ℚ) ≠ 0 := by exact_mod_cast fa.ne'
      have n3 : (b : ℚ) ≠ 0 := by exact_mod_cast fb.ne'
      have n4 : (P : ℚ) ≠ 0 := by exact_mod_cast fP.ne'
      push_cast
      field_simp
      ring
    · right
      simp only
      rw [hval, le_div_iff₀ hqbQ]
      have : ((w : ℤ) * P + F - 1) * (q * b) ≤ m * a * P := by
        have : ((w : ℤ) * P + F - 1) * (q * b) = q * b * P * w + ((F : ℤ) - 1) * (q * b) := by ring
        omega
      exact_mod_cast this
    · simp only
      rw [hval, div_lt_iff₀ hqbQ]
      have : m * a * P < (((w : ℤ) + 1) * P + F - 1) * (q * b) := by
        have : (((w : ℤ) + 1) * P + F - 1) * (q * b) = q * b * P * w + q * b * P + ((F : ℤ) - 1) * (q * b) := by ring
        omega
      exact_mod_cast this

/-- The advertised maximal length. -/
theorem resampleLengthFull_spec {W q : ℤ} {rates : Rational} (hrc : Canon rates) {N F P : ℕ}
    (f : Fits W q rates.num rates.den P) (hW : ((convLengthFull (P * N) F : ℕ) : ℤ) ≤ W) :
    ∃ r, resampleLengthFull N F P rates = .ok r ∧ Rep r ((convLengthFull (P * N) F : ℕ) * rates.den) (rates.num * P) := by
  obtain ⟨a, ha⟩ : ∃ a, a = rates.num := ⟨_, rfl⟩
  obtain ⟨b, hb⟩ : ∃ b, b = rates.den := ⟨_, rfl⟩
  rw [← ha, ← hb] at f ⊢
  have fa := f.ha
  have fb := f.hb
  have fP := f.hP
  have hWb := f.Wb_le
  obtain ⟨L, hL⟩ : ∃ L : ℤ, L = (convLengthFull (P * N) F : ℕ) := ⟨_, rfl⟩
  have hL0 : 0 ≤ L := by omega
  have hLb : L * b ≤ W * b := mul_le_mul_of_nonneg_right (by omega) fb.le
  have hLb0 : 0 ≤ L * b := by positivity
  have hrr : Rep rates a b := ⟨hrc, fb, by unfold Rational.val; rw [ha, hb]⟩
  have := f.a_le
  have := f.b_le
  have := f.W_le
  have := f.P_le
  obtain ⟨s, s1, s2⟩ := div_rep (m := L * b) (D := a) (rep_ofInt L) hrr fa fa (by ring) holds64
    ((rep_ofInt L).within (by rw [abs_of_nonneg hL0]; omega) (by omega))
    (hrr.within (by rw [abs_of_pos fa]; omega) (by omega)) (by rw [abs_of_nonneg hLb0]; omega) (by omega)
  obtain ⟨t, t1, t2⟩ := divInt_rep s2 fP holds64 (by rw [abs_of_nonneg hLb0]; omega) (by omega) (by have := f.aP_le; omega)
  refine ⟨t, ?_, by rw [← hL]; exact t2⟩
  unfold resampleLengthFull Rational.intDiv
  simp only
  rw [← hL, s1, Out.ok_bind, t1]

/-- The whole call: succeeds whenever the requested range ends within the advertised maximum. -/
theorem resample_spec {dot : List R → List R → Out R} (hd : IsDot dot) (out x h : List R) (v : PolyphaseView R) (P : ℕ)
    (hr : v.Represents P h) (hF : 0 < h.length) {W q : ℤ} {rates start : Rational} (hrc : Canon rates)
    (f : Fits W q rates.num rates.den P) (p : ℤ) (hs : Rep start p q) (hp0 : 0 ≤ p)
    (hW : ((x.length * P + h.length + P : ℕ) : ℤ) ≤ W)
    (hmax : (start.val + out.length) * rates.val * P ≤ convLengthFull (x.length * P) h.length) :
    ∃ y sp next, resample dot out x v rates start = .ok (y, sp) ∧ y.length = out.length ∧
      (∀ k < out.length, sig y k = lerpAt (upsampleAt x h P) ((start.val + k) * rates.val * P)) ∧
      findResampleSuspensionPoint next h.length P rates = .ok sp ∧ Rep next (p + q * out.length) q ∧
      (p + q * out.length) * rates.num * P ≤ W * (q * rates.den) := by
  obtain ⟨a, ha⟩ : ∃ a, a = rates.num := ⟨_, rfl⟩
  obtain ⟨b, hb⟩ : ∃ b, b = rates.den := ⟨_, rfl⟩
  have f' := f
  rw [← ha, ← hb] at f
  have fq := f.hq
  have fa := f.ha
  have fb := f.hb
  have fP := f.hP
  have hP : 0 < P := by exact_mod_cast fP
  have hv : v.filterCount = P := hr.1
  have hl : v.buffer.length = h.length := hr.2.1
  have hqb := mul_pos fq fb
  obtain ⟨L, hL⟩ : ∃ L : ℕ, L = convLengthFull (x.length * P) h.length := ⟨_, rfl⟩
  have hL1 : L ≤ x.length * P + h.length - 1 := by
    rw [hL]; unfold convLengthFull; split <;> omega
  have hLW : (L : ℤ) ≤ W := by omega
  have hWqb := f.Wqb_le
  have hLqb : (L : ℤ) * (q * b) ≤ W * (q * b) := mul_le_mul_of_nonneg_right hLW hqb.le
  obtain ⟨n, hn⟩ : ∃ n : ℤ, n = out.length := ⟨_, rfl⟩
  have hn0 : 0 ≤ n := by omega
  have hqn : 0 ≤ q * n := mul_nonneg fq.le hn0
  -- the length condition in integers
  have hmaxZ : (p + q * n) * a * P ≤ L * (q * b) := by
    rw [hs.2.2, ← hL] at hmax
    unfold Rational.val at hmax
    rw [← ha, ← hb] at hmax
    have n1 : (q : ℚ) ≠ 0 := by exact_mod_cast fq.ne'
    have e : ((p : ℚ) / q + out.length) * ((a : ℚ) / b) * P = (((p + q * n) * a * P : ℤ) : ℚ) / ((q * b : ℤ) : ℚ) := by
      have n3 : (b : ℚ) ≠ 0 := by exact_mod_cast fb.ne'
      rw [hn]
      push_cast
      field_simp
    rw [e, div_le_iff₀ (by exact_mod_cast hqb)] at hmax
    exact_mod_cast hmax
  have hpn0 : 0 ≤ p + q * n := by omega
  have hpna : p + q * n ≤ (p + q * n) * a := by nlinarith
  have hpnap : (p + q * n) * a ≤ (p + q * n) * a * P := by nlinarith [mul_nonneg hpn0 fa.le]
  have hrr : Rep rates a b := ⟨hrc, fb, by unfold Rational.val; rw [ha, hb]⟩
  have bq := f.q_le
  have ba := f.a_le
  have bb := f.b_le
  -- assertions
  have z1 := (rep_ofInt 0).scale fb
  rw [zero_mul, one_mul] at z1
  have c1 := (compare_rep hrr z1 holds64 (by rw [abs_of_pos fa]; omega) (by norm_num) (by omega)).2
  rw [decide_eq_true fa.le] at c1
  have z2 := (rep_ofInt 0).scale fq
  rw [zero_mul, one_mul] at z2
  have c2 := (compare_rep hs z2 holds64 (by rw [abs_of_nonneg hp0]; omega) (by norm_num) (by omega)).2
  rw [decide_eq_true hp0] at c2
  obtain ⟨mx, mx1, mx2⟩ := resampleLengthFull_spec (N := x.length) (F := h.length) hrc f' (by rw [mul_comm P, ← hL]; exact hLW)
  rw [mul_comm P, ← hL, ← ha, ← hb] at mx2
  obtain ⟨la, la1, la2⟩ := addInt_rep (k := n) hs holds64 (by omega) (by rw [abs_of_nonneg hqn]; omega)
    (by rw [abs_of_nonneg hpn0]; omega)
  have la3 := la2.scale (mul_pos fa fP)
  have mx3 := mx2.scale fq
  rw [show a * P * q = q * (a * P) by ring] at mx3
  have hqaP := f.qaP_le
  have e3 : (p + q * n) * (a * P) = (p + q * n) * a * P := by ring
  have e4 : (L : ℤ) * b * q = L * (q * b) := by ring
  have hLqb0 : 0 ≤ (L : ℤ) * (q * b) := by positivity
  have c3 := (compare_rep la3 mx3 holds64 (by rw [e3, abs_of_nonneg (by omega)]; omega) (by rw [e4, abs_of_nonneg hLqb0]; omega) (by omega)).1
  rw [decide_eq_true (by rw [e3, e4]; exact hmaxZ)] at c3
  -- the loop
  have hLx : 0 < out.length → L = x.length * P + h.length - 1 := by
    intro h0
    have : 0 < (p + q * n) * a * P := by
      have : 0 < q * n := mul_pos fq (by omega)
      exact mul_pos (mul_pos (by omega) fa) fP
    have hL0 : L ≠ 0 := by
      intro h0'
      rw [h0'] at hmaxZ
      push_cast at hmaxZ
      omega
    rw [hL] at hL0 ⊢
    unfold convLengthFull at hL0 ⊢
    split
    · rename_i hh; rw [if_pos hh] at hL0; omega
    · omega
  obtain ⟨s, e1, e2, e5, e6⟩ := forN_inv (body := resampleStep dot x v rates)
    (fun k (s : List R × Rational) => s.1.length = out.length ∧ Rep s.2 (p + q * k) q ∧
      ∀ i < k, sig s.1 i = lerpAt (upsampleAt x h P) ((start.val + i) * rates.val * P))
    out.length (out, start) ⟨rfl, by simpa using hs, fun i hi => by omega⟩ (by
    rintro k ⟨y, s⟩ hk ⟨h1, h2, h3⟩
    simp only at h1 h2 h3
    have hqk : 0 ≤ q * (k : ℤ) := by positivity
    have hstep : p + q * k + q ≤ p + q * n := by
      have : q * ((k : ℤ) + 1) ≤ q * n := mul_le_mul_of_nonneg_left (by omega) fq.le
      linarith
    obtain ⟨s', g1, g2⟩ := resampleStep_spec hd x h v P hr hrc f' k y (by omega) s (p + q * k) h2 (by omega) (by
        rw [← ha, ← hb]
        have : (p + q * k + q) * a * P ≤ (p + q * n) * a * P :=
          mul_le_mul_of_nonneg_right (mul_le_mul_of_nonneg_right hstep fa.le) fP.le
        have e : ((x.length * P + h.length : ℕ) - 1 : ℤ) = L := by
          rw [hLx (by omega)]; omega
        rw [e]
        omega) (by omega)
    refine ⟨_, g1, by simpa using h1, ?_, ?_⟩
    · simp only
      rw [show p + q * ((k + 1 : ℕ) : ℤ) = p + q * k + q by push_cast; ring]
      exact g2
    · intro i hi
      simp only
      rw [sig_set _ _ _ _ (by omega)]
      have hsv : s.val = start.val + k := by
        rw [h2.2.2, hs.2.2]
        have n1 : (q : ℚ) ≠ 0 := by exact_mod_cast fq.ne'
        push_cast
        field_simp
      by_cases e : i = k
      · rw [if_pos e, e, hsv]
      · rw [if_neg e, h3 i (by omega)])
  rw [← hn] at e5
  obtain ⟨sp, sp1, _⟩ := resampleSuspension_spec hrc (F := h.length) (P := P) hF f' (p + q * n) e5 hpn0
    (by rw [← ha, ← hb]; omega) (by omega)
  refine ⟨s.1, sp, s.2, ?_, e2, e6, sp1, by rw [← hn]; exact e5, by rw [← hn, ← ha, ← hb]; omega⟩
  unfold resample
  simp only [PolyphaseView.numPhases, PolyphaseView.sizeOriginal, hv, hl]
  rw [c1, Out.ok_bind, cassert_true rfl, Out.ok_bind, c2, Out.ok_bind, cassert_true rfl, Out.ok_bind, cassert_true hP, Out.ok_bind,
    mx1, Out.ok_bind, ← hn, la1, Out.ok_bind, c3, Out.ok_bind, cassert_true rfl, Out.ok_bind, e1, Out.ok_bind, sp1, Out.ok_bind]
  rfl

end
end Verif
