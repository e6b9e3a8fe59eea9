import Verif.Spec.IirBands
import Verif.Props.Chebyshev
import Verif.Props.EllipticRipples
import Verif.Props.Stability

/-!
# Property C84: every IIR design method with every band type

The prototypes of C55, C62, C63 and C75 and the band transformations of C61 together: what the gain of the finished filter is inside and
outside of its pass band, for all orders, ripples, cutoffs and frequencies, including those that the filter rejects.
-/

set_option linter.unusedSimpArgs false
set_option linter.unusedVariables false

namespace Verif
open Complex Filter Topology

namespace BandShape

/-- `DesignFilter` for the band type (IIR.hpp; modelled in Model/IirDesign.lean) -/
noncomputable def design (b : BandShape) (prototype : ℕ → Out Zpk) (n : ℕ) : Out Zpk :=
  match b with
  | lowpass c => designLowpass prototype (b.order n) c
  | highpass c => designHighpass prototype (b.order n) c
  | bandpass c1 c2 => designBandpass prototype (b.order n) c1 c2
  | bandstop c1 c2 => designBandstop prototype (b.order n) c1 c2

end BandShape

/-! ### signs of sines -/

theorem sin_sign {t : ℝ} (h0 : -Real.pi < t) (h1 : t < Real.pi) : (0 ≤ Real.sin t ↔ 0 ≤ t) ∧ (Real.sin t = 0 ↔ t = 0) := by
  rcases lt_trichotomy t 0 with h | h | h
  · have := Real.sin_neg_of_neg_of_neg_pi_lt h h0
    exact ⟨⟨fun h' => absurd h' (not_le.2 this), fun h' => absurd h' (not_le.2 h)⟩, ⟨fun h' => absurd h' this.ne, fun h' => absurd h' h.ne⟩⟩
  · subst h; simp
  · have := Real.sin_pos_of_pos_of_lt_pi h h1
    exact ⟨⟨fun _ => h.le, fun _ => this.le⟩, ⟨fun h' => absurd h' this.ne', fun h' => absurd h' h.ne'⟩⟩

theorem abs_quotient_le_one {N D : ℝ} (hD : D ≠ 0) : (|N / D| ≤ 1 ↔ 0 ≤ (D - N) * (D + N)) ∧ (|N / D| = 1 ↔ (D - N) * (D + N) = 0) := by
  have hd : 0 < |D| := abs_pos.2 hD
  have e : (D - N) * (D + N) = |D| ^ 2 - |N| ^ 2 := by rw [sq_abs, sq_abs]; ring
  rw [abs_div, div_le_one hd, div_eq_one_iff_eq hd.ne', e, sub_nonneg, sub_eq_zero]
  refine ⟨(sq_le_sq₀ (abs_nonneg _) (abs_nonneg _)).symm, ?_⟩
  rw [sq_eq_sq₀ (abs_nonneg _) (abs_nonneg _)]
  exact eq_comm

theorem mul_sign {x y : ℝ} (hx : 0 < x) : (0 ≤ x * y ↔ 0 ≤ y) ∧ (x * y = 0 ↔ y = 0) :=
  ⟨mul_nonneg_iff_of_pos_left hx, by rw [mul_eq_zero, or_iff_right hx.ne']⟩

theorem band_factors (a b w : ℝ) :
    Real.sin ((b - a) / 2) * Real.sin w + (Real.cos ((a + b) / 2) - Real.cos ((b - a) / 2) * Real.cos w) =
      2 * Real.sin ((w + b) / 2) * Real.sin ((w - a) / 2) ∧
    Real.sin ((b - a) / 2) * Real.sin w - (Real.cos ((a + b) / 2) - Real.cos ((b - a) / 2) * Real.cos w) =
      2 * Real.sin ((w + a) / 2) * Real.sin ((b - w) / 2) := by
  constructor
  · have h := Real.cos_sub_cos ((a + b) / 2) (w + (b - a) / 2)
    rw [Real.cos_add] at h
    have e1 : ((a + b) / 2 + (w + (b - a) / 2)) / 2 = (w + b) / 2 := by ring
    have e2 : ((a + b) / 2 - (w + (b - a) / 2)) / 2 = -((w - a) / 2) := by ring
    rw [e1, e2, Real.sin_neg] at h
    linarith
  · have h := Real.cos_sub_cos (w - (b - a) / 2) ((a + b) / 2)
    rw [Real.cos_sub] at h
    have e1 : (w - (b - a) / 2 + (a + b) / 2) / 2 = (w + a) / 2 := by ring
    have e2 : (w - (b - a) / 2 - (a + b) / 2) / 2 = -((b - w) / 2) := by ring
    rw [e1, e2, Real.sin_neg] at h
    linarith

/-- **C84**, the frequency map: the analog frequency is infinite exactly at the frequencies that are rejected, which are outside of the pass
band; elsewhere its magnitude is at most one exactly in the pass band, and one exactly at the cutoffs. -/
theorem C84_bands (b : BandShape) (hb : b.Valid) (w : ℝ) (h0 : 0 ≤ w) (h1 : w ≤ Real.pi) :
    (b.analogDen w = 0 ↔ b.Rejects w) ∧ (b.Rejects w → ¬ b.Passes w) ∧
    (¬ b.Rejects w → (|b.analog w| ≤ 1 ↔ b.Passes w) ∧ (|b.analog w| = 1 ↔ b.IsEdge w)) := by
  have hpi := Real.pi_pos
  cases b with
  | lowpass c =>
    obtain ⟨c0, c1⟩ := hb
    have hcp : 0 < c * Real.pi := by positivity
    have hcp' : c * Real.pi < Real.pi := by nlinarith
    have hs : Real.sin (c * Real.pi / 2) ≠ 0 := (Real.sin_pos_of_pos_of_lt_pi (by linarith) (by linarith)).ne'
    have hden : (BandShape.lowpass c).analogDen w = 0 ↔ w = Real.pi := by
      simp only [BandShape.analogDen, mul_eq_zero, hs, or_false]
      constructor
      · intro h
        by_contra hne
        exact (Real.cos_pos_of_mem_Ioo ⟨by linarith, by rcases lt_or_eq_of_le h1 with h | h <;> [linarith; exact absurd h hne]⟩).ne' h
      · rintro rfl; exact Real.cos_pi_div_two
    refine ⟨hden, fun h => by simp only [BandShape.Rejects, BandShape.Passes] at h ⊢; linarith, fun h => ?_⟩
    have hd : (BandShape.lowpass c).analogDen w ≠ 0 := fun h' => h (hden.1 h')
    unfold BandShape.analog
    rw [(abs_quotient_le_one hd).1, (abs_quotient_le_one hd).2]
    have e1 : (BandShape.lowpass c).analogDen w - (BandShape.lowpass c).analogNum w = Real.sin ((c * Real.pi - w) / 2) := by
      rw [sub_div, Real.sin_sub]; simp only [BandShape.analogDen, BandShape.analogNum]; ring
    have e2 : (BandShape.lowpass c).analogDen w + (BandShape.lowpass c).analogNum w = Real.sin ((c * Real.pi + w) / 2) := by
      rw [add_div, Real.sin_add]; simp only [BandShape.analogDen, BandShape.analogNum]; ring
    have hp : 0 < Real.sin ((c * Real.pi + w) / 2) := Real.sin_pos_of_pos_of_lt_pi (by linarith) (by linarith)
    have hs := sin_sign (t := (c * Real.pi - w) / 2) (by linarith) (by linarith)
    rw [e1, e2, mul_comm, (mul_sign hp).1, (mul_sign hp).2, hs.1, hs.2]
    simp only [BandShape.Passes, BandShape.IsEdge]
    constructor <;> constructor <;> intro h <;> linarith
  | highpass c =>
    obtain ⟨c0, c1, -⟩ := hb
    have hcp : 0 < c * Real.pi := by positivity
    have hcp' : c * Real.pi < Real.pi := by nlinarith
    have hs : Real.cos (c * Real.pi / 2) ≠ 0 := (Real.cos_pos_of_mem_Ioo ⟨by linarith, by linarith⟩).ne'
    have hden : (BandShape.highpass c).analogDen w = 0 ↔ w = 0 := by
      simp only [BandShape.analogDen, mul_eq_zero, hs, or_false]
      rw [(sin_sign (by linarith) (by linarith)).2]
      constructor <;> intro h <;> linarith
    refine ⟨hden, fun h => by simp only [BandShape.Rejects, BandShape.Passes] at h ⊢; linarith, fun h => ?_⟩
    have hd : (BandShape.highpass c).analogDen w ≠ 0 := fun h' => h (hden.1 h')
    unfold BandShape.analog
    rw [(abs_quotient_le_one hd).1, (abs_quotient_le_one hd).2]
    have e1 : (BandShape.highpass c).analogDen w + (BandShape.highpass c).analogNum w = Real.sin ((w - c * Real.pi) / 2) := by
      rw [sub_div, Real.sin_sub]; simp only [BandShape.analogDen, BandShape.analogNum]; ring
    have e2 : (BandShape.highpass c).analogDen w - (BandShape.highpass c).analogNum w = Real.sin ((w + c * Real.pi) / 2) := by
      rw [add_div, Real.sin_add]; simp only [BandShape.analogDen, BandShape.analogNum]; ring
    have hp : 0 < Real.sin ((w + c * Real.pi) / 2) := Real.sin_pos_of_pos_of_lt_pi (by linarith) (by linarith)
    have hs := sin_sign (t := (w - c * Real.pi) / 2) (by linarith) (by linarith)
    rw [e1, e2, (mul_sign hp).1, (mul_sign hp).2, hs.1, hs.2]
    simp only [BandShape.Passes, BandShape.IsEdge]
    constructor <;> constructor <;> intro h <;> linarith
  | bandpass c1 c2 =>
    obtain ⟨p0, p1, p2, -⟩ := hb
    obtain ⟨a, ha⟩ : ∃ a, a = c1 * Real.pi := ⟨_, rfl⟩
    obtain ⟨b, hb⟩ : ∃ b, b = c2 * Real.pi := ⟨_, rfl⟩
    have ha0 : 0 < a := by rw [ha]; positivity
    have hab : a < b := by rw [ha, hb]; nlinarith
    have hb1 : b < Real.pi := by rw [hb]; nlinarith
    have hs : Real.sin ((b - a) / 2) ≠ 0 := (Real.sin_pos_of_pos_of_lt_pi (by linarith) (by linarith)).ne'
    have hden : (BandShape.bandpass c1 c2).analogDen w = 0 ↔ w = 0 ∨ w = Real.pi := by
      simp only [BandShape.analogDen, ← ha, ← hb, mul_eq_zero, hs, false_or]
      constructor
      · intro h
        rcases eq_or_lt_of_le h1 with h' | h'
        · exact .inr h'
        · exact .inl ((sin_sign (by linarith) h').2.1 h)
      · rintro (rfl | rfl) <;> simp
    refine ⟨hden, fun h => by simp only [BandShape.Rejects, BandShape.Passes, ← ha, ← hb] at h ⊢; rintro ⟨q1, q2⟩; rcases h with h | h <;> linarith, fun h => ?_⟩
    have hd : (BandShape.bandpass c1 c2).analogDen w ≠ 0 := fun h' => h (hden.1 h')
    have hw0 : 0 < w := lt_of_le_of_ne h0 fun h' => h (.inl h'.symm)
    have hw1 : w < Real.pi := lt_of_le_of_ne h1 fun h' => h (.inr h')
    unfold BandShape.analog
    rw [(abs_quotient_le_one hd).1, (abs_quotient_le_one hd).2]
    simp only [BandShape.analogDen, BandShape.analogNum, BandShape.Passes, BandShape.IsEdge, ← ha, ← hb]
    obtain ⟨e1, e2⟩ := band_factors a b w
    rw [e1, e2]
    have q1 : 0 < Real.sin ((w + b) / 2) := Real.sin_pos_of_pos_of_lt_pi (by linarith) (by linarith)
    have q2 : 0 < Real.sin ((w + a) / 2) := Real.sin_pos_of_pos_of_lt_pi (by linarith) (by linarith)
    have s1 := sin_sign (t := (w - a) / 2) (by linarith) (by linarith)
    have s2 := sin_sign (t := (b - w) / 2) (by linarith) (by linarith)
    rw [show 2 * Real.sin ((w + a) / 2) * Real.sin ((b - w) / 2) * (2 * Real.sin ((w + b) / 2) * Real.sin ((w - a) / 2)) =
      (4 * Real.sin ((w + a) / 2) * Real.sin ((w + b) / 2)) * (Real.sin ((b - w) / 2) * Real.sin ((w - a) / 2)) by ring]
    have hpos : 0 < 4 * Real.sin ((w + a) / 2) * Real.sin ((w + b) / 2) := by positivity
    rw [(mul_sign hpos).1, (mul_sign hpos).2, mul_eq_zero, s1.2, s2.2]
    refine ⟨⟨fun h' => ?_, fun ⟨h1', h2'⟩ => mul_nonneg (s2.1.2 (by linarith)) (s1.1.2 (by linarith))⟩, ?_⟩
    · rcases lt_or_ge w a with hwa | hwa
      · have n1 : Real.sin ((w - a) / 2) < 0 := lt_of_not_ge fun h'' => by linarith [s1.1.1 h'']
        have n2 : 0 < Real.sin ((b - w) / 2) := Real.sin_pos_of_pos_of_lt_pi (by linarith) (by linarith)
        exact absurd h' (not_le.2 (mul_neg_of_pos_of_neg n2 n1))
      · refine ⟨hwa, ?_⟩
        by_contra hwb
        have hwb := not_le.1 hwb
        have n1 : Real.sin ((b - w) / 2) < 0 := lt_of_not_ge fun h'' => by linarith [s2.1.1 h'']
        have n2 : 0 < Real.sin ((w - a) / 2) := Real.sin_pos_of_pos_of_lt_pi (by linarith) (by linarith)
        exact absurd h' (not_le.2 (mul_neg_of_neg_of_pos n1 n2))
    · constructor
      · rintro (h | h)
        · right; linarith
        · left; linarith
      · rintro (h | h)
        · right; linarith
        · left; linarith
  | bandstop c1 c2 =>
    obtain ⟨p0, p1, p2⟩ := hb
    obtain ⟨a, ha⟩ : ∃ a, a = c1 * Real.pi := ⟨_, rfl⟩
    obtain ⟨b, hb⟩ : ∃ b, b = c2 * Real.pi := ⟨_, rfl⟩
    have ha0 : 0 < a := by rw [ha]; positivity
    have hab : a < b := by rw [ha, hb]; nlinarith
    have hb1 : b < Real.pi := by rw [hb]; nlinarith
    have hden : (BandShape.bandstop c1 c2).analogDen w = 0 ↔ (BandShape.bandstop c1 c2).Rejects w := sub_eq_zero
    obtain ⟨e1, e2⟩ := band_factors a b w
    have q1 : 0 < Real.sin ((w + b) / 2) := Real.sin_pos_of_pos_of_lt_pi (by linarith) (by linarith)
    have q2 : 0 < Real.sin ((w + a) / 2) := Real.sin_pos_of_pos_of_lt_pi (by linarith) (by linarith)
    have s1 := sin_sign (t := (w - a) / 2) (by linarith) (by linarith)
    have s2 := sin_sign (t := (b - w) / 2) (by linarith) (by linarith)
    have hpos : 0 < 4 * Real.sin ((w + a) / 2) * Real.sin ((w + b) / 2) := by positivity
    -- the signs of the two factors
    have hstop : 0 ≤ -(Real.sin ((b - w) / 2) * Real.sin ((w - a) / 2)) ↔ w ≤ a ∨ b ≤ w := by
      rw [neg_nonneg]
      constructor
      · intro h
        by_contra hh
        push Not at hh
        have n1 : 0 < Real.sin ((b - w) / 2) := Real.sin_pos_of_pos_of_lt_pi (by linarith) (by linarith)
        have n2 : 0 < Real.sin ((w - a) / 2) := Real.sin_pos_of_pos_of_lt_pi (by linarith) (by linarith)
        exact absurd h (not_le.2 (mul_pos n1 n2))
      · rintro (h | h)
        · have n1 : 0 ≤ Real.sin ((b - w) / 2) := s2.1.2 (by linarith)
          have n2 : Real.sin ((w - a) / 2) ≤ 0 := by
            rcases eq_or_lt_of_le h with h | h
            · rw [h]; simp
            · exact (lt_of_not_ge fun h'' => by linarith [s1.1.1 h'']).le
          exact mul_nonpos_of_nonneg_of_nonpos n1 n2
        · have n1 : 0 ≤ Real.sin ((w - a) / 2) := s1.1.2 (by linarith)
          have n2 : Real.sin ((b - w) / 2) ≤ 0 := by
            rcases eq_or_lt_of_le h with h | h
            · rw [h]; simp
            · exact (lt_of_not_ge fun h'' => by linarith [s2.1.1 h'']).le
          exact mul_nonpos_of_nonpos_of_nonneg n2 n1
    have hprod : (Real.cos ((b - a) / 2) * Real.cos w - Real.cos ((a + b) / 2) - Real.sin ((b - a) / 2) * Real.sin w) *
        (Real.cos ((b - a) / 2) * Real.cos w - Real.cos ((a + b) / 2) + Real.sin ((b - a) / 2) * Real.sin w) =
        (4 * Real.sin ((w + a) / 2) * Real.sin ((w + b) / 2)) * (-(Real.sin ((b - w) / 2) * Real.sin ((w - a) / 2))) := by
      linear_combination (-(Real.sin ((b - a) / 2) * Real.sin w - (Real.cos ((a + b) / 2) - Real.cos ((b - a) / 2) * Real.cos w))) * e1 -
        (2 * Real.sin ((w + b) / 2) * Real.sin ((w - a) / 2)) * e2
    refine ⟨hden, fun h => ?_, fun h => ?_⟩
    · simp only [BandShape.Rejects, BandShape.Passes, ← ha, ← hb] at h ⊢
      rw [← hstop, ← (mul_sign hpos).1, ← hprod, h]
      have hsd : 0 < Real.sin ((b - a) / 2) := Real.sin_pos_of_pos_of_lt_pi (by linarith) (by linarith)
      have hsw : Real.sin w ≠ 0 := by
        intro hsw
        have hc : 0 < Real.cos ((b - a) / 2) := Real.cos_pos_of_mem_Ioo ⟨by linarith, by linarith⟩
        have r1 : Real.cos ((a + b) / 2) < Real.cos ((b - a) / 2) := Real.cos_lt_cos_of_nonneg_of_le_pi (by linarith) (by linarith) (by linarith)
        have r2 : -Real.cos ((b - a) / 2) < Real.cos ((a + b) / 2) := by
          rw [← Real.cos_pi_sub]
          exact Real.cos_lt_cos_of_nonneg_of_le_pi (by linarith) (by linarith) (by linarith)
        rcases eq_or_lt_of_le h1 with h' | h'
        · rw [h', Real.cos_pi] at h; linarith
        · rw [(sin_sign (by linarith) h').2.1 hsw, Real.cos_zero] at h; linarith
      have : 0 < (Real.sin ((b - a) / 2) * Real.sin w) ^ 2 := by positivity
      rw [not_le]
      linarith [show (Real.cos ((a + b) / 2) - Real.cos ((a + b) / 2) - Real.sin ((b - a) / 2) * Real.sin w) *
        (Real.cos ((a + b) / 2) - Real.cos ((a + b) / 2) + Real.sin ((b - a) / 2) * Real.sin w) = -(Real.sin ((b - a) / 2) * Real.sin w) ^ 2 by ring]
    have hd : (BandShape.bandstop c1 c2).analogDen w ≠ 0 := fun h' => h (hden.1 h')
    unfold BandShape.analog
    rw [(abs_quotient_le_one hd).1, (abs_quotient_le_one hd).2]
    simp only [BandShape.analogDen, BandShape.analogNum, BandShape.Passes, BandShape.IsEdge, ← ha, ← hb]
    rw [hprod, (mul_sign hpos).1, (mul_sign hpos).2, hstop, neg_eq_zero, mul_eq_zero, s1.2, s2.2]
    refine ⟨Iff.rfl, ?_⟩
    constructor
    · rintro (h | h)
      · right; linarith
      · left; linarith
    · rintro (h | h)
      · right; linarith
      · left; linarith

/-! ### the frequencies that are rejected -/

theorem analog_deriv (b : BandShape) (hb : b.Valid) (w : ℝ) (h0 : 0 ≤ w) (h1 : w ≤ Real.pi) (hr : b.Rejects w) :
    b.analogNum w ≠ 0 ∧ ∃ d, d ≠ 0 ∧ HasDerivAt b.analogDen d w := by
  have hpi := Real.pi_pos
  cases b with
  | lowpass c =>
    obtain ⟨c0, c1⟩ := hb
    have hcp : 0 < c * Real.pi := by positivity
    have hcp' : c * Real.pi < Real.pi := by nlinarith
    have hs : Real.sin (c * Real.pi / 2) ≠ 0 := (Real.sin_pos_of_pos_of_lt_pi (by linarith) (by linarith)).ne'
    have hc : Real.cos (c * Real.pi / 2) ≠ 0 := (Real.cos_pos_of_mem_Ioo ⟨by linarith, by linarith⟩).ne'
    have hr : w = Real.pi := hr
    subst hr
    refine ⟨by simp [BandShape.analogNum, hc], (-Real.sin (Real.pi / 2) * (1 / 2)) * Real.sin (c * Real.pi / 2), by simp [hs], ?_⟩
    have := ((Real.hasDerivAt_cos (Real.pi / 2)).comp Real.pi ((hasDerivAt_id Real.pi).div_const 2)).mul_const (Real.sin (c * Real.pi / 2))
    exact this
  | highpass c =>
    obtain ⟨c0, c1, -⟩ := hb
    have hcp : 0 < c * Real.pi := by positivity
    have hcp' : c * Real.pi < Real.pi := by nlinarith
    have hs : Real.sin (c * Real.pi / 2) ≠ 0 := (Real.sin_pos_of_pos_of_lt_pi (by linarith) (by linarith)).ne'
    have hc : Real.cos (c * Real.pi / 2) ≠ 0 := (Real.cos_pos_of_mem_Ioo ⟨by linarith, by linarith⟩).ne'
    have hr : w = 0 := hr
    subst hr
    refine ⟨by simp [BandShape.analogNum, hs], (Real.cos (0 / 2) * (1 / 2)) * Real.cos (c * Real.pi / 2), by simp [hc], ?_⟩
    have := ((Real.hasDerivAt_sin (0 / 2)).comp 0 ((hasDerivAt_id (0 : ℝ)).div_const 2)).mul_const (Real.cos (c * Real.pi / 2))
    exact this
  | bandpass c1 c2 =>
    obtain ⟨p0, p1, p2, -⟩ := hb
    obtain ⟨a, ha⟩ : ∃ a, a = c1 * Real.pi := ⟨_, rfl⟩
    obtain ⟨b, hb⟩ : ∃ b, b = c2 * Real.pi := ⟨_, rfl⟩
    have ha0 : 0 < a := by rw [ha]; positivity
    have hab : a < b := by rw [ha, hb]; nlinarith
    have hb1 : b < Real.pi := by rw [hb]; nlinarith
    have hs : Real.sin ((b - a) / 2) ≠ 0 := (Real.sin_pos_of_pos_of_lt_pi (by linarith) (by linarith)).ne'
    have r1 : Real.cos ((a + b) / 2) < Real.cos ((b - a) / 2) := Real.cos_lt_cos_of_nonneg_of_le_pi (by linarith) (by linarith) (by linarith)
    have r2 : -Real.cos ((b - a) / 2) < Real.cos ((a + b) / 2) := by
      rw [← Real.cos_pi_sub]
      exact Real.cos_lt_cos_of_nonneg_of_le_pi (by linarith) (by linarith) (by linarith)
    have hw : Real.cos w ≠ 0 := by rcases hr with h | h <;> rw [h] <;> simp
    refine ⟨?_, Real.sin ((b - a) / 2) * Real.cos w, mul_ne_zero hs hw, ?_⟩
    · simp only [BandShape.analogNum, ← ha, ← hb]
      rcases hr with h | h <;> rw [h]
      · rw [Real.cos_zero]; intro h'; linarith
      · rw [Real.cos_pi]; intro h'; linarith
    · have := (Real.hasDerivAt_sin w).const_mul (Real.sin ((b - a) / 2))
      rw [ha, hb] at this ⊢
      exact this
  | bandstop c1 c2 =>
    obtain ⟨hD, hnp, -⟩ := C84_bands (.bandstop c1 c2) hb w h0 h1
    have hD := hD.2 hr
    have hnp := hnp hr
    obtain ⟨p0, p1, p2⟩ := hb
    have hd0 : 0 < (c2 * Real.pi - c1 * Real.pi) / 2 := by nlinarith
    have hd1 : (c2 * Real.pi - c1 * Real.pi) / 2 < Real.pi / 2 := by nlinarith
    have hs : 0 < Real.sin ((c2 * Real.pi - c1 * Real.pi) / 2) := Real.sin_pos_of_pos_of_lt_pi hd0 (by linarith)
    have hc : 0 < Real.cos ((c2 * Real.pi - c1 * Real.pi) / 2) := Real.cos_pos_of_mem_Ioo ⟨by linarith, by linarith⟩
    simp only [BandShape.Passes, not_or, not_le] at hnp
    have hcp : 0 < c1 * Real.pi := by positivity
    have hcp' : c2 * Real.pi < Real.pi := by nlinarith
    have hsw : 0 < Real.sin w := Real.sin_pos_of_pos_of_lt_pi (by linarith) (by linarith)
    refine ⟨(mul_pos hs hsw).ne', Real.cos ((c2 * Real.pi - c1 * Real.pi) / 2) * -Real.sin w, by
      rw [mul_neg]; exact (neg_neg_of_pos (mul_pos hc hsw)).ne, ?_⟩
    exact ((Real.hasDerivAt_cos w).const_mul _).sub_const _

theorem analogNum_continuous (b : BandShape) : Continuous b.analogNum := by
  cases b <;> (unfold BandShape.analogNum; fun_prop)

/-- Near a rejected frequency there are frequencies with arbitrarily large analog frequency. -/
theorem analog_unbounded (b : BandShape) (hb : b.Valid) (w : ℝ) (h0 : 0 ≤ w) (h1 : w ≤ Real.pi) (hr : b.Rejects w) (K : ℝ) :
    ∃ᶠ v in 𝓝 w, b.analogDen v ≠ 0 ∧ K ≤ |b.analog v| := by
  obtain ⟨hN, d, hd, hder⟩ := analog_deriv b hb w h0 h1 hr
  have hD := (C84_bands b hb w h0 h1).1.2 hr
  have h2 : ∀ᶠ v in 𝓝[≠] w, b.analogDen v ≠ 0 := hder.eventually_ne hd
  have h3 : ∀ᶠ v in 𝓝[≠] w, |b.analogDen v| * |K| < |b.analogNum v| := by
    have c1 : ContinuousAt (fun v => |b.analogNum v| - |b.analogDen v| * |K|) w :=
      (analogNum_continuous b).continuousAt.abs.sub (hder.continuousAt.abs.mul continuousAt_const)
    have c2 : 0 < |b.analogNum w| - |b.analogDen w| * |K| := by rw [hD]; simpa using hN
    exact ((c1.eventually (lt_mem_nhds c2)).filter_mono nhdsWithin_le_nhds).mono fun v hv => by linarith
  refine ((h2.and h3).frequently.filter_mono nhdsWithin_le_nhds).mono fun v ⟨hv1, hv2⟩ => ⟨hv1, ?_⟩
  rw [BandShape.analog, abs_div, le_div_iff₀ (abs_pos.2 hv1), mul_comm]
  exact (mul_le_mul_of_nonneg_left (le_abs_self K) (abs_nonneg _)).trans hv2.le

theorem response_continuous {f : Zpk} (hf : f.Stable) : Continuous (response f) := by
  have hcirc : Continuous fun w : ℝ => exp ((w : ℂ) * I) := by fun_prop
  have hprod : ∀ l : List ℂ, Continuous fun x : ℂ => rootProduct l x := by
    intro l
    induction l with
    | nil => simpa [rootProduct] using continuous_const
    | cons a l ih =>
      have : (fun x : ℂ => rootProduct (a :: l) x) = fun x => (x - a) * rootProduct l x := by funext x; simp [rootProduct]
      rw [this]
      exact (continuous_id.sub continuous_const).mul ih
  have : response f = fun w : ℝ => (f.gain : ℂ) * rootProduct f.zeros.roots (exp ((w : ℂ) * I)) /
      rootProduct f.poles.roots (exp ((w : ℂ) * I)) := by
    funext w; rw [response, zpk_value]
  rw [this]
  refine (continuous_const.mul ((hprod _).comp hcirc)).div ((hprod _).comp hcirc) fun w => rootProduct_ne_zero fun p hp h => ?_
  have := hf p hp
  rw [h, norm_exp_circle] at this
  exact lt_irrefl _ this

/-- **C84**: for every band type, every stable prototype and every order the design succeeds; the filter is stable and has as many zeros and
poles as its order says; its response at `w` is that of the prototype at the analog frequency; and where the filter rejects, every upper
bound of the gain of the prototype at high frequencies is one of the gain of the filter. -/
theorem C84_response (b : BandShape) (hb : b.Valid) (prototype : ℕ → Out Zpk) (n : ℕ) (sys : Zpk) (hp : prototype n = .ok sys)
    (hs : sys.IsPrototype n) :
    ∃ f, b.design prototype n = .ok f ∧ f.Reachable ∧ f.zeros.numRoots = b.order n ∧ f.poles.numRoots = b.order n ∧ f.Stable ∧
      (∀ w, b.analogDen w ≠ 0 → response f w = sys.eval (I * ((b.analog w : ℝ) : ℂ))) ∧
      (∀ w, 0 ≤ w → w ≤ Real.pi → b.Rejects w → ∀ B K : ℝ, (∀ v : ℝ, K ≤ |v| → ‖sys.eval (I * (v : ℂ))‖ ≤ B) → ‖response f w‖ ≤ B) := by
  have hlim : ∀ f : Zpk, f.Stable → (∀ w, b.analogDen w ≠ 0 → response f w = sys.eval (I * ((b.analog w : ℝ) : ℂ))) →
      ∀ w, 0 ≤ w → w ≤ Real.pi → b.Rejects w → ∀ B K : ℝ, (∀ v : ℝ, K ≤ |v| → ‖sys.eval (I * (v : ℂ))‖ ≤ B) → ‖response f w‖ ≤ B := by
    intro f hf hr w h0 h1 hw B K hB
    have hcl : IsClosed {v : ℝ | ‖response f v‖ ≤ B} := isClosed_le (response_continuous hf).norm continuous_const
    have hfr := (analog_unbounded b hb w h0 h1 hw K).mono fun v hv => show v ∈ {v : ℝ | ‖response f v‖ ≤ B} by
      change ‖response f v‖ ≤ B
      rw [hr v hv.1]
      exact hB _ hv.2
    exact hcl.mem_of_frequently_of_tendsto hfr tendsto_id
  cases b with
  | lowpass c =>
    obtain ⟨c0, c1⟩ := hb
    obtain ⟨f, b1, b2, b3, b4, b5, b6⟩ := C61_lowpass prototype n sys hp hs c c0 c1
    have hr : ∀ w, (BandShape.lowpass c).analogDen w ≠ 0 → response f w = sys.eval (I * (((BandShape.lowpass c).analog w : ℝ) : ℂ)) := by
      intro w hw
      simp only [BandShape.analogDen] at hw
      have h1 := left_ne_zero_of_mul hw
      have h2 := right_ne_zero_of_mul hw
      rw [b6 w h1]
      congr 3
      simp only [BandShape.analog, BandShape.analogNum, BandShape.analogDen, Real.tan_eq_sin_div_cos]
      by_cases hcc : Real.cos (c * Real.pi / 2) = 0
      · rw [hcc]; simp
      · field_simp
    exact ⟨f, b1, b2, b3, b4, b5, hr, hlim f b5 hr⟩
  | highpass c =>
    obtain ⟨c0, c1, c2⟩ := hb
    obtain ⟨f, b1, b2, b3, b4, b5, b6⟩ := C61_highpass_partial prototype n sys hp hs c c0 c1 c2
    have hr : ∀ w, (BandShape.highpass c).analogDen w ≠ 0 → response f w = sys.eval (I * (((BandShape.highpass c).analog w : ℝ) : ℂ)) := by
      intro w hw
      simp only [BandShape.analogDen] at hw
      have h1 := left_ne_zero_of_mul hw
      have h2 := right_ne_zero_of_mul hw
      rw [b6 w h1]
      congr 3
      simp only [BandShape.analog, BandShape.analogNum, BandShape.analogDen, Real.tan_eq_sin_div_cos]
      by_cases hcc : Real.cos (w / 2) = 0
      · rw [hcc]; simp
      · field_simp
    exact ⟨f, b1, b2, b3, b4, b5, hr, hlim f b5 hr⟩
  | bandpass c1 c2 =>
    obtain ⟨p0, p1, p2, p3⟩ := hb
    obtain ⟨f, b1, b2, b3, b4, b5, b6⟩ := C61_bandpass_partial prototype n sys hp hs c1 c2 p0 p1 p2 p3
    have hr : ∀ w, (BandShape.bandpass c1 c2).analogDen w ≠ 0 → response f w = sys.eval (I * (((BandShape.bandpass c1 c2).analog w : ℝ) : ℂ)) :=
      fun w hw => b6 w (right_ne_zero_of_mul hw)
    exact ⟨f, b1, b2, b3, b4, b5, hr, hlim f b5 hr⟩
  | bandstop c1 c2 =>
    obtain ⟨p0, p1, p2⟩ := hb
    obtain ⟨f, b1, b2, b3, b4, b5, b6⟩ := C61_bandstop prototype n sys hp hs c1 c2 p0 p1 p2
    have hr : ∀ w, (BandShape.bandstop c1 c2).analogDen w ≠ 0 → response f w = sys.eval (I * (((BandShape.bandstop c1 c2).analog w : ℝ) : ℂ)) :=
      fun w hw => b6 w hw
    exact ⟨f, b1, b2, b3, b4, b5, hr, hlim f b5 hr⟩

/-! ### the design methods -/

/-- A gain that falls off at least like `1/|v|` for large `|v|` is zero at the rejected frequencies. -/
theorem rejected_zero {f sys : Zpk} {w c : ℝ} (hc : 0 < c)
    (h : ∀ B K : ℝ, (∀ v : ℝ, K ≤ |v| → ‖sys.eval (I * (v : ℂ))‖ ≤ B) → ‖response f w‖ ≤ B)
    (hd : ∀ v : ℝ, 1 ≤ |v| → ‖sys.eval (I * (v : ℂ))‖ ^ 2 ≤ 1 / (1 + c * v ^ 2)) : response f w = 0 := by
  rw [← norm_le_zero_iff]
  refine le_of_forall_pos_le_add fun e he => ?_
  rw [zero_add]
  refine h e (max 1 (1 / (c * e ^ 2))) fun v hv => ?_
  have h1 : 1 ≤ |v| := (le_max_left _ _).trans hv
  have h2 : 1 / (c * e ^ 2) ≤ |v| := (le_max_right _ _).trans hv
  apply abs_le_of_sq_le_sq' _ he.le |>.2
  refine (hd v h1).trans ?_
  have h3 : |v| ≤ v ^ 2 := by rw [← sq_abs]; nlinarith
  rw [div_le_iff₀ (by positivity)] at h2 ⊢
  have h4 : |v| * (c * e ^ 2) ≤ v ^ 2 * (c * e ^ 2) := mul_le_mul_of_nonneg_right h3 (by positivity)
  nlinarith [sq_nonneg e]

/-- **C84**, Butterworth filters of every band type: the squared gain is at least one half exactly in the pass band, one half exactly at the
cutoffs, never more than one, and zero at the rejected frequencies; elsewhere it is `1 / (1 + a^(2n))` for the analog frequency `a`. -/
theorem C84_butterworth (b : BandShape) (hb : b.Valid) (n : ℕ) (hn : 0 < n) :
    ∃ f, b.design butterworth n = .ok f ∧ f.Reachable ∧ f.Stable ∧ f.zeros.numRoots = b.order n ∧ f.poles.numRoots = b.order n ∧
      ∀ w, 0 ≤ w → w ≤ Real.pi →
        (1 / 2 ≤ ‖response f w‖ ^ 2 ↔ b.Passes w) ∧ (‖response f w‖ ^ 2 = 1 / 2 ↔ b.IsEdge w) ∧ ‖response f w‖ ≤ 1 ∧
        (b.Rejects w → response f w = 0) ∧ (¬ b.Rejects w → ‖response f w‖ ^ 2 = 1 / (1 + b.analog w ^ (2 * n))) := by
  obtain ⟨sys, a1, a2⟩ := butterworth_isPrototype n
  obtain ⟨f, b1, b2, b3, b4, b5, b6, b7⟩ := C84_response b hb butterworth n sys a1 a2
  refine ⟨f, b1, b2, b5, b3, b4, fun w h0 h1 => ?_⟩
  obtain ⟨c1, c2, c3⟩ := C84_bands b hb w h0 h1
  by_cases hr : b.Rejects w
  · have hz : response f w = 0 := by
      refine rejected_zero one_pos (b7 w h0 h1 hr) fun v hv => ?_
      rw [C55_magnitude n hn sys a1 v, one_mul, pow_mul]
      have : v ^ 2 ≤ (v ^ 2) ^ n := le_self_pow₀ (by rw [← sq_abs]; nlinarith) (by omega)
      gcongr
    have hne : ¬ b.IsEdge w := fun h => by
      refine c2 hr ?_
      obtain _ | _ | _ | _ := b <;> simp only [BandShape.IsEdge, BandShape.Passes, BandShape.Valid] at h hb ⊢
      · exact h.le
      · exact h.ge
      · have := Real.pi_pos
        rcases h with h | h <;> rw [h] <;> constructor <;> nlinarith
      · rcases h with h | h
        · exact .inl h.le
        · exact .inr h.ge
    rw [hz]
    refine ⟨⟨fun h => ?_, fun h => absurd h (c2 hr)⟩, ⟨fun h => ?_, fun h => absurd h hne⟩, by simp, fun _ => rfl, fun h => absurd hr h⟩
    · norm_num at h
    · norm_num at h
  · obtain ⟨d1, d2⟩ := c3 hr
    have hm := C55_magnitude n hn sys a1 (b.analog w)
    rw [← b6 w (fun h => hr (c1.1 h))] at hm
    have hpow : (0 : ℝ) ≤ b.analog w ^ (2 * n) := by rw [pow_mul]; positivity
    have e : b.analog w ^ (2 * n) = (|b.analog w|) ^ (2 * n) := by rw [pow_mul, pow_mul, sq_abs]
    have e1 : b.analog w ^ (2 * n) ≤ 1 ↔ |b.analog w| ≤ 1 := by
      rw [e]; exact pow_le_one_iff_of_nonneg (abs_nonneg _) (by omega)
    have e2 : b.analog w ^ (2 * n) = 1 ↔ |b.analog w| = 1 := by
      rw [e]; exact pow_eq_one_iff_of_nonneg (abs_nonneg _) (by omega)
    refine ⟨?_, ?_, ?_, fun h => absurd h hr, fun _ => hm⟩
    · rw [hm, ← d1, ← e1, div_le_div_iff₀ two_pos (by positivity)]
      constructor <;> intro h <;> linarith
    · rw [hm, ← d2, ← e2, div_eq_div_iff (by positivity) two_ne_zero]
      constructor <;> intro h <;> linarith
    · apply abs_le_of_sq_le_sq' _ zero_le_one |>.2
      rw [hm, one_pow, div_le_one (by positivity)]
      linarith

theorem chebT_sq_ge (n : ℕ) (hn : 1 ≤ n) (v : ℝ) (hv : 1 ≤ |v|) : v ^ 2 ≤ chebT n v ^ 2 := by
  have hpos : ∀ u : ℝ, 1 ≤ u → u ^ 2 ≤ chebT n u ^ 2 := by
    intro u hu
    obtain ⟨t, ht0, ht⟩ : ∃ t : ℝ, 0 ≤ t ∧ Real.cosh t = u := ⟨Real.arcosh u, Real.arcosh_nonneg hu, Real.cosh_arcosh hu⟩
    have h1 : chebT n u = Real.cosh (n * t) := by
      rw [← ht]
      exact_mod_cast Polynomial.Chebyshev.T_real_cosh t n
    rw [h1, ← ht]
    have : Real.cosh t ≤ Real.cosh (n * t) := by
      rw [Real.cosh_le_cosh, abs_of_nonneg ht0, abs_of_nonneg (by positivity)]
      have : (1 : ℝ) ≤ n := by exact_mod_cast hn
      nlinarith
    have := Real.cosh_pos t
    gcongr
  rcases le_total 0 v with h | h
  · rw [abs_of_nonneg h] at hv
    exact hpos v hv
  · rw [abs_of_nonpos h] at hv
    have h2 := hpos (-v) hv
    have e : chebT n (-v) ^ 2 = chebT n v ^ 2 := by
      unfold chebT
      rw [Polynomial.Chebyshev.T_eval_neg, mul_pow]
      rcases Int.units_eq_one_or (Int.negOnePow (n : ℤ)) with h | h <;> simp [h]
    rw [e, neg_sq] at h2
    exact h2

/-- **C84**, Chebyshev I filters of every band type: in the pass band the gain stays between `1 - ripple` and 1; it is `1 - ripple` at the
cutoffs, smaller outside of the pass band and zero at the rejected frequencies. -/
theorem C84_chebyshev1 (b : BandShape) (hb : b.Valid) (n : ℕ) (hn : 1 ≤ n) (h32 : n ≤ 32) (r : ℝ) (hr0 : 0 < r) (hr1 : r < 1) :
    ∃ f, b.design (fun n => chebyshev1 n r) n = .ok f ∧ f.Reachable ∧ f.Stable ∧ f.zeros.numRoots = b.order n ∧ f.poles.numRoots = b.order n ∧
      ∀ w, 0 ≤ w → w ≤ Real.pi →
        (b.Passes w → 1 - r ≤ ‖response f w‖ ∧ ‖response f w‖ ≤ 1) ∧ (b.IsEdge w → ‖response f w‖ = 1 - r) ∧
        (¬ b.Passes w → ‖response f w‖ < 1 - r) ∧ (b.Rejects w → response f w = 0) := by
  obtain ⟨sys, a1, a2⟩ := C62_prototype n hn h32 r hr0 hr1
  obtain ⟨f, b1, b2, b3, b4, b5, b6, b7⟩ := C84_response b hb (fun n => chebyshev1 n r) n sys a1 a2
  refine ⟨f, b1, b2, b5, b3, b4, fun w h0 h1 => ?_⟩
  obtain ⟨c1, c2, c3⟩ := C84_bands b hb w h0 h1
  by_cases hr : b.Rejects w
  · have hz : response f w = 0 := by
      have hpos : 0 < 1 / (1 - r) ^ 2 - 1 := by
        have : 0 < 1 - r := by linarith
        rw [sub_pos, lt_div_iff₀ (by positivity)]
        nlinarith
      refine rejected_zero hpos (b7 w h0 h1 hr) fun v hv => ?_
      rw [C62_magnitude n hn h32 r hr0 hr1 sys a1 v]
      have := chebT_sq_ge n hn v hv
      gcongr
    have hne : ¬ b.IsEdge w := fun h => by
      refine c2 hr ?_
      obtain _ | _ | _ | _ := b <;> simp only [BandShape.IsEdge, BandShape.Passes, BandShape.Valid] at h hb ⊢
      · exact h.le
      · exact h.ge
      · have := Real.pi_pos
        rcases h with h | h <;> rw [h] <;> constructor <;> nlinarith
      · rcases h with h | h
        · exact .inl h.le
        · exact .inr h.ge
    rw [hz]
    exact ⟨fun h => absurd h (c2 hr), fun h => absurd h hne, fun _ => by simpa using hr1, fun _ => rfl⟩
  · obtain ⟨d1, d2⟩ := c3 hr
    have hm := C62_passband n hn h32 r hr0 hr1 sys a1 (b.analog w)
    rw [← b6 w (fun h => hr (c1.1 h)), d1, d2, ← not_le, d1] at hm
    exact ⟨hm.1, hm.2.1, hm.2.2, fun h => absurd h hr⟩

/-- **C84**, Chebyshev II filters of every band type: outside of the pass band - rejected frequencies included - and at the cutoffs the gain
does not exceed the ripple, which it has exactly at the cutoffs; in the pass band it is at most one and larger than the ripple. -/
theorem C84_chebyshev2 (b : BandShape) (hb : b.Valid) (n : ℕ) (hn : 1 ≤ n) (r : ℝ) (hr0 : 0 < r) (hr1 : r < 1) :
    ∃ f, b.design (fun n => chebyshev2 n r) n = .ok f ∧ f.Reachable ∧ f.Stable ∧ f.zeros.numRoots = b.order n ∧ f.poles.numRoots = b.order n ∧
      ∀ w, 0 ≤ w → w ≤ Real.pi →
        (b.Passes w → r ≤ ‖response f w‖ ∧ ‖response f w‖ ≤ 1) ∧ (b.Passes w → ¬ b.IsEdge w → r < ‖response f w‖) ∧
        (b.IsEdge w → ‖response f w‖ = r) ∧ (¬ b.Passes w → ‖response f w‖ ≤ r) := by
  obtain ⟨sys, a1, a2⟩ := C63_prototype n r hr0 hr1
  obtain ⟨f, b1, b2, b3, b4, b5, b6, b7⟩ := C84_response b hb (fun n => chebyshev2 n r) n sys a1 a2
  refine ⟨f, b1, b2, b5, b3, b4, fun w h0 h1 => ?_⟩
  obtain ⟨c1, c2, c3⟩ := C84_bands b hb w h0 h1
  by_cases hr : b.Rejects w
  · have hne : ¬ b.IsEdge w := fun h => by
      refine c2 hr ?_
      obtain _ | _ | _ | _ := b <;> simp only [BandShape.IsEdge, BandShape.Passes, BandShape.Valid] at h hb ⊢
      · exact h.le
      · exact h.ge
      · have := Real.pi_pos
        rcases h with h | h <;> rw [h] <;> constructor <;> nlinarith
      · rcases h with h | h
        · exact .inl h.le
        · exact .inr h.ge
    exact ⟨fun h => absurd h (c2 hr), fun h => absurd h (c2 hr), fun h => absurd h hne,
      fun _ => b7 w h0 h1 hr r 1 fun v hv => (C63_stopband n hn r hr0 hr1 sys a1 v).1 hv⟩
  · obtain ⟨d1, d2⟩ := c3 hr
    have hm := C63_stopband n hn r hr0 hr1 sys a1 (b.analog w)
    rw [← b6 w (fun h => hr (c1.1 h)), d2] at hm
    obtain ⟨m1, m2, m3⟩ := hm
    have m3' : b.Passes w → ¬ b.IsEdge w → r < ‖response f w‖ ∧ ‖response f w‖ ≤ 1 := fun hp he =>
      m3 (lt_of_le_of_ne (d1.2 hp) fun h => he (d2.1 h))
    refine ⟨fun hp => ?_, fun hp he => (m3' hp he).1, m2, fun hp => m1 (not_lt.1 fun h => hp (d1.1 h.le))⟩
    by_cases he : b.IsEdge w
    · rw [m2 he]; exact ⟨le_rfl, hr1.le⟩
    · exact ⟨(m3' hp he).1.le, (m3' hp he).2⟩

/-- **C84**, elliptic filters of every band type: with the selectivity `k` of the degree equation, up to deviations `δ` that vanish with the
precision of the arithmetic the gain is between `1 - p` and 1 in the pass band, at most `s` where the analog frequency is `1/k` or more - the
rejected frequencies included - and between `s` and `1 - p` from the cutoffs to there. -/
theorem C84_elliptic {n : ℕ} {p s : ℝ} (hn : 1 ≤ n) (hp : 0 < p) (hs : 0 < s) (hps : s < 1 - p) :
    ∃ k, 0 < k ∧ k < 1 ∧ legendreK k = degreeQuotient n p s * legendreKp k ∧
      ∀ δ > 0, ∃ e0 > 0, ∀ eps τ η M, FineEnough n p s eps τ η M → 3 * eps + 3 * τ * Real.exp (5 * M) ≤ e0 →
        ∀ (A : BisectArith ℝ), A.Precise τ η → ∀ values : Finset ℝ, (∀ a b, A.dist a b ∈ values) →
          ∃ N : ℕ, ∀ fuel, N ≤ fuel → ∀ b : BandShape, b.Valid →
            ∃ f : Zpk, b.design (fun n => elliptic A (values.card + 1) fuel eps n p s) n = .ok f ∧ f.Reachable ∧ f.Stable ∧
            f.zeros.numRoots = b.order n ∧ f.poles.numRoots = b.order n ∧
            ∀ w, 0 ≤ w → w ≤ Real.pi →
              (b.Passes w → 1 - p - δ ≤ ‖response f w‖ ∧ ‖response f w‖ ≤ 1 + δ) ∧
              (¬ b.Passes w → ¬ b.Rejects w → k * |b.analog w| ≤ 1 → s - δ ≤ ‖response f w‖ ∧ ‖response f w‖ ≤ 1 - p + δ) ∧
              (b.Rejects w ∨ 1 ≤ k * |b.analog w| → ‖response f w‖ ≤ s + δ) := by
  obtain ⟨k, hk0, hk1, hdeg, h⟩ := C75_ripples hn hp hs hps
  refine ⟨k, hk0, hk1, hdeg, fun δ hδ => ?_⟩
  obtain ⟨e0, he0, h⟩ := h δ hδ
  refine ⟨e0, he0, fun eps τ η M hf hle A hA values hv => ?_⟩
  obtain ⟨N, h⟩ := h eps τ η M hf hle A hA values hv
  refine ⟨N, fun fuel hfuel b hb => ?_⟩
  obtain ⟨sys, a1, a2, a3⟩ := h fuel hfuel
  obtain ⟨f, b1, b2, b3, b4, b5, b6, b7⟩ := C84_response b hb (fun n => elliptic A (values.card + 1) fuel eps n p s) n sys a1 a2
  refine ⟨f, b1, b2, b5, b3, b4, fun w h0 h1 => ?_⟩
  obtain ⟨c1, c2, c3⟩ := C84_bands b hb w h0 h1
  by_cases hr : b.Rejects w
  · refine ⟨fun h => absurd h (c2 hr), fun _ h => absurd hr h, fun _ => b7 w h0 h1 hr _ (1 / k) fun v hv => a3.stop v ?_⟩
    rw [div_le_iff₀ hk0] at hv
    linarith
  · obtain ⟨d1, d2⟩ := c3 hr
    rw [b6 w (fun h => hr (c1.1 h))]
    refine ⟨fun h => a3.pass _ (d1.2 h), fun h1 _ h2 => a3.transition _ (not_lt.1 fun h => h1 (d1.1 h.le)) h2, fun h => a3.stop _ ?_⟩
    rcases h with h | h
    · exact absurd h hr
    · exact h

/-- **C84** with C82: filtering with the designed filter.  For every band type and stable prototype all realizations of the filter give the
same output for a sinusoid; it approaches the sinusoid with the amplitude multiplied by the gain that the theorems above describe. -/
theorem C84_streams (sort : List Poly3 → List Poly3) (hsort : ∀ l, (sort l).Perm l) (b : BandShape) (hb : b.Valid)
    (prototype : ℕ → Out Zpk) (n : ℕ) (hn : 1 ≤ n) (proto : Zpk) (hp : prototype n = .ok proto) (hs : proto.IsPrototype n) :
    ∃ f sys secs, b.design prototype n = .ok f ∧ TransferFn.ofZpk f = .ok sys ∧ cascadedBiquad sort f = .ok secs ∧
    ∃ M r : ℝ, 0 < r ∧ r < 1 ∧ ∀ (A w φ : ℝ) (x : List ℝ), x = ((List.range x.length).map fun n : ℕ => A * Real.cos (w * n + φ)) →
      ∃ y s₁ s₂ s₃, DirectFormI.feed sys x (DirectFormI.make sys.order) = .ok (y, s₁) ∧
        DirectFormII.feed sys x (DirectFormII.make sys.order) = .ok (y, s₂) ∧
        CascadedForm.feed secs x (CascadedForm.make (biquadsOrder secs)) = .ok (y, s₃) ∧ y.length = x.length ∧
        ∀ n, n < x.length → |sig y n - A * ‖response f w‖ * Real.cos (w * n + φ + arg (response f w))| ≤ M * |A| * r ^ n := by
  obtain ⟨f, b1, b2, b3, b4, b5, -⟩ := C84_response b hb prototype n proto hp hs
  have hord : f.order ≠ 0 := by
    have : n ≤ b.order n := by cases b <;> simp only [BandShape.order] <;> omega
    unfold Zpk.order
    omega
  obtain ⟨sys, secs, c1, c2, c3⟩ := C82_realizations sort hsort f b2 b5 hord (by rw [b3, b4])
  exact ⟨f, sys, secs, b1, c1, c2, c3⟩

/-! ### non-vacuity -/

/-- one filter of each band type, with a frequency in the pass band, a cutoff and a rejected frequency -/
example : (∃ f, (BandShape.lowpass (1 / 4)).design butterworth 3 = .ok f ∧ ‖response f (1 / 4 * Real.pi)‖ ^ 2 = 1 / 2 ∧ response f Real.pi = 0) ∧
    (∃ f, (BandShape.highpass (1 / 3)).design (fun n => chebyshev1 n (1 / 10)) 4 = .ok f ∧ response f 0 = 0 ∧ 9 / 10 ≤ ‖response f Real.pi‖) ∧
    (∃ f, (BandShape.bandpass (1 / 4) (1 / 3)).design (fun n => chebyshev2 n (1 / 10)) 2 = .ok f ∧ ‖response f 0‖ ≤ 1 / 10) ∧
    (∃ f, (BandShape.bandstop (1 / 4) (3 / 4)).design butterworth 2 = .ok f ∧ response f (Real.pi / 2) = 0 ∧ 1 / 2 ≤ ‖response f 0‖ ^ 2) := by
  have hpi := Real.pi_pos
  refine ⟨?_, ?_, ?_, ?_⟩
  · obtain ⟨f, h1, -, -, -, -, h⟩ := C84_butterworth (.lowpass (1 / 4)) ⟨by norm_num, by norm_num⟩ 3 (by norm_num)
    exact ⟨f, h1, (h _ (by positivity) (by linarith)).2.1.2 rfl, (h _ hpi.le le_rfl).2.2.2.1 rfl⟩
  · obtain ⟨f, h1, -, -, -, -, h⟩ := C84_chebyshev1 (.highpass (1 / 3)) ⟨by norm_num, by norm_num, by norm_num⟩ 4 (by norm_num) (by norm_num)
      (1 / 10) (by norm_num) (by norm_num)
    refine ⟨f, h1, (h 0 le_rfl hpi.le).2.2.2 rfl, ?_⟩
    have := ((h _ hpi.le le_rfl).1 (by simp only [BandShape.Passes]; linarith)).1
    linarith
  · obtain ⟨f, h1, -, -, -, -, h⟩ := C84_chebyshev2 (.bandpass (1 / 4) (1 / 3)) ⟨by norm_num, by norm_num, by norm_num, by norm_num⟩ 2 (by norm_num)
      (1 / 10) (by norm_num) (by norm_num)
    exact ⟨f, h1, (h 0 le_rfl hpi.le).2.2.2 (by simp only [BandShape.Passes]; intro h; linarith [h.1])⟩
  · obtain ⟨f, h1, -, -, -, -, h⟩ := C84_butterworth (.bandstop (1 / 4) (3 / 4)) ⟨by norm_num, by norm_num, by norm_num⟩ 2 (by norm_num)
    refine ⟨f, h1, (h _ (by positivity) (by linarith)).2.2.2.1 ?_, (h 0 le_rfl hpi.le).1.2 (.inl (by positivity))⟩
    simp only [BandShape.Rejects]
    rw [show (1 / 4 * Real.pi + 3 / 4 * Real.pi) / 2 = Real.pi / 2 by ring]
    simp

end Verif
