import Verif.Lemmas.ResampleSlices
import Verif.Model.ResampleFloat

/-! # Resampling for any type of samples -/

set_option linter.unusedSectionVars false
set_option linter.unusedSimpArgs false

namespace Verif
open Finset Rational

section
variable {R : Type} [Zero R] [Add R] [Mul R] [Div R] [FloatFun R]

/-- At every position of the grid the dot products succeed and the weighted mean of two neighbours has the property `G`. -/
def GoodDot (dot : List R → List R → Out R) (x h : List R) (v : PolyphaseView R) (P : ℕ) (G : ℚ → R → Prop) : Prop :=
  ∀ (pos : ℚ) (n w1 w2 : ℕ), ⌊pos⌋.toNat = n → (w2 : ℚ) / (w1 + w2 : ℕ) = Int.fract pos → 0 < w1 + w2 → w1 + w2 ≤ 2 ^ 62 →
    n + 1 < x.length * P + h.length →
    sliceIn h.length P n ≤ min x.length (n / P + 1) → sliceIn h.length P (n + 1) ≤ min x.length ((n + 1) / P + 1) →
    ∃ r1 r2, dot (inSlice x h.length P n) (tapSlice x v h.length P n) = .ok r1 ∧
      dot (inSlice x h.length P (n + 1)) (tapSlice x v h.length P (n + 1)) = .ok r2 ∧ G pos (weightedMean r1 r2 w1 w2)

/-- One output sample: position `m / q` of the output, i.e. `m a P / (q b)` of the oversampled grid. -/
theorem resampleStepFloat_slices (dot : List R → List R → Out R) (G : ℚ → R → Prop) (x h : List R) (v : PolyphaseView R) (P : ℕ)
    (hr : v.Represents P h) (hG : GoodDot dot x h v P G) {W q : ℤ} {rates : Rational} (hrc : Canon rates) (f : Fits W q rates.num rates.den P)
    (k : ℕ) (y : List R) (hk : k < y.length) (s : Rational) (m : ℤ) (hs : Rep s m q) (hm0 : 0 ≤ m)
    (hpos : (m + q) * rates.num * P ≤ ((x.length * P + h.length : ℕ) - 1 : ℤ) * (q * rates.den))
    (hW : ((x.length * P + h.length : ℕ) : ℤ) ≤ W) :
    ∃ s' z, resampleStepFloat dot x v rates k (y, s) = .ok (y.set k z, s') ∧
      Rep s' (m + q) q ∧ G (s.val * rates.val * P) z := by
  obtain ⟨a, ha⟩ : ∃ a, a = rates.num := ⟨_, rfl⟩
  obtain ⟨b, hb⟩ : ∃ b, b = rates.den := ⟨_, rfl⟩
  rw [← ha, ← hb] at f hpos
  have hP : 0 < P := by exact_mod_cast f.hP
  have hv : v.filterCount = P := hr.1
  have fq := f.hq
  have fa := f.ha
  have fb := f.hb
  have fP := f.hP
  have hqb := mul_pos fq fb
  have hmm : (m + q) * a * P ≤ 2 ^ 62 := by
    have h1 := f.Wqb_le
    have : ((x.length * P + h.length : ℕ) - 1 : ℤ) * (q * b) ≤ W * (q * b) := mul_le_mul_of_nonneg_right (by omega) hqb.le
    omega
  have hmq : (m + q) ≤ (m + q) * a := by nlinarith
  have hmq2 : (m + q) * a ≤ (m + q) * a * P := by nlinarith [mul_pos (show 0 < m + q by omega) fa]
  have hma : m * a ≤ (m + q) * a := by nlinarith
  obtain ⟨r, r1', r2'⟩ := changeRate_ok f hs hm0 (by omega)
  have hma0 : 0 ≤ m * a := mul_nonneg hm0 fa.le
  obtain ⟨i, p, w1, w2, i2, p2, g1, g2, g3, g4, g5, ⟨g6, g6'⟩, g7⟩ := index_ok hP r2' hma0 (by omega) f.qbP_le
  -- bound on the grid position
  have hgrid : i * P + p + 1 < x.length * P + h.length := by
    have h1 : ((i * P + p : ℕ) : ℤ) * (q * b) ≤ m * a * P := by
      rw [g4]; exact Int.ediv_mul_le _ hqb.ne'
    have h2 : m * a * P < (m + q) * a * P := by nlinarith [mul_pos (mul_pos fq fa) fP]
    have h3 : ((i * P + p : ℕ) : ℤ) * (q * b) < ((x.length * P + h.length : ℕ) - 1 : ℤ) * (q * b) := by omega
    have := lt_of_mul_lt_mul_right h3 hqb.le
    omega
  obtain ⟨l1, d1⟩ := dotProductSample_slices (x := x) dot hr hP i p g2 (by omega)
  obtain ⟨l2, d2⟩ := dotProductSample_slices (x := x) dot hr hP i2 p2 g3 (by omega)
  rw [g5] at d2 l2
  obtain ⟨s', s1, s2⟩ := addInt_rep (k := 1) hs holds64 (by have := f.q_le; omega)
    (by rw [mul_one, abs_of_pos fq]; have := f.q_le; omega) (by rw [mul_one, abs_of_nonneg (by omega)]; omega)
  rw [mul_one] at s2
  have hv' : s.val * rates.val * P = ((m * a * P : ℤ) : ℚ) / ((q * b : ℤ) : ℚ) := by
    rw [hs.2.2]
    unfold Rational.val
    rw [← ha, ← hb]
    push_cast
    rw [div_mul_div_comm, div_mul_eq_mul_div]
  have hfl : ⌊s.val * rates.val * P⌋.toNat = i * P + p := by
    obtain ⟨d, hd'⟩ := Int.eq_ofNat_of_zero_le hqb.le
    rw [hv', hd', Int.cast_natCast, Rat.floor_intCast_div_natCast, ← hd', ← g4, Int.toNat_natCast]
  have hfr : (w2 : ℚ) / (w1 + w2 : ℕ) = Int.fract (s.val * rates.val * P) := by rw [hv', g7]
  obtain ⟨r1, r2, z1, z2, z3⟩ := hG (s.val * rates.val * P) (i * P + p) w1 w2 hfl hfr g6 g6' hgrid l1 l2
  refine ⟨s', _, ?_, s2, z3⟩
  simp only [resampleStepFloat, den_tot hrc.1, Out.ok_bind, ← ha, ← hb, r1', PolyphaseView.numPhases, hv, g1, phase_ok v (hv ▸ g2),
    phase_ok v (hv ▸ g3), d1, d2, z1, z2, wr_eq (show (0 : ℤ) ≤ k by omega) (show (k : ℤ) < y.length by omega), s1, Out.pure_def]
  rfl

/-- The whole call: succeeds whenever the requested range ends within the advertised maximum. -/
theorem resampleFloat_slices (dot : List R → List R → Out R) (G : ℚ → R → Prop) (out x h : List R) (v : PolyphaseView R) (P : ℕ)
    (hr : v.Represents P h) (hF : 0 < h.length) {W q : ℤ} {rates start : Rational} (hrc : Canon rates)
    (f : Fits W q rates.num rates.den P) (p : ℤ) (hs : Rep start p q) (hp0 : 0 ≤ p)
    (hW : ((x.length * P + h.length + P : ℕ) : ℤ) ≤ W)
    (hmax : (start.val + out.length) * rates.val * P ≤ convLengthFull (x.length * P) h.length)
    (hG : GoodDot dot x h v P G) :
    ∃ y sp next, resampleFloat dot out x v rates start = .ok (y, sp) ∧ y.length = out.length ∧
      (∀ k < out.length, G ((start.val + k) * rates.val * P) (sig y k)) ∧
      findResampleSuspensionPoint next h.length P rates = .ok sp ∧ Rep next (p + q * out.length) q ∧
      (p + q * out.length) * rates.num * P ≤ W * (q * rates.den) := by
  obtain ⟨a, ha⟩ : ∃ a, a = rates.num := ⟨_, rfl⟩
  obtain ⟨b, hb⟩ : ∃ b, b = rates.den := ⟨_, rfl⟩
  have f' := f
  rw [← ha, ← hb] at f
  have fq := f.hq
  have fa := f.ha
  have fb := f.hb
  have fP := f.hP
  have hP : 0 < P := by exact_mod_cast fP
  have hv : v.filterCount = P := hr.1
  have hl : v.buffer.length = h.length := hr.2.1
  have hqb := mul_pos fq fb
  obtain ⟨L, hL⟩ : ∃ L : ℕ, L = convLengthFull (x.length * P) h.length := ⟨_, rfl⟩
  have hL1 : L ≤ x.length * P + h.length - 1 := by
    rw [hL]; unfold convLengthFull; split <;> omega
  have hLW : (L : ℤ) ≤ W := by omega
  have hWqb := f.Wqb_le
  have hLqb : (L : ℤ) * (q * b) ≤ W * (q * b) := mul_le_mul_of_nonneg_right hLW hqb.le
  obtain ⟨n, hn⟩ : ∃ n : ℤ, n = out.length := ⟨_, rfl⟩
  have hn0 : 0 ≤ n := by omega
  have hqn : 0 ≤ q * n := mul_nonneg fq.le hn0
  -- the length condition in integers
  have hmaxZ : (p + q * n) * a * P ≤ L * (q * b) := by
    rw [hs.2.2, ← hL] at hmax
    unfold Rational.val at hmax
    rw [← ha, ← hb] at hmax
    have n1 : (q : ℚ) ≠ 0 := by exact_mod_cast fq.ne'
    have e : ((p : ℚ) / q + out.length) * ((a : ℚ) / b) * P = (((p + q * n) * a * P : ℤ) : ℚ) / ((q * b : ℤ) : ℚ) := by
      have n3 : (b : ℚ) ≠ 0 := by exact_mod_cast fb.ne'
      rw [hn]
      push_cast
      field_simp
    rw [e, div_le_iff₀ (by exact_mod_cast hqb)] at hmax
    exact_mod_cast hmax
  have hpn0 : 0 ≤ p + q * n := by omega
  have hpna : p + q * n ≤ (p + q * n) * a := by nlinarith
  have hpnap : (p + q * n) * a ≤ (p + q * n) * a * P := by nlinarith [mul_nonneg hpn0 fa.le]
  have hrr : Rep rates a b := ⟨hrc, fb, by unfold Rational.val; rw [ha, hb]⟩
  have bq := f.q_le
  have ba := f.a_le
  have bb := f.b_le
  -- assertions
  have z1 := (rep_ofInt 0).scale fb
  rw [zero_mul, one_mul] at z1
  have c1 := (compare_rep hrr z1 holds64 (by rw [abs_of_pos fa]; omega) (by norm_num) (by omega)).2
  rw [decide_eq_true fa.le] at c1
  have z2 := (rep_ofInt 0).scale fq
  rw [zero_mul, one_mul] at z2
  have c2 := (compare_rep hs z2 holds64 (by rw [abs_of_nonneg hp0]; omega) (by norm_num) (by omega)).2
  rw [decide_eq_true hp0] at c2
  obtain ⟨mx, mx1, mx2⟩ := resampleLengthFull_spec (N := x.length) (F := h.length) hrc f' (by rw [mul_comm P, ← hL]; exact hLW)
  rw [mul_comm P, ← hL, ← ha, ← hb] at mx2
  obtain ⟨la, la1, la2⟩ := addInt_rep (k := n) hs holds64 (by omega) (by rw [abs_of_nonneg hqn]; omega)
    (by rw [abs_of_nonneg hpn0]; omega)
  have la3 := la2.scale (mul_pos fa fP)
  have mx3 := mx2.scale fq
  rw [show a * P * q = q * (a * P) by ring] at mx3
  have hqaP := f.qaP_le
  have e3 : (p + q * n) * (a * P) = (p + q * n) * a * P := by ring
  have e4 : (L : ℤ) * b * q = L * (q * b) := by ring
  have hLqb0 : 0 ≤ (L : ℤ) * (q * b) := by positivity
  have c3 := (compare_rep la3 mx3 holds64 (by rw [e3, abs_of_nonneg (by omega)]; omega) (by rw [e4, abs_of_nonneg hLqb0]; omega) (by omega)).1
  rw [decide_eq_true (by rw [e3, e4]; exact hmaxZ)] at c3
  -- the loop
  have hLx : 0 < out.length → L = x.length * P + h.length - 1 := by
    intro h0
    have : 0 < (p + q * n) * a * P := by
      have : 0 < q * n := mul_pos fq (by omega)
      exact mul_pos (mul_pos (by omega) fa) fP
    have hL0 : L ≠ 0 := by
      intro h0'
      rw [h0'] at hmaxZ
      push_cast at hmaxZ
      omega
    rw [hL] at hL0 ⊢
    unfold convLengthFull at hL0 ⊢
    split
    · rename_i hh; rw [if_pos hh] at hL0; omega
    · omega
  obtain ⟨s, e1, e2, e5, e6⟩ := forN_inv (body := resampleStepFloat dot x v rates)
    (fun k (s : List R × Rational) => s.1.length = out.length ∧ Rep s.2 (p + q * k) q ∧
      ∀ i < k, G ((start.val + i) * rates.val * P) (sig s.1 i))
    out.length (out, start) ⟨rfl, by simpa using hs, fun i hi => by omega⟩ (by
    rintro k ⟨y, s⟩ hk ⟨h1, h2, h3⟩
    simp only at h1 h2 h3
    have hqk : 0 ≤ q * (k : ℤ) := by positivity
    have hstep : p + q * k + q ≤ p + q * n := by
      have : q * ((k : ℤ) + 1) ≤ q * n := mul_le_mul_of_nonneg_left (by omega) fq.le
      linarith
    obtain ⟨s', z, g1, g2, g3⟩ := resampleStepFloat_slices dot G x h v P hr hG hrc f' k y (by omega) s (p + q * k) h2 (by omega) (by
        rw [← ha, ← hb]
        have : (p + q * k + q) * a * P ≤ (p + q * n) * a * P :=
          mul_le_mul_of_nonneg_right (mul_le_mul_of_nonneg_right hstep fa.le) fP.le
        have e : ((x.length * P + h.length : ℕ) - 1 : ℤ) = L := by
          rw [hLx (by omega)]; omega
        rw [e]
        omega) (by omega)
    refine ⟨_, g1, by simpa using h1, ?_, ?_⟩
    · simp only
      rw [show p + q * ((k + 1 : ℕ) : ℤ) = p + q * k + q by push_cast; ring]
      exact g2
    · intro i hi
      simp only
      rw [sig_set _ _ _ _ (by omega)]
      have hsv : s.val = start.val + k := by
        rw [h2.2.2, hs.2.2]
        have n1 : (q : ℚ) ≠ 0 := by exact_mod_cast fq.ne'
        push_cast
        field_simp
      by_cases e : i = k
      · rw [if_pos e, e, ← hsv]; exact g3
      · rw [if_neg e]; exact h3 i (by omega))
  rw [← hn] at e5
  obtain ⟨sp, sp1, _⟩ := resampleSuspension_spec hrc (F := h.length) (P := P) hF f' (p + q * n) e5 hpn0
    (by rw [← ha, ← hb]; omega) (by omega)
  refine ⟨s.1, sp, s.2, ?_, e2, e6, sp1, by rw [← hn]; exact e5, by rw [← hn, ← ha, ← hb]; omega⟩
  unfold resampleFloat
  simp only [PolyphaseView.numPhases, PolyphaseView.sizeOriginal, hv, hl]
  rw [c1, Out.ok_bind, cassert_true rfl, Out.ok_bind, c2, Out.ok_bind, cassert_true rfl, Out.ok_bind, cassert_true hP, Out.ok_bind,
    mx1, Out.ok_bind, ← hn, la1, Out.ok_bind, c3, Out.ok_bind, cassert_true rfl, Out.ok_bind, e1, Out.ok_bind, sp1, Out.ok_bind]
  rfl

end
end Verif
