import Verif.Model.Cutoff
import Verif.Props.RationalFloat
import Verif.Props.RateChange

/-!
# Property C92: the cutoff helpers choose the right anti-imaging and anti-aliasing filter
-/

set_option linter.unusedVariables false
set_option linter.style.longLine false

namespace Verif
open Finset Rational

/-- The filter `h` with delay `d` is a low-pass with cutoff `c` (1 is the Nyquist frequency) and transition band of relative
half-width `τ`: below the transition it deviates by at most `δ` from a pure delay, above it (up to the mirror image of the
transition, since responses are periodic) its gain is at most `ε`. -/
def LowpassFor (h : List ℝ) (d c τ δ ε : ℝ) : Prop :=
  (∀ w : ℝ, |w| ≤ (1 - τ) * c * Real.pi → ‖tapsResponse h w * Complex.exp (w * d * Complex.I) - 1‖ ≤ δ) ∧
  ∀ w : ℝ, (1 + τ) * c * Real.pi ≤ |w| → |w| ≤ 2 * Real.pi - (1 + τ) * c * Real.pi → ‖tapsResponse h w‖ ≤ ε

/-- `c` is `exact` up to the relative error `η` -/
def Approx (η c exact : ℝ) : Prop := |c - exact| ≤ η * exact

private theorem factor {rnd : ℝ → ℝ} {u : ℝ} (hu : ∀ x : ℝ, 2⁻¹ ^ 200 ≤ |x| → |rnd x - x| ≤ u * |x|) {x : ℝ} (hx : 2⁻¹ ^ 200 ≤ |x|) :
    ∃ e : ℝ, |e| ≤ u ∧ rnd x = x * (1 + e) := by
  have hp : 0 < |x| := lt_of_lt_of_le (by positivity) hx
  have h0 : x ≠ 0 := abs_pos.1 hp
  refine ⟨(rnd x - x) / x, ?_, ?_⟩
  · rw [abs_div, div_le_iff₀ hp]
    exact hu x hx
  · field_simp
    ring

private theorem inv_factor {e f u k : ℝ} (he : |e| ≤ k * u) (hf : |f| ≤ u) (hu0 : 0 ≤ u) (hu : u ≤ 1 / 64) (hk0 : 0 ≤ k) (hk : k ≤ 4) :
    ∃ g : ℝ, |g| ≤ (k + 2) * u ∧ (1 + e)⁻¹ * (1 + f) = 1 + g := by
  have he' := abs_le.1 he
  have hf' := abs_le.1 hf
  have h4 : k * u ≤ 4 * u := mul_le_mul_of_nonneg_right hk hu0
  have hp : 0 < 1 + e := by linarith
  refine ⟨(f - e) / (1 + e), ?_, ?_⟩
  · rw [abs_div, abs_of_pos hp, div_le_iff₀ hp]
    have h1 : |f - e| ≤ u + k * u := (abs_sub _ _).trans (by linarith)
    refine h1.trans ?_
    have h2 : (k + 2) * u * (1 - k * u) ≤ (k + 2) * u * (1 + e) := mul_le_mul_of_nonneg_left (by linarith) (by positivity)
    refine le_trans ?_ h2
    have h3 : 0 ≤ u * (1 - (k + 2) * (k * u)) := by
      apply mul_nonneg hu0
      have : (k + 2) * (k * u) ≤ 6 * (4 * u) := mul_le_mul (by linarith) h4 (by positivity) (by norm_num)
      linarith
    nlinarith
  · field_simp
    ring

private theorem phases_large {P : ℕ} (hP : 0 < P) : (2⁻¹ : ℝ) ^ 200 ≤ |(P : ℝ)| := by
  have h1 : (1 : ℝ) ≤ |(P : ℝ)| := by
    rw [abs_of_nonneg (Nat.cast_nonneg P)]
    exact_mod_cast hP
  exact le_trans (pow_le_one₀ (by norm_num) (by norm_num)) h1

private theorem base_factor {rnd : ℝ → ℝ} {u : ℝ} (hu : ∀ x : ℝ, 2⁻¹ ^ 200 ≤ |x| → |rnd x - x| ≤ u * |x|) (hu0 : 0 ≤ u) (hu1 : u ≤ 1 / 64)
    {P : ℕ} (hP : 0 < P) (hP' : P < 2 ^ 64) : ∃ g : ℝ, |g| ≤ 3 * u ∧ rnd (1 / rnd P) = 1 / P * (1 + g) := by
  obtain ⟨e, he, ee⟩ := factor hu (phases_large hP)
  have he' := abs_le.1 he
  have hPR : (0 : ℝ) < P := by exact_mod_cast hP
  have hPU : (P : ℝ) ≤ 2 ^ 64 := by exact_mod_cast hP'.le
  have hp : 0 < 1 + e := by linarith
  have hl : (2⁻¹ : ℝ) ^ 200 ≤ |1 / rnd P| := by
    rw [ee, abs_of_pos (by positivity), le_div_iff₀ (by positivity)]
    calc (2⁻¹ : ℝ) ^ 200 * (P * (1 + e)) ≤ (2⁻¹ : ℝ) ^ 200 * (2 ^ 64 * 2) :=
          mul_le_mul_of_nonneg_left (mul_le_mul hPU (by linarith) hp.le (by norm_num)) (by positivity)
      _ ≤ 1 := by norm_num
  obtain ⟨f, hf, ef⟩ := factor hu hl
  obtain ⟨g, hg, eg⟩ := inv_factor (k := 1) (by simpa using he) hf hu0 hu1 (by norm_num) (by norm_num)
  refine ⟨g, by linarith, ?_⟩
  rw [ef, ee, ← eg]
  field_simp

private theorem min_factor {x g G : ℝ} (hx : 0 < x) (hg : |g| ≤ G) (hG1 : G ≤ 1) : |min 1 (x * (1 + g)) - min 1 x| ≤ G * min 1 x := by
  have hg' := abs_le.1 hg
  have hG : 0 ≤ G := (abs_nonneg g).trans hg
  rcases le_total x 1 with h | h
  · rw [min_eq_right h]
    have hxg : |x * g| ≤ G * x := by rw [abs_mul, abs_of_pos hx, mul_comm]; exact mul_le_mul_of_nonneg_right hg hx.le
    have hxg' := abs_le.1 hxg
    rcases le_total (x * (1 + g)) 1 with h2 | h2
    · rw [min_eq_right h2, show x * (1 + g) - x = x * g by ring]
      exact hxg
    · rw [min_eq_left h2, abs_of_nonneg (by linarith)]
      nlinarith
  · rw [min_eq_left h, mul_one]
    rcases le_total (x * (1 + g)) 1 with h2 | h2
    · rw [min_eq_right h2, abs_le]
      refine ⟨?_, by linarith⟩
      have := mul_le_mul_of_nonneg_right h (by linarith : (0 : ℝ) ≤ 1 + g)
      linarith
    · rw [min_eq_left h2]
      simpa using hG

/-- **C92**: `InterpolFilterCutoff` is `1 / numPhases`, up to a relative error of `3 u`; if the number of phases is a number of
the format, it is the correctly rounded value. -/
theorem C92_interpol_cutoff (rnd : ℝ → ℝ) (u : ℝ) (hu : ∀ x : ℝ, 2⁻¹ ^ 200 ≤ |x| → |rnd x - x| ≤ u * |x|) (hu0 : 0 ≤ u) (hu1 : u ≤ 1 / 64)
    (P : ℕ) (hP : 0 < P) (hP' : P < 2 ^ 64) :
    Approx (3 * u) (interpolFilterCutoff rnd P) (1 / P) ∧ (rnd P = P → interpolFilterCutoff rnd P = rnd (1 / P)) := by
  refine ⟨?_, fun h => by unfold interpolFilterCutoff; rw [h]⟩
  obtain ⟨g, hg, eg⟩ := base_factor hu hu0 hu1 hP hP'
  unfold Approx interpolFilterCutoff
  rw [eg, show (1 : ℝ) / P * (1 + g) - 1 / P = g * (1 / P) by ring, abs_mul, abs_of_nonneg (by positivity : (0 : ℝ) ≤ 1 / P)]
  exact mul_le_mul_of_nonneg_right hg (by positivity)

/-- **C92**: `ResampleFilterCutoff` is `min (1, 1 / rate) / numPhases`, up to a relative error of `11 u`, for every positive rate and
number of phases of 64 bits. -/
theorem C92_resample_cutoff (rnd : ℝ → ℝ) (u : ℝ) (h0 : rnd 0 = 0) (hu : ∀ x : ℝ, 2⁻¹ ^ 200 ≤ |x| → |rnd x - x| ≤ u * |x|) (hu0 : 0 ≤ u)
    (hu1 : u ≤ 1 / 64) (rates : Rational) (hr : 0 < rates.den ∧ Int.gcd rates.num rates.den = 1) (hr0 : 0 < rates.num)
    (hn : rates.num < 2 ^ 63) (hd : rates.den < 2 ^ 63) (r : ℝ) (hrv : r = (rates.num : ℝ) / rates.den)
    (P : ℕ) (hP : 0 < P) (hP' : P < 2 ^ 64) :
    Approx (11 * u) (resampleFilterCutoff rnd rates P) (min 1 (1 / r) / P) := by
  obtain ⟨b, hb, eb⟩ := base_factor hu hu0 hu1 hP hP'
  have hu' : ∀ x : ℝ, 2⁻¹ ^ 65 ≤ |x| → |rnd x - x| ≤ u * |x| := fun x hx => hu x (le_trans (by norm_num) hx)
  have hc := C81_error_linear rnd u h0 hu' hu0 (by linarith) rates hr hd r hrv
  have hnR : (1 : ℝ) ≤ rates.num := by exact_mod_cast hr0
  have hdR : (1 : ℝ) ≤ rates.den := by exact_mod_cast hr.1
  have hnU : (rates.num : ℝ) ≤ 2 ^ 63 := by exact_mod_cast hn.le
  have hdU : (rates.den : ℝ) ≤ 2 ^ 63 := by exact_mod_cast hd.le
  have hrp : 0 < r := by rw [hrv]; positivity
  have hrU : r ≤ 2 ^ 63 := by
    rw [hrv, div_le_iff₀ (by linarith)]
    nlinarith
  have hrL : (2⁻¹ : ℝ) ^ 63 ≤ r := by
    rw [hrv, le_div_iff₀ (by linarith)]
    calc (2⁻¹ : ℝ) ^ 63 * rates.den ≤ 2⁻¹ ^ 63 * 2 ^ 63 := mul_le_mul_of_nonneg_left hdU (by positivity)
      _ = 1 := by norm_num
      _ ≤ _ := hnR
  obtain ⟨q, hq⟩ : ∃ q, q = rates.toFloat (fun k => rnd k) (fun a b => rnd (a / b)) := ⟨_, rfl⟩
  have hc' : |q - r| ≤ 4 * u * |r| := by rw [hq]; exact hc
  obtain ⟨e, he, ee⟩ : ∃ e, |e| ≤ 4 * u ∧ q = r * (1 + e) := by
    refine ⟨(q - r) / r, ?_, by field_simp; ring⟩
    rw [abs_div, div_le_iff₀ (abs_pos.2 hrp.ne')]
    exact hc'
  have he' := abs_le.1 he
  have hp : 0 < 1 + e := by linarith
  have hl : (2⁻¹ : ℝ) ^ 200 ≤ |1 / q| := by
    rw [ee, abs_of_pos (by positivity), le_div_iff₀ (by positivity)]
    calc (2⁻¹ : ℝ) ^ 200 * (r * (1 + e)) ≤ (2⁻¹ : ℝ) ^ 200 * (2 ^ 63 * 2) :=
          mul_le_mul_of_nonneg_left (mul_le_mul hrU (by linarith) hp.le (by norm_num)) (by positivity)
      _ ≤ 1 := by norm_num
  obtain ⟨f, hf, ef⟩ := factor hu hl
  obtain ⟨g, hg, eg⟩ := inv_factor (k := 4) he hf hu0 hu1 (by norm_num) (by norm_num)
  have e1 : rnd (1 / q) = 1 / r * (1 + g) := by
    rw [ef, ee, ← eg]
    field_simp
  have hx : 0 < 1 / r := by positivity
  have hm := min_factor hx (G := 6 * u) (hg.trans (by linarith)) (by linarith)
  obtain ⟨M, hM⟩ : ∃ M, M = min 1 (1 / r) := ⟨_, rfl⟩
  obtain ⟨M', hM'⟩ : ∃ M', M' = min 1 (1 / r * (1 + g)) := ⟨_, rfl⟩
  rw [← hM, ← hM'] at hm
  have hMp : 0 < M := by rw [hM]; exact lt_min one_pos hx
  have hML : (2⁻¹ : ℝ) ^ 63 ≤ M := by
    rw [hM]
    refine le_min (by norm_num) ?_
    rw [le_div_iff₀ hrp]
    calc (2⁻¹ : ℝ) ^ 63 * r ≤ 2⁻¹ ^ 63 * 2 ^ 63 := mul_le_mul_of_nonneg_left hrU (by positivity)
      _ = 1 := by norm_num
  obtain ⟨m, hmm, em⟩ : ∃ m, |m| ≤ 6 * u ∧ M' = M * (1 + m) := by
    refine ⟨(M' - M) / M, ?_, by field_simp; ring⟩
    rw [abs_div, abs_of_pos hMp, div_le_iff₀ hMp]
    exact hm
  have hb' := abs_le.1 hb
  have hm' := abs_le.1 hmm
  have hPR : (1 : ℝ) ≤ P := by exact_mod_cast hP
  have hPU : (P : ℝ) ≤ 2 ^ 64 := by exact_mod_cast hP'.le
  have hbp : 1 / 2 ≤ 1 + b := by linarith
  have hmp : 1 / 2 ≤ 1 + m := by linarith
  have hprod : (2⁻¹ : ℝ) ^ 200 ≤ |1 / P * (1 + b) * (M * (1 + m))| := by
    have g1 : (2⁻¹ : ℝ) ^ 64 ≤ 1 / P := by
      rw [le_div_iff₀ (by linarith)]
      calc (2⁻¹ : ℝ) ^ 64 * P ≤ 2⁻¹ ^ 64 * 2 ^ 64 := mul_le_mul_of_nonneg_left hPU (by positivity)
        _ = 1 := by norm_num
    have g2 : (2⁻¹ : ℝ) ^ 64 * (1 / 2) ≤ 1 / P * (1 + b) := mul_le_mul g1 hbp (by norm_num) (by positivity)
    have g3 : (2⁻¹ : ℝ) ^ 63 * (1 / 2) ≤ M * (1 + m) := mul_le_mul hML hmp (by norm_num) hMp.le
    have g4 := mul_le_mul g2 g3 (by positivity) (le_trans (by positivity) g2)
    rw [abs_of_nonneg (le_trans (by positivity) g4)]
    exact le_trans (by norm_num) g4
  obtain ⟨t, ht, et⟩ := factor hu hprod
  have ht' := abs_le.1 ht
  have hval : resampleFilterCutoff rnd rates P = M / P * ((1 + b) * (1 + m) * (1 + t)) := by
    unfold resampleFilterCutoff
    simp only []
    rw [← hq, eb, e1, ← hM', em, et]
    ring
  unfold Approx
  rw [hval, ← hM, show M / P * ((1 + b) * (1 + m) * (1 + t)) - M / P = ((1 + b) * (1 + m) * (1 + t) - 1) * (M / P) by ring, abs_mul,
    abs_of_pos (by positivity : 0 < M / (P : ℝ))]
  refine mul_le_mul_of_nonneg_right ?_ (by positivity)
  rw [show (1 + b) * (1 + m) * (1 + t) - 1 = b + m + t + (b * m + b * t + m * t + b * m * t) by ring]
  have h1 : |b * m| ≤ 3 * u * (6 * u) := by rw [abs_mul]; exact mul_le_mul hb hmm (abs_nonneg _) (by linarith)
  have h2 : |b * t| ≤ 3 * u * u := by rw [abs_mul]; exact mul_le_mul hb ht (abs_nonneg _) (by linarith)
  have h3 : |m * t| ≤ 6 * u * u := by rw [abs_mul]; exact mul_le_mul hmm ht (abs_nonneg _) (by linarith)
  have h4 : |b * m * t| ≤ 3 * u * (6 * u) * u := by rw [abs_mul]; exact mul_le_mul h1 ht (abs_nonneg _) (by positivity)
  have h5 : u * u ≤ 1 / 64 * u := mul_le_mul_of_nonneg_right hu1 hu0
  have h6 : u * u * u ≤ 1 / 64 * u * (1 / 64) := mul_le_mul h5 hu1 hu0 (by positivity)
  have := abs_le.1 h1
  have := abs_le.1 h2
  have := abs_le.1 h3
  have := abs_le.1 h4
  rw [abs_le]
  constructor <;> linarith

/-- frequencies whose images all lie in the stopband -/
private theorem image_far {P : ℕ} (hP : 0 < P) {w e : ℝ} (he : 0 ≤ e) (h : |w| ≤ 2 * Real.pi - e * P) (l : ℕ) (hl : l ∈ Ico 1 P) :
    e ≤ |imageOf P w l| ∧ |imageOf P w l| ≤ 2 * Real.pi - e := by
  obtain ⟨l1, l2⟩ := mem_Ico.1 hl
  have hw := abs_le.1 h
  have hPR : (0 : ℝ) < P := by exact_mod_cast hP
  have c1 : (1 : ℝ) ≤ l := by exact_mod_cast l1
  have c2 : (l : ℝ) + 1 ≤ P := by exact_mod_cast l2
  have hpi := Real.pi_pos
  have b1 : e ≤ imageOf P w l := by
    unfold imageOf
    rw [le_div_iff₀ hPR]
    nlinarith
  have b2 : imageOf P w l ≤ 2 * Real.pi - e := by
    unfold imageOf
    rw [div_le_iff₀ hPR]
    nlinarith
  rw [abs_of_nonneg (he.trans b1)]
  exact ⟨b1, b2⟩

private theorem sum_stop {h : List ℝ} {P : ℕ} (hP : 0 < P) {w e ε : ℝ} (he : 0 ≤ e) (hs : ∀ w : ℝ, e ≤ |w| → |w| ≤ 2 * Real.pi - e → ‖tapsResponse h w‖ ≤ ε)
    (hw : |w| ≤ 2 * Real.pi - e * P) : ∑ l ∈ Ico 1 P, ‖tapsResponse h (imageOf P w l)‖ ≤ (P - 1) * ε := by
  refine (sum_le_sum fun l hl => hs _ (image_far hP he hw l hl).1 (image_far hP he hw l hl).2).trans ?_
  rw [sum_const, Nat.card_Ico, nsmul_eq_mul, Nat.cast_sub hP]
  simp

private theorem edge_le {c c0 η τ : ℝ} (h : Approx η c c0) (hτ : 0 ≤ τ) : (1 + τ) * c * Real.pi ≤ (1 + τ) * (1 + η) * Real.pi * c0 := by
  have := (abs_le.1 h).2
  have h1 : (1 + τ) * c ≤ (1 + τ) * ((1 + η) * c0) := mul_le_mul_of_nonneg_left (by linarith) (by linarith)
  have := mul_le_mul_of_nonneg_right h1 Real.pi_pos.le
  linarith

private theorem le_pass {c c0 η τ : ℝ} (h : Approx η c c0) (hc : 0 ≤ c0) (hτ : 0 ≤ τ) (hτ1 : τ ≤ 1) (hη : 0 ≤ η) :
    (2 - (1 + τ) * (1 + η)) * Real.pi * c0 ≤ (1 - τ) * c * Real.pi := by
  have := (abs_le.1 h).1
  have h1 : (1 - τ) * ((1 - η) * c0) ≤ (1 - τ) * c := mul_le_mul_of_nonneg_left (by linarith) (by linarith)
  have h2 := mul_le_mul_of_nonneg_right h1 Real.pi_pos.le
  have h3 : 0 ≤ 2 * (τ * η) * (c0 * Real.pi) := mul_nonneg (by positivity) (mul_nonneg hc Real.pi_pos.le)
  nlinarith

private theorem pass_stop {h : List ℝ} {d c τ δ ε η m w : ℝ} {P : ℕ} (hP : 0 < P) (hm : 0 < m) (hm1 : m ≤ 1) (hc : Approx η c (m / P)) (hτ : 0 ≤ τ)
    (hτ1 : τ ≤ 1) (hη : 0 ≤ η) (hη1 : η ≤ 1) (hh : LowpassFor h d c τ δ ε) (hw : |w| ≤ (2 - (1 + τ) * (1 + η)) * Real.pi * m) :
    ‖tapsResponse h (w / P) * Complex.exp (w / P * d * Complex.I) - 1‖ ≤ δ ∧ ∑ l ∈ Ico 1 P, ‖tapsResponse h (imageOf P w l)‖ ≤ (P - 1) * ε := by
  have hPR : (0 : ℝ) < P := by exact_mod_cast hP
  have hc0 : 0 ≤ m / P := by positivity
  have hcn : 0 ≤ c := by
    have := (abs_le.1 hc).1
    have : η * (m / P) ≤ 1 * (m / P) := mul_le_mul_of_nonneg_right hη1 hc0
    linarith
  have hpi := Real.pi_pos
  constructor
  · have := hh.1 (w / P) (by
      rw [abs_div, abs_of_pos hPR, div_le_iff₀ hPR]
      have := mul_le_mul_of_nonneg_right (le_pass hc hc0 hτ hτ1 hη) hPR.le
      rw [mul_assoc, div_mul_cancel₀ _ hPR.ne'] at this
      linarith)
    push_cast at this
    exact this
  · refine sum_stop hP (e := (1 + τ) * c * Real.pi) (by positivity) hh.2 ?_
    have h1 := mul_le_mul_of_nonneg_right (edge_le hc hτ) hPR.le
    rw [mul_assoc _ (m / (P : ℝ)), div_mul_cancel₀ _ hPR.ne'] at h1
    have h2 : 2 * Real.pi * m ≤ 2 * Real.pi * 1 := mul_le_mul_of_nonneg_left hm1 (by positivity)
    linarith

/-- **C92**, interpolation: a low-pass filter designed for the cutoff that `InterpolFilterCutoff` returns reproduces every sinusoid below the
input's Nyquist frequency (less the transition band and the rounding error of the cutoff) with the accuracy of its passband, and removes all the
images as well as its stopband attenuates. -/
theorem C92_interpolate {dot : List ℝ → List ℝ → Out ℝ} (hdot : IsDot dot) (rnd : ℝ → ℝ) (u : ℝ)
    (hu : ∀ x : ℝ, 2⁻¹ ^ 200 ≤ |x| → |rnd x - x| ≤ u * |x|) (hu0 : 0 ≤ u) (hu1 : u ≤ 1 / 64) (P : ℕ) (hP : 0 < P) (hP' : P < 2 ^ 64)
    (h : List ℝ) (hF : 0 < h.length) (d τ δ ε : ℝ) (hτ : 0 ≤ τ) (hτ1 : τ ≤ 1) (hh : LowpassFor h d (interpolFilterCutoff rnd P) τ δ ε) :
    ∃ v, polyphaseDecomposeAlloc h P = .ok v ∧ ∀ (A w φ : ℝ) (L off len : ℕ), h.length ≤ off + 1 → off + len ≤ L * P →
      |w| ≤ (2 - (1 + τ) * (1 + 3 * u)) * Real.pi →
      ∃ y, interpolateAlloc dot (sinusoid A w φ L) v off len = .ok y ∧ y.length = len ∧ ∀ k, k < len →
        |sig y k - A * Real.cos (w / P * (((off + k : ℕ) : ℝ) - d) + φ)| ≤ |A| * (δ + (P - 1) * ε) := by
  obtain ⟨v, e1, e2⟩ := C85_interpolate_error hdot h P hP hF d
  refine ⟨v, e1, fun A w φ L off len h1 h2 hw => ?_⟩
  obtain ⟨y, f1, f2, f3⟩ := e2 A w φ L off len h1 h2
  refine ⟨y, f1, f2, fun k hk => (f3 k hk).trans (mul_le_mul_of_nonneg_left ?_ (abs_nonneg A))⟩
  have := pass_stop hP one_pos le_rfl (C92_interpol_cutoff rnd u hu hu0 hu1 P hP hP').1 hτ hτ1 (by linarith) (by linarith) hh (w := w) (by linarith)
  exact add_le_add this.1 this.2

private theorem images_small (h : List ℝ) (A w φ S : ℝ) (P : ℕ) (m : ℝ) (hS : ∀ l ∈ range P, ‖tapsResponse h (imageOf P w l)‖ ≤ S) :
    |(∑ k ∈ range P, tapsResponse h (imageOf P w k) * (A * Complex.exp ((imageOf P w k * m + φ) * Complex.I))).re| ≤ |A| * (P * S) := by
  refine (Complex.abs_re_le_norm _).trans ((norm_sum_le _ _).trans ?_)
  have : ∀ l ∈ range P, ‖tapsResponse h (imageOf P w l) * (A * Complex.exp ((imageOf P w l * m + φ) * Complex.I))‖ ≤ S * |A| := by
    intro l hl
    rw [norm_mul, norm_mul, Complex.norm_real, Real.norm_eq_abs]
    rw [show ((imageOf P w l : ℝ) : ℂ) * m + φ = ((imageOf P w l * m + φ : ℝ) : ℂ) by push_cast; ring, Complex.norm_exp_ofReal_mul_I, mul_one]
    exact mul_le_mul_of_nonneg_right (hS l hl) (abs_nonneg A)
  refine (sum_le_sum this).trans ?_
  rw [sum_const, card_range, nsmul_eq_mul]
  linarith

/-- **C92**, resampling: with a low-pass filter designed for the cutoff that `ResampleFilterCutoff` returns,
* every sinusoid that both the input and the output rate can represent (less the transition band and the rounding error of the cutoff) is
  reproduced at the output's sample positions, with the accuracy of the passband, the attenuation of the images and the error of linear
  interpolation;
* every sinusoid that the output rate cannot represent, and which would alias, is attenuated to `P ε`. -/
theorem C92_resample {dot : List ℝ → List ℝ → Out ℝ} (hdot : IsDot dot) (rnd : ℝ → ℝ) (u : ℝ) (h0 : rnd 0 = 0)
    (hu : ∀ x : ℝ, 2⁻¹ ^ 200 ≤ |x| → |rnd x - x| ≤ u * |x|) (hu0 : 0 ≤ u) (hu1 : u ≤ 1 / 64) (P : ℕ) (hP : 0 < P) (hP' : P < 2 ^ 64)
    (rates : Rational) (hrc : Canon rates) (hr0 : 0 < rates.num) (hrn : rates.num < 2 ^ 63) (hrd : rates.den < 2 ^ 63)
    (h : List ℝ) (hF : 0 < h.length) (d τ δ ε : ℝ) (hτ : 0 ≤ τ) (hτ1 : τ ≤ 1) (hh : LowpassFor h d (resampleFilterCutoff rnd rates P) τ δ ε) :
    ∃ v, polyphaseDecomposeAlloc h P = .ok v ∧ ∀ (A w φ : ℝ) (L : ℕ) (out : List ℝ) (start : Rational), Canon start → 0 ≤ start.num →
      (L * P + h.length + P : ℤ) * (start.den * rates.den * rates.num * P) ≤ 2 ^ 62 →
      start.val + out.length ≤ (convLengthFull (L * P) h.length : ℚ) / (rates.val * P) →
      ∃ y sp, resample dot out (sinusoid A w φ L) v rates start = .ok (y, sp) ∧ y.length = out.length ∧
        ∀ k, k < out.length → (h.length : ℚ) - 1 ≤ (start.val + k) * rates.val * P → (start.val + k) * rates.val * P + 1 < L * P →
        (|w| ≤ (2 - (1 + τ) * (1 + 11 * u)) * Real.pi * min 1 (1 / (rates.val : ℝ)) →
          |sig y k - A * Real.cos (w * ((((start.val + k) * rates.val : ℚ) : ℝ) - d / P) + φ)| ≤ |A| * (δ + (P - 1) * ε + (w / P) ^ 2 / 8)) ∧
        (|w| ≤ Real.pi → (1 + τ) * (1 + 11 * u) * Real.pi ≤ |w| * rates.val → |sig y k| ≤ |A| * (P * ε)) := by
  obtain ⟨v, e1, e2⟩ := C85_resample_error hdot h P hP hF d
  obtain ⟨v', r1, r2⟩ := decompose_represents (output := List.replicate h.length 0) (h := h) (P := P) (by simp)
  have hv : v = v' := by
    have : polyphaseDecomposeAlloc h P = .ok v' := r1
    rw [this] at e1
    injection e1 with e
    exact e.symm
  subst hv
  refine ⟨v, e1, fun A w φ L out start hsc hs0 hfit hmax => ?_⟩
  obtain ⟨y, sp, f1, f2, f3⟩ := e2 A w φ L out rates start hrc hsc hr0 hs0 hfit hmax
  refine ⟨y, sp, f1, f2, fun k hk c1 c2 => ?_⟩
  have hrp : (0 : ℚ) < rates.val := div_pos (by exact_mod_cast hr0) (by exact_mod_cast hrc.1)
  have hrpR : (0 : ℝ) < rates.val := by exact_mod_cast hrp
  have hPR : (0 : ℝ) < P := by exact_mod_cast hP
  have hcut := C92_resample_cutoff rnd u h0 hu hu0 hu1 rates hrc hr0 hrn hrd (rates.val : ℝ) (by unfold Rational.val; push_cast; rfl) P hP hP'
  obtain ⟨m, hm⟩ : ∃ m, m = min 1 (1 / (rates.val : ℝ)) := ⟨_, rfl⟩
  rw [← hm] at hcut ⊢
  have hmp : 0 < m := by rw [hm]; exact lt_min one_pos (by positivity)
  have hm1 : m ≤ 1 := by rw [hm]; exact min_le_left _ _
  have hmr : m ≤ 1 / rates.val := by rw [hm]; exact min_le_right _ _
  refine ⟨fun hw => (f3 k hk c1 c2).trans (mul_le_mul_of_nonneg_left ?_ (abs_nonneg A)), fun hw1 hw2 => ?_⟩
  · have := pass_stop hP hmp hm1 hcut hτ hτ1 (by linarith) (by linarith) hh hw
    linarith [this.1, this.2]
  · have hpi := Real.pi_pos
    obtain ⟨c, hc⟩ : ∃ c, c = resampleFilterCutoff rnd rates P := ⟨_, rfl⟩
    rw [← hc] at hcut hh
    have hcn : 0 ≤ c := by
      have h1 := (abs_le.1 hcut).1
      have h3 : 0 ≤ m / P := by positivity
      have h2 : 11 * u * (m / P) ≤ 1 * (m / P) := mul_le_mul_of_nonneg_right (by linarith) h3
      linarith
    obtain ⟨e, he⟩ : ∃ e, e = (1 + τ) * c * Real.pi := ⟨_, rfl⟩
    have he0 : 0 ≤ e := by rw [he]; positivity
    have heP : e * P ≤ |w| := by
      have h1 := mul_le_mul_of_nonneg_right (edge_le hcut hτ) hPR.le
      rw [mul_assoc _ (m / (P : ℝ)), div_mul_cancel₀ _ hPR.ne', ← he] at h1
      have h2 : (1 + τ) * (1 + 11 * u) * Real.pi * m ≤ (1 + τ) * (1 + 11 * u) * Real.pi * (1 / rates.val) :=
        mul_le_mul_of_nonneg_left hmr (by positivity)
      refine h1.trans (h2.trans ?_)
      rw [mul_one_div, div_le_iff₀ hrpR]
      exact hw2
    have hP1 : (1 : ℝ) ≤ P := by exact_mod_cast hP
    have hS : ∀ l ∈ range P, ‖tapsResponse h (imageOf P w l)‖ ≤ ε := by
      intro l hl
      rcases Nat.eq_zero_or_pos l with hl0 | hl0
      · subst hl0
        have e0 : |imageOf P w 0| = |w| / P := by simp [imageOf, abs_div]
        apply hh.2
        · rw [e0, ← he, le_div_iff₀ hPR]
          exact heP
        · rw [e0, ← he]
          have h1 : |w| / P ≤ |w| := div_le_self (abs_nonneg w) hP1
          have h2 : e ≤ e * P := le_mul_of_one_le_right he0 hP1
          linarith
      · have := image_far hP he0 (w := w) (by linarith) l (mem_Ico.2 ⟨hl0, mem_range.1 hl⟩)
        rw [he] at this
        exact hh.2 _ this.1 this.2
    have hlS : (sinusoid A w φ L).length = L := by simp [sinusoid]
    obtain ⟨y', sp', g1, g2, g3⟩ := C32_resample hdot out (sinusoid A w φ L) (h.map fun a => (P : ℝ) * a) v P r2 hP (by simpa using hF) rates start
      hrc hsc hr0 hs0 (by rw [hlS, List.length_map]; exact hfit) (by rw [hlS, List.length_map]; exact hmax)
    have hy : y = y' := by
      rw [f1] at g1
      injection g1 with g
      exact congrArg Prod.fst g
    rw [hy, g3 k hk]
    obtain ⟨pos, hpos⟩ : ∃ pos, pos = (start.val + k) * rates.val * P := ⟨_, rfl⟩
    rw [← hpos] at c1 c2 ⊢
    have hp0 : 0 ≤ pos := by
      have : (1 : ℚ) ≤ h.length := by exact_mod_cast hF
      linarith
    obtain ⟨n, hn⟩ : ∃ n, n = ⌊pos⌋.toNat := ⟨_, rfl⟩
    have hfl : (n : ℤ) = ⌊pos⌋ := by rw [hn]; exact Int.toNat_of_nonneg (Int.floor_nonneg.2 hp0)
    have hn1 : (n : ℚ) ≤ pos := by
      have := Int.floor_le pos
      rw [← hfl] at this
      exact_mod_cast this
    have hn2 : h.length ≤ n + 1 := by
      have : ((h.length : ℤ) - 1) ≤ ⌊pos⌋ := by
        rw [Int.le_floor]
        push_cast
        exact c1
      omega
    have hn3 : n + 1 < L * P := by
      have : ((n + 1 : ℕ) : ℚ) < (L * P : ℕ) := by push_cast; linarith
      exact_mod_cast this
    obtain ⟨s, hs⟩ : ∃ s, s = Int.fract pos := ⟨_, rfl⟩
    have hs0' : (0 : ℝ) ≤ s := by rw [hs]; exact_mod_cast Int.fract_nonneg pos
    have hs1' : (s : ℝ) ≤ 1 := by rw [hs]; exact_mod_cast (Int.fract_lt_one pos).le
    have hcv : ∀ m, convAt (zeroStuffed (sinusoid A w φ L) P) (h.map fun a => (P : ℝ) * a) m =
        (P : ℝ) * convAt (zeroStuffed (sinusoid A w φ L) P) h m := by
      intro m
      rw [← upsampleAt_eq_conv _ _ _ _ hP, ← upsampleAt_eq_conv _ _ _ _ hP, upsampleAt_map]
    unfold lerpAt
    simp only [hcv]
    rw [← hn, ← hs, conv_stuffed_sinusoid h A w φ L P n hP hn2 (by omega), conv_stuffed_sinusoid h A w φ L P (n + 1) hP (by omega) hn3]
    have b1 := images_small h A w φ ε P (n : ℝ) hS
    have b2 := images_small h A w φ ε P ((n + 1 : ℕ) : ℝ) hS
    push_cast at b1 b2 ⊢
    generalize (∑ k ∈ range P, tapsResponse h (imageOf P w k) * (A * Complex.exp ((imageOf P w k * n + φ) * Complex.I))).re = u0 at b1 ⊢
    generalize (∑ k ∈ range P, tapsResponse h (imageOf P w k) * (A * Complex.exp ((imageOf P w k * (n + 1) + φ) * Complex.I))).re = u1 at b2 ⊢
    have : u0 + s * (u1 - u0) = (1 - s) * u0 + s * u1 := by ring
    rw [this]
    refine (abs_add_le _ _).trans ?_
    rw [abs_mul, abs_mul, abs_of_nonneg hs0', abs_of_nonneg (by linarith : (0 : ℝ) ≤ 1 - s)]
    nlinarith [mul_le_mul_of_nonneg_left b1 (by linarith : (0 : ℝ) ≤ 1 - s), mul_le_mul_of_nonneg_left b2 hs0']

/-! ### the hypotheses are met -/

/-- rounding to `double` -/
example : binRound 53 (-1074) 0 = 0 ∧ (∀ x : ℝ, 2⁻¹ ^ 200 ≤ |x| → |binRound 53 (-1074) x - x| ≤ (2 : ℝ) ^ (-53 : ℤ) * |x|) ∧
    (0 : ℝ) ≤ 2 ^ (-53 : ℤ) ∧ (2 : ℝ) ^ (-53 : ℤ) ≤ 1 / 64 := by
  refine ⟨binRound_zero _ _, fun x hx => ?_, by positivity, by norm_num⟩
  have h2 : (2 : ℝ) ^ ((-1074 : ℤ) + (53 : ℕ)) ≤ 2⁻¹ ^ 200 := by
    rw [show (2⁻¹ : ℝ) ^ 200 = 2 ^ (-200 : ℤ) by rw [inv_pow, zpow_neg]; rfl]
    exact zpow_le_zpow_right₀ (by norm_num) (by norm_num)
  have := binRound_rel 53 (-1074) (x := x) (h2.trans hx)
  exact_mod_cast this

private theorem example_response (w : ℝ) :
    tapsResponse [1 / 4, 1 / 2, 1 / 4] w * Complex.exp (w * (1 : ℝ) * Complex.I) = (((1 + Real.cos w) / 2 : ℝ) : ℂ) := by
  have e : Complex.exp (-(w * 2) * Complex.I) = Complex.exp (-w * Complex.I) * Complex.exp (-w * Complex.I) := by
    rw [← Complex.exp_add]; congr 1; ring
  have f : Complex.exp (-w * Complex.I) * Complex.exp (w * Complex.I) = 1 := by
    rw [← Complex.exp_add]; simp
  have c : ((Real.cos w : ℝ) : ℂ) = (Complex.exp (w * Complex.I) + Complex.exp (-w * Complex.I)) / 2 := by
    rw [Complex.ofReal_cos, Complex.cos]
  have h1 : tapsResponse [1 / 4, 1 / 2, 1 / 4] w = 1 / 4 + 1 / 2 * Complex.exp (-w * Complex.I) + 1 / 4 * Complex.exp (-(w * 2) * Complex.I) := by
    simp [tapsResponse, sum_range_succ, sig]
  rw [h1]
  push_cast
  rw [← Complex.ofReal_cos, c, e, mul_one]
  linear_combination (1 / 2 + 1 / 4 * Complex.exp (-w * Complex.I)) * f

private theorem example_norm (w : ℝ) : ‖tapsResponse [1 / 4, 1 / 2, 1 / 4] w‖ = (1 + Real.cos w) / 2 := by
  have h := congrArg norm (example_response w)
  rw [norm_mul, show (w : ℂ) * ((1 : ℝ) : ℂ) * Complex.I = (w : ℂ) * Complex.I by push_cast; ring, Complex.norm_exp_ofReal_mul_I, mul_one,
    Complex.norm_real, Real.norm_eq_abs, abs_of_nonneg (by linarith [Real.neg_one_le_cos w])] at h
  exact h

private theorem cos_quarter : (7 : ℝ) / 10 ≤ Real.cos (Real.pi / 4) := by
  rw [Real.cos_pi_div_four, le_div_iff₀ (by norm_num)]
  refine Real.le_sqrt_of_sq_le ?_
  norm_num

/-- Three taps are a (mild) low-pass for interpolation to twice the rate: passband and stopband both within `3/20`. -/
example : LowpassFor [1 / 4, 1 / 2, 1 / 4] 1 (interpolFilterCutoff id 2) (1 / 2) (3 / 20) (3 / 20) := by
  have hc : interpolFilterCutoff id 2 = 1 / 2 := by simp [interpolFilterCutoff]
  have hpi := Real.pi_pos
  rw [hc]
  constructor
  · intro w hw
    rw [example_response w, ← Complex.ofReal_one, ← Complex.ofReal_sub, Complex.norm_real, Real.norm_eq_abs, abs_le]
    have h1 : Real.cos (Real.pi / 4) ≤ Real.cos |w| := Real.cos_le_cos_of_nonneg_of_le_pi (abs_nonneg w) (by linarith) (by linarith)
    rw [Real.cos_abs] at h1
    constructor <;> linarith [cos_quarter, Real.cos_le_one w]
  · intro w hw1 hw2
    rw [example_norm]
    have h2 : Real.cos (|w| - Real.pi) = -Real.cos w := by rw [Real.cos_sub_pi, Real.cos_abs]
    have h3 : |(|w| - Real.pi)| ≤ Real.pi / 4 := by
      rw [abs_le]
      constructor <;> linarith
    have h1 : Real.cos (Real.pi / 4) ≤ Real.cos |(|w| - Real.pi)| := Real.cos_le_cos_of_nonneg_of_le_pi (abs_nonneg _) (by linarith) h3
    rw [Real.cos_abs, h2] at h1
    linarith [cos_quarter]

/-- ... and resampling at half the rate with two phases needs a cutoff of a quarter. -/
example : resampleFilterCutoff id ⟨2, 1⟩ 2 = 1 / 4 ∧ Canon ⟨2, 1⟩ := by
  refine ⟨?_, by norm_num, by decide⟩
  have : min (1 : ℝ) (1 / 2) = 1 / 2 := min_eq_right (by norm_num)
  simp only [resampleFilterCutoff, Rational.toFloat, id]
  norm_num

end Verif
