import Verif.Props.WindowedRounded
import Mathlib.Algebra.BigOperators.Field

/-!
# Property C100: the windowed high pass designed in floating point
-/

set_option linter.unusedVariables false
set_option linter.style.longLine false
set_option linter.unusedSectionVars false

namespace Verif
open Finset

/-- the complement of a filter in place, over any type with arithmetic -/
theorem complementaryResponseF_writes {F : Type} [Zero F] [Add F] [Sub F] [Mul F] [Div F] [FloatFun F] (mone : F) (e : Exec) {mem m : List F}
    {out : Span} (hodd : out.size % 2 = 1) (hw : out.Within mem) {h : ℕ → F} (hr : Writes mem m out h) :
    ∃ m', complementaryResponseF mone e m out out = .ok m' ∧
      Writes mem m' out (fun i => if i = out.size / 2 then h i * mone + FloatFun.ofSize 1 else h i * mone) := by
  have hw' := hr.within hw
  have hl := hr.length
  obtain ⟨m1, e1, hl1, h1, h2⟩ := C40_vector_scalar e.asserts e.vec e.W .mul m out out mone rfl hw' hw' (Or.inl le_rfl)
  have hw2 := hw'
  unfold Span.Within at hw2
  have hv : ∀ i, i < out.size → m1[out.pos + i]? = some (h i * mone) := fun i hi => by
    rw [h1 i hi, hr.written i hi]; rfl
  have hc := hv (out.size / 2) (by omega)
  obtain ⟨m2, e2, hl2, h3⟩ := wr_upd (mem := m1) (p := out.pos + out.size / 2) (by omega) (h (out.size / 2) * mone + FloatFun.ofSize 1)
  refine ⟨m2, ?_, ⟨by omega, fun i hi => ?_, fun j hj => ?_⟩⟩
  · unfold complementaryResponseF
    rw [cassert_true hodd, Out.ok_bind, e1, Out.ok_bind, rd_some hc, Out.ok_bind, e2]
  · rw [h3]
    by_cases hi2 : i = out.size / 2
    · rw [if_pos (by omega)]
      simp [← hi2]
    · rw [if_neg (by omega), hv i hi]
      simp only [if_neg hi2]
  · rw [h3, if_neg (by omega), h2 j hj, hr.rest j hj]

/-- **C100** the computed taps of the high pass are symmetric, bit for bit, for every symmetric window. -/
theorem C100_symmetric {F : Type} [Zero F] [Add F] [Sub F] [Mul F] [Div F] [FloatFun F] (pi mone : F) (sin : F → F) (e : Exec) (c : KernOf F)
    (hc : c.Valid) (mem : List F) (out : Span) (hodd : out.size % 2 = 1) (hm : out.Within mem) (fc : F)
    (window : List F → Span → Out (List F)) {m0 : List F} {w : ℕ → F} (hwin : window mem out = .ok m0) (hww : Writes mem m0 out w)
    (hsym : ∀ i, i < out.size → w (out.size - 1 - i) = w i) :
    ∃ m g, designWindowedHighpassF pi mone sin e c mem out fc window = .ok m ∧ Writes mem m out g ∧
      ∀ i, i < out.size → g (out.size - 1 - i) = g i := by
  obtain ⟨m1, h, e1, h1, h2⟩ := C99_symmetric pi sin e c hc mem out hodd hm fc window hwin hww hsym
  obtain ⟨m2, e2, h3⟩ := complementaryResponseF_writes mone e hodd hm h1
  refine ⟨m2, _, by rw [designWindowedHighpassF, e1, Out.ok_bind, e2], h3, fun i hi => ?_⟩
  rw [h2 i hi]
  by_cases hi2 : i = out.size / 2
  · rw [if_pos hi2, if_pos (by omega)]
  · rw [if_neg hi2, if_neg (by omega)]

private theorem complement_real {u t a r M n v h p : ℝ} (hu0 : 0 ≤ u) (ht0 : 0 ≤ t) (hn : 0 ≤ n) (hu : u ≤ 1 / 1000) (ht : t ≤ u) (ha : 0 ≤ a)
    (haM : a ≤ M) (hr : 0 < r) (hMr : 1 ≤ M * r) (hcond : (8 * n + 200) * u * M * r ≤ 1) (hv : |v| ≤ a * r)
    (hh : |h - v| ≤ (2 * n + 60) * u * a * M * r ^ 2 + 2 * t * (1 + a + r)) (hp : |p - h * (-1)| ≤ u * |h * (-1)| + t) :
    |h| ≤ 14 / 10 * ((M + 1) * (r + 1)) ∧ |p| ≤ 15 / 10 * ((M + 1) * (r + 1)) ∧
    |p - (-v)| ≤ (3 * n + 65) * u * a * M * r ^ 2 + 4 * t * (1 + a + r) ∧
    ∀ q, |q - (p + 1)| ≤ u * |p + 1| → |q - (1 - v)| ≤ (3 * n + 70) * u * a * M * r ^ 2 + 4 * t * (1 + a + r) + 2 * u := by
  obtain ⟨P, hP⟩ : ∃ P, P = u * a * M * r ^ 2 := ⟨_, rfl⟩
  have hM0 : 0 ≤ M := ha.trans haM
  have hP0 : 0 ≤ P := by rw [hP]; positivity
  have hnP : 0 ≤ n * P := mul_nonneg hn hP0
  obtain ⟨Z, hZ⟩ : ∃ Z, Z = t * (1 + a + r) := ⟨_, rfl⟩
  have hZ0 : 0 ≤ Z := by rw [hZ]; positivity
  have eP : ∀ k : ℝ, (k * n + 0) * u * a * M * r ^ 2 = k * (n * P) := fun k => by rw [hP]; ring
  have e1 : (2 * n + 60) * u * a * M * r ^ 2 + 2 * t * (1 + a + r) = 2 * (n * P) + 60 * P + 2 * Z := by rw [hP, hZ]; ring
  have e2 : (3 * n + 65) * u * a * M * r ^ 2 + 4 * t * (1 + a + r) = 3 * (n * P) + 65 * P + 4 * Z := by rw [hP, hZ]; ring
  have e3 : (3 * n + 70) * u * a * M * r ^ 2 + 4 * t * (1 + a + r) + 2 * u = 3 * (n * P) + 70 * P + 4 * Z + 2 * u := by rw [hP, hZ]; ring
  rw [e1] at hh
  rw [e2, e3]
  have har : 0 ≤ a * r := mul_nonneg ha hr.le
  have huar : u * (a * r) ≤ P := by
    have := mul_le_mul_of_nonneg_left hMr (by positivity : 0 ≤ u * (a * r))
    rw [hP]
    calc _ = u * (a * r) * 1 := by ring
      _ ≤ _ := this
      _ = _ := by ring
  have hPar : 8 * (n * P) + 200 * P ≤ a * r := by
    have := mul_le_mul_of_nonneg_right hcond har
    rw [one_mul] at this
    refine le_trans (le_of_eq ?_) this
    rw [hP]
    ring
  have htZ : t ≤ Z := by
    rw [hZ]
    have := mul_nonneg ht0 (by linarith : 0 ≤ a + r)
    linarith
  obtain ⟨Q, hQ⟩ : ∃ Q, Q = (M + 1) * (r + 1) := ⟨_, rfl⟩
  rw [← hQ]
  have harQ : a * r ≤ Q := by
    rw [hQ]
    have := mul_le_mul_of_nonneg_right haM hr.le
    have : (M + 1) * (r + 1) = M * r + M + r + 1 := by ring
    linarith
  have hQ1 : 1 + a + r ≤ Q := by
    rw [hQ]
    have : (M + 1) * (r + 1) = M * r + M + r + 1 := by ring
    linarith
  have hZQ : Z ≤ 1 / 1000 * Q := by
    rw [hZ]
    exact mul_le_mul (ht.trans hu) hQ1 (by positivity) (by norm_num)
  have hhb : |h| ≤ a * r + 2 * (n * P) + 60 * P + 2 * Z := by
    have := abs_add_le (h - v) v
    rw [sub_add_cancel] at this
    linarith
  have hhQ : |h| ≤ 14 / 10 * Q := by linarith
  have huh : u * |h| ≤ P + 1 / 1000 * (2 * (n * P) + 60 * P + 2 * Z) := by
    have h1 := mul_le_mul_of_nonneg_left hhb hu0
    have h2 := mul_le_mul_of_nonneg_right hu (by positivity : 0 ≤ 2 * (n * P) + 60 * P + 2 * Z)
    linarith
  have eh : |h * (-1)| = |h| := by rw [mul_neg_one, abs_neg]
  rw [eh] at hp
  have hpv : |p - (-v)| ≤ 2002 / 1000 * (n * P) + 62 * P + 21 / 10 * Z + t := by
    have h1 := abs_add_le (p - h * (-1)) (-(h - v))
    rw [abs_neg, show p - h * (-1) + -(h - v) = p - (-v) by ring] at h1
    linarith
  have hpQ : |p| ≤ 15 / 10 * Q := by
    have h1 := abs_add_le (p - h * (-1)) (h * (-1))
    rw [sub_add_cancel, eh] at h1
    have h2 := mul_le_mul_of_nonneg_right hu (abs_nonneg h)
    linarith
  refine ⟨hhQ, hpQ, by linarith, fun q hq => ?_⟩
  have hp1 : |p + 1| ≤ 1 + (a * r + (2002 / 1000 * (n * P) + 62 * P + 21 / 10 * Z + t)) := by
    have h1 := abs_add_le (p - (-v)) (1 - v)
    rw [show p - -v + (1 - v) = p + 1 by ring] at h1
    have h2 := abs_sub (1 : ℝ) v
    rw [abs_one] at h2
    linarith
  have h3 := mul_le_mul_of_nonneg_left hp1 hu0
  have h4 := mul_le_mul_of_nonneg_right hu (by positivity : 0 ≤ 2002 / 1000 * (n * P) + 62 * P + 21 / 10 * Z + t)
  have h5 := abs_add_le (q - (p + 1)) (p - (-v))
  rw [show q - (p + 1) + (p - -v) = q - (1 - v) by ring] at h5
  linarith

section
variable {F : Type} [Zero F] [Add F] [Sub F] [Mul F] [Fma F] [Div F] [FloatFun F] {A : FloatArithFun F}

/-- The taps of the exact high pass: a unit impulse in the middle minus the low pass. -/
noncomputable def highpassTap (A : FloatArithFun F) (n : ℕ) (fc : ℝ) (w : ℕ → F) (i : ℕ) : ℝ :=
  (if i = n / 2 then 1 else 0) - windowedTap A n fc w i / windowedSum A n fc w

/-- **C100** every computed tap of the high pass is close to the exact tap of the high pass designed with the same window; the response is
close to the exact one at every frequency; and the gain at frequency zero is zero up to rounding. -/
theorem C100_highpass {pi mone : F} {sin : F → F} (hO : SineOps.Ok A pi sin) (hone : A.finite mone ∧ A.val mone = -1) (e : Exec) (c : KernOf F)
    (hc : c.Valid) (mem : List F) (out : Span) (hodd : out.size % 2 = 1) (hm : out.Within mem) (fc : F) (ffc : A.finite fc)
    (window : List F → Span → Out (List F)) {m0 : List F} {w : ℕ → F} (hwin : window mem out = .ok m0) (hww : Writes mem m0 out w)
    (fw : ∀ i, i < out.size → A.finite (w i)) (hs : SuitsLowpass A out.size (A.val fc) w) :
    ∃ m g, designWindowedHighpassF pi mone sin e c mem out fc window = .ok m ∧ Writes mem m out g ∧
      (∀ i, i < out.size → A.finite (g i) ∧
        |A.val (g i) - highpassTap A out.size (A.val fc) w i| ≤
          (3 * out.size + 70) * A.u * |A.val (w i)| * windowMagnitude A out.size w / |windowedSum A out.size (A.val fc) w| ^ 2 +
            4 * A.tiny * (1 + |A.val (w i)| + 1 / |windowedSum A out.size (A.val fc) w|) + (if i = out.size / 2 then 2 * A.u else 0)) ∧
      (∀ ω : ℝ, ‖firResponse out.size (fun i => A.val (g i)) ω - firResponse out.size (highpassTap A out.size (A.val fc) w) ω‖ ≤
        (3 * out.size + 70) * A.u * (windowMagnitude A out.size w / |windowedSum A out.size (A.val fc) w|) ^ 2 +
          4 * A.tiny * (out.size + windowMagnitude A out.size w + out.size * (1 / |windowedSum A out.size (A.val fc) w|)) + 2 * A.u) ∧
      |∑ i ∈ range out.size, A.val (g i)| ≤
        (3 * out.size + 70) * A.u * (windowMagnitude A out.size w / |windowedSum A out.size (A.val fc) w|) ^ 2 +
          4 * A.tiny * (out.size + windowMagnitude A out.size w + out.size * (1 / |windowedSum A out.size (A.val fc) w|)) + 2 * A.u := by
  obtain ⟨m1, h, e1, h1, h2, -⟩ := C99_lowpass hO e c hc mem out hodd hm fc ffc window hwin hww fw hs
  obtain ⟨m2, e2, h3⟩ := complementaryResponseF_writes mone e hodd hm h1
  obtain ⟨n, hn⟩ : ∃ n, n = out.size := ⟨_, rfl⟩
  have hu0 := A.u_nonneg
  have ht0 := A.tiny_nonneg
  have hu := hs.u
  rw [← hn] at hs hodd fw h2 ⊢
  have hn0 : (0 : ℝ) ≤ n := Nat.cast_nonneg n
  have htu : A.tiny ≤ A.u := by
    have := mul_le_mul_of_nonneg_left hs.cutoff_le hu0
    linarith [hs.underflow]
  obtain ⟨M, hMd⟩ : ∃ M, M = windowMagnitude A n w := ⟨_, rfl⟩
  obtain ⟨S, hSd⟩ : ∃ S, S = windowedSum A n (A.val fc) w := ⟨_, rfl⟩
  have hS0 : S ≠ 0 := by rw [hSd]; exact hs.sum
  have hSp : 0 < |S| := abs_pos.2 hS0
  have hSM : |S| ≤ M := by
    rw [hSd, hMd]
    refine (Finset.abs_sum_le_sum_abs _ _).trans (Finset.sum_le_sum fun i _ => ?_)
    rw [windowedTap, abs_mul]
    exact mul_le_of_le_one_right (abs_nonneg _) (Real.abs_sinc_le_one _)
  have hM0 : 0 ≤ M := hSp.le.trans hSM
  have hcond := hs.conditioned
  have hrange := hs.range
  obtain ⟨r, hr⟩ : ∃ r, r = 1 / |S| := ⟨_, rfl⟩
  have hr0 : 0 < r := by rw [hr]; positivity
  have hrS : |S| * r = 1 := by rw [hr]; field_simp
  have hMr : 1 ≤ M * r := by
    rw [← hrS]
    exact mul_le_mul_of_nonneg_right hSM hr0.le
  rw [← hMd, ← hSd] at hcond hrange h2 ⊢
  rw [← hr] at hrange h2 ⊢
  have hcond' : (8 * n + 200) * A.u * M * r ≤ 1 := by
    rw [← hrS]
    exact mul_le_mul_of_nonneg_right hcond hr0.le
  have hdiv : ∀ x : ℝ, x / |S| ^ 2 = x * r ^ 2 := fun x => by rw [hr]; field_simp
  obtain ⟨f1, v1⟩ := hs.integers 1 (by omega)
  have hQ1 : 1 ≤ (M + 1) * (r + 1) := by
    have : (M + 1) * (r + 1) = M * r + M + r + 1 := by ring
    linarith
  have hrange' : 4 * ((M + 1) * (r + 1)) ≤ A.huge := by linarith
  have tap : ∀ i, i < n → A.finite (if i = n / 2 then h i * mone + FloatFun.ofSize 1 else h i * mone) ∧
      |A.val (if i = n / 2 then h i * mone + FloatFun.ofSize 1 else h i * mone) - highpassTap A n (A.val fc) w i| ≤
        (3 * n + 70) * A.u * |A.val (w i)| * M / |S| ^ 2 + 4 * A.tiny * (1 + |A.val (w i)| + r) + (if i = n / 2 then 2 * A.u else 0) := by
    intro i hi
    obtain ⟨fh, vh⟩ := h2 i hi
    rw [hdiv] at vh ⊢
    have hvb : |windowedTap A n (A.val fc) w i / S| ≤ |A.val (w i)| * r := by
      rw [hr, abs_div, ← div_eq_mul_one_div]
      refine div_le_div_of_nonneg_right ?_ hSp.le
      rw [windowedTap, abs_mul]
      exact mul_le_of_le_one_right (abs_nonneg _) (Real.abs_sinc_le_one _)
    have haM : |A.val (w i)| ≤ M := by
      rw [hMd]
      exact Finset.single_le_sum (f := fun i => |A.val (w i)|) (fun _ _ => abs_nonneg _) (Finset.mem_range.2 hi)
    obtain ⟨hb, -, -, -⟩ := complement_real (p := A.val (h i) * (-1)) hu0 ht0 hn0 hu htu (abs_nonneg (A.val (w i))) haM hr0 hMr hcond' hvb vh
      (by rw [sub_self, abs_zero]; positivity)
    obtain ⟨fp, vp⟩ := A.mul (h i) mone fh hone.1 (by
      rw [hone.2, mul_neg_one, abs_neg]
      linarith)
    rw [hone.2] at vp
    obtain ⟨-, pb, pv, pq⟩ := complement_real hu0 ht0 hn0 hu htu (abs_nonneg (A.val (w i))) haM hr0 hMr hcond' hvb vh vp
    unfold highpassTap
    rw [← hSd]
    by_cases hi2 : i = n / 2
    · simp only [if_pos hi2]
      obtain ⟨fq, vq⟩ := A.add (h i * mone) (FloatFun.ofSize 1) fp f1 (by
        rw [v1, Nat.cast_one]
        have := abs_add_le (A.val (h i * mone)) 1
        rw [abs_one] at this
        linarith)
      rw [v1, Nat.cast_one] at vq
      exact ⟨fq, pq _ vq⟩
    · simp only [if_neg hi2]
      refine ⟨fp, ?_⟩
      rw [zero_sub]
      refine pv.trans ?_
      have g1 : 0 ≤ A.u * |A.val (w i)| * M * r ^ 2 := by positivity
      have g2 : 0 ≤ A.tiny * (1 + |A.val (w i)| + r) := by positivity
      linarith
  have resp : ∀ ω : ℝ, ‖firResponse n (fun i => A.val (if i = n / 2 then h i * mone + FloatFun.ofSize 1 else h i * mone)) ω -
      firResponse n (highpassTap A n (A.val fc) w) ω‖ ≤
        (3 * n + 70) * A.u * (M / |S|) ^ 2 + 4 * A.tiny * (n + M + n * r) + 2 * A.u := by
    intro ω
    unfold firResponse
    rw [← Finset.sum_sub_distrib]
    refine (norm_sum_le _ _).trans ?_
    refine (Finset.sum_le_sum (g := fun i => ((3 * n + 70) * A.u * M / |S| ^ 2 * |A.val (w i)| +
      (4 * A.tiny * (1 + r) + 4 * A.tiny * |A.val (w i)|)) + (if i = n / 2 then 2 * A.u else 0)) fun i hi => ?_).trans (le_of_eq ?_)
    · rw [← sub_mul, norm_mul, Complex.norm_exp, ← Complex.ofReal_sub, Complex.norm_real, Real.norm_eq_abs]
      refine le_trans (le_of_eq ?_) (((tap i (Finset.mem_range.1 hi)).2).trans (le_of_eq (by ring)))
      simp
    · rw [Finset.sum_add_distrib, Finset.sum_add_distrib, Finset.sum_add_distrib, ← Finset.mul_sum, Finset.sum_const, Finset.card_range,
        nsmul_eq_mul, ← Finset.mul_sum, Finset.sum_ite_eq' (range n) (n / 2), if_pos (Finset.mem_range.2 (by omega))]
      rw [show ∑ i ∈ range n, |A.val (w i)| = M from hMd.symm]
      ring
  have hfun : (fun i => if i = out.size / 2 then h i * mone + FloatFun.ofSize 1 else h i * mone) =
      (fun i => if i = n / 2 then h i * mone + FloatFun.ofSize 1 else h i * mone) := by rw [hn]
  rw [hfun] at h3
  refine ⟨m2, _, by rw [designWindowedHighpassF, e1, Out.ok_bind, e2], h3, tap, resp, ?_⟩
  have h0 := resp 0
  have hz : ∀ g : ℕ → ℝ, firResponse n g 0 = ((∑ i ∈ range n, g i : ℝ) : ℂ) := by
    intro g
    unfold firResponse
    rw [Complex.ofReal_sum]
    refine Finset.sum_congr rfl fun i _ => ?_
    simp
  have hsum0 : ∑ i ∈ range n, highpassTap A n (A.val fc) w i = 0 := by
    unfold highpassTap
    rw [Finset.sum_sub_distrib, Finset.sum_ite_eq' (range n) (n / 2), if_pos (Finset.mem_range.2 (by omega)), ← Finset.sum_div, ← hSd]
    change 1 - windowedSum A n (A.val fc) w / S = 0
    rw [← hSd, div_self hS0, sub_self]
  rw [hz, hz, hsum0, Complex.ofReal_zero, sub_zero, Complex.norm_real, Real.norm_eq_abs] at h0
  exact h0

end

namespace HighpassRoundedExample
open FloatWindowsExample WindowedRoundedExample

/-- minus one -/
noncomputable def minusOne : Bin 24 (-149) := .num (-1) ⟨-2 ^ 149, by norm_num⟩

theorem minusOne_ok : fl.finite minusOne ∧ fl.val minusOne = -1 := ⟨show |(-1 : ℝ)| ≤ 2 ^ 128 by norm_num, rfl⟩

/-- three taps with the cutoff at half the Nyquist frequency and a rectangular window, in single precision: the gain of the high pass at
frequency zero is below a hundred thousandth -/
example (c : KernOf (Bin 24 (-149))) (hc : c.Valid) : ∃ m g,
    designWindowedHighpassF ops.pi minusOne sine ⟨true, true, 4⟩ c [0, 0, 0] ⟨0, 3⟩ half
      (fun mem out => forN out.size (fun i mem => wr mem ((out.pos + i : Nat) : Int) (ones i)) mem) = .ok m ∧
    Writes [0, 0, 0] m ⟨0, 3⟩ g ∧ |∑ i ∈ range 3, fl.val (g i)| ≤ 2e-5 := by
  have hw : (⟨0, 3⟩ : Span).Within ([0, 0, 0] : List (Bin 24 (-149))) := le_refl 3
  have : Inhabited (Bin 24 (-149)) := ⟨0⟩
  obtain ⟨m0, w1, w2⟩ := fill_writes ([0, 0, 0] : List (Bin 24 (-149))) ⟨0, 3⟩ ones hw
  obtain ⟨m, h, e1, e2, -, -, e3⟩ := C100_highpass (mone := minusOne) sine_ok
    minusOne_ok ⟨true, true, 4⟩ c hc [0, 0, 0] ⟨0, 3⟩ rfl hw half
    (show |(1 / 2 : ℝ)| ≤ 2 ^ 128 by norm_num)
    (fun mem out => forN out.size (fun i mem => wr mem ((out.pos + i : Nat) : Int) (ones i)) mem) w1 w2
    (fun i _ => (integers 1 (by norm_num)).1) suits
  refine ⟨m, h, e1, e2, e3.trans ?_⟩
  have hpi4 := Real.pi_le_four
  have hS : 2 ≤ |windowedSum fl 3 (fl.val half) ones| := by
    have h : 1 ≤ 4 / Real.pi := by rw [le_div_iff₀ Real.pi_pos]; linarith
    rw [show fl.val half = 1 / 2 from rfl, sum_eq, abs_of_pos (by linarith)]
    linarith
  have hq : windowMagnitude fl 3 ones / |windowedSum fl 3 (fl.val half) ones| ≤ 3 / 2 := by
    rw [magnitude, div_le_div_iff₀ (by linarith) (by norm_num)]
    linarith
  have hq0 : 0 ≤ windowMagnitude fl 3 ones / |windowedSum fl 3 (fl.val half) ones| := by rw [magnitude]; positivity
  have hr : 1 / |windowedSum fl 3 (fl.val half) ones| ≤ 1 / 2 := by
    rw [div_le_div_iff₀ (by linarith) (by norm_num)]
    linarith
  change (3 * ((3 : ℕ) : ℝ) + 70) * fl.u * (windowMagnitude fl 3 ones / |windowedSum fl 3 (fl.val half) ones|) ^ 2 +
    4 * fl.tiny * ((3 : ℕ) + windowMagnitude fl 3 ones + (3 : ℕ) * (1 / |windowedSum fl 3 (fl.val half) ones|)) + 2 * fl.u ≤ _
  have hu : fl.u = 2 ^ (-(24 : ℤ)) := rfl
  have ht : fl.tiny = 2 ^ ((-149 : ℤ) - 1) := rfl
  have g1 := mul_le_mul_of_nonneg_left (pow_le_pow_left₀ hq0 hq 2) (by rw [hu]; positivity : 0 ≤ (3 * ((3 : ℕ) : ℝ) + 70) * fl.u)
  have g2 := mul_le_mul_of_nonneg_left (show ((3 : ℕ) : ℝ) + windowMagnitude fl 3 ones + (3 : ℕ) * (1 / |windowedSum fl 3 (fl.val half) ones|) ≤ 8 by
    rw [magnitude]; push_cast; linarith) (by rw [ht]; positivity : 0 ≤ 4 * fl.tiny)
  refine (add_le_add (add_le_add g1 g2) le_rfl).trans ?_
  rw [hu, ht]
  norm_num

end HighpassRoundedExample

end Verif
