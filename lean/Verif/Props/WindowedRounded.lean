import Verif.Lemmas.FirWindowFloat
import Verif.Lemmas.WindowedFir
import Verif.Props.FloatWindows
import Verif.Spec.FloatFir
import Verif.Lemmas.BinaryMono

/-!
# Property C99: the windowed low pass designed in floating point
-/

set_option linter.unusedVariables false
set_option linter.style.longLine false
set_option linter.unusedSectionVars false

namespace Verif
open Finset

section reals

/-- the arguments of the sine -/
private theorem arg_real {u t fc k c p sv dv d0 xv : ℝ} (hu0 : 0 ≤ u) (hu : u ≤ 1 / 1000) (ht : t ≤ u * fc) (hfc : 0 < fc)
    (hc : c = fc * Real.pi) (hk : 1 ≤ k) (hk2 : |d0| = k) (hp : |p - Real.pi| ≤ 2 * u * Real.pi) (hs : |sv - fc * p| ≤ u * |fc * p| + t)
    (hd : |dv - d0| ≤ u * |d0|) (hx : |xv - dv * sv| ≤ u * |dv * sv| + t) :
    |sv - c| ≤ 34 / 10 * (u * c) ∧ |xv - d0 * c| ≤ 6 * (u * (k * c)) := by
  have hpi := Real.pi_gt_three
  have hc0 : 0 < c := by rw [hc]; exact mul_pos hfc Real.pi_pos
  have hfcc : 3 * fc ≤ c := by rw [hc]; nlinarith
  have huc : 0 ≤ u * c := mul_nonneg hu0 hc0.le
  have huuc : u * (u * c) ≤ 1 / 1000 * (u * c) := mul_le_mul_of_nonneg_right hu huc
  have h1 : |fc * p - c| ≤ 2 * (u * c) := by
    rw [hc, ← mul_sub, abs_mul, abs_of_pos hfc]
    have := mul_le_mul_of_nonneg_left hp hfc.le
    linarith
  have h2 : |fc * p| ≤ c + 2 * (u * c) := by
    have := abs_add_le (fc * p - c) c
    rw [sub_add_cancel, abs_of_pos hc0] at this
    linarith
  have ht2 : t ≤ 1 / 3 * (u * c) := by
    have := mul_le_mul_of_nonneg_left hfcc hu0
    linarith
  have h3 : |sv - c| ≤ 34 / 10 * (u * c) := by
    have := abs_sub_le sv (fc * p) c
    have := mul_le_mul_of_nonneg_left h2 hu0
    linarith
  refine ⟨h3, ?_⟩
  have hk0 : 0 ≤ k := by linarith
  have hsv : |sv| ≤ c + 34 / 10 * (u * c) := by
    have := abs_add_le (sv - c) c
    rw [sub_add_cancel, abs_of_pos hc0] at this
    linarith
  rw [hk2] at hd
  obtain ⟨q, hq⟩ : ∃ q, q = u * (k * c) := ⟨_, rfl⟩
  have hq0 : 0 ≤ q := by rw [hq]; positivity
  have huq : u * q ≤ 1 / 1000 * q := mul_le_mul_of_nonneg_right hu hq0
  have huuq : u * (u * q) ≤ 1 / 1000 * (u * q) := mul_le_mul_of_nonneg_right hu (mul_nonneg hu0 hq0)
  have h4 : |dv * sv - d0 * c| ≤ 45 / 10 * q := by
    have e : dv * sv - d0 * c = (dv - d0) * sv + d0 * (sv - c) := by ring
    rw [e]
    refine (abs_add_le _ _).trans ?_
    rw [abs_mul, abs_mul, hk2]
    have a1 := mul_le_mul hd hsv (abs_nonneg _) (mul_nonneg hu0 hk0)
    have a2 := mul_le_mul_of_nonneg_left h3 hk0
    have e1 : u * k * (c + 34 / 10 * (u * c)) = q + 34 / 10 * (u * q) := by rw [hq]; ring
    have e2 : k * (34 / 10 * (u * c)) = 34 / 10 * q := by rw [hq]; ring
    linarith
  have h5 : |dv * sv| ≤ k * c + 45 / 10 * q := by
    have := abs_add_le (dv * sv - d0 * c) (d0 * c)
    rw [sub_add_cancel, abs_mul d0, hk2, abs_of_pos hc0] at this
    linarith
  have h6 := mul_le_mul_of_nonneg_left h5 hu0
  have e3 : u * (k * c + 45 / 10 * q) = q + 45 / 10 * (u * q) := by rw [hq]; ring
  have h7 : u * c ≤ q := by
    rw [hq, show u * (k * c) = k * (u * c) by ring]
    exact le_mul_of_one_le_left huc hk
  have := abs_sub_le xv (dv * sv) (d0 * c)
  linarith

private theorem sinc_real {u x0 ξ σ : ℝ} (hu0 : 0 ≤ u) (hu : u ≤ 1 / 1000) (hx0 : x0 ≠ 0) (hξ : |ξ - x0| ≤ 6 * (u * |x0|))
    (hσ : |σ - Real.sin ξ| ≤ 2 * u * |ξ|) : ξ ≠ 0 ∧ 99 / 100 * |x0| ≤ |ξ| ∧ |σ / ξ - Real.sinc x0| ≤ 15 * u := by
  have hp : 0 < |x0| := abs_pos.2 hx0
  have hux : u * |x0| ≤ 1 / 1000 * |x0| := mul_le_mul_of_nonneg_right hu hp.le
  have h1 : 99 / 100 * |x0| ≤ |ξ| := by
    have := abs_sub_abs_le_abs_sub x0 ξ
    rw [abs_sub_comm] at this
    linarith
  have hξ0 : ξ ≠ 0 := abs_pos.1 (by linarith)
  have hξp : 0 < |ξ| := abs_pos.2 hξ0
  refine ⟨hξ0, h1, ?_⟩
  have e : σ / ξ - Real.sinc x0 = ((σ - Real.sin ξ) + (Real.sin ξ - Real.sin x0) + Real.sinc x0 * (x0 - ξ)) / ξ := by
    rw [Real.sinc_of_ne_zero hx0]
    field_simp
    ring
  rw [e, abs_div, div_le_iff₀ hξp]
  refine (abs_add_le _ _).trans ?_
  have a1 := abs_add_le (σ - Real.sin ξ) (Real.sin ξ - Real.sin x0)
  have a2 := Real.abs_sin_sub_sin_le ξ x0
  have a3 : |Real.sinc x0 * (x0 - ξ)| ≤ |ξ - x0| := by
    rw [abs_mul, abs_sub_comm x0]
    exact mul_le_of_le_one_left (abs_nonneg _) (abs_le.2 ⟨Real.neg_one_le_sinc x0, Real.sinc_le_one x0⟩)
  have a4 := mul_le_mul_of_nonneg_left h1 hu0
  have a5 := mul_nonneg hu0 hξp.le
  linarith

private theorem recip_real {u t n M S s q E : ℝ} (hu0 : 0 ≤ u) (ht0 : 0 ≤ t) (hu : u ≤ 1 / 1000) (hS : S ≠ 0)
    (hs : |s - S| ≤ E) (hE : E ≤ |S| / 7) (hq : |q - 1 / s| ≤ u * |1 / s| + t) :
    |q - 1 / S| ≤ 7 / 6 * (E * (1 / |S|) ^ 2 + u * (1 / |S|)) + t := by
  have hSp : 0 < |S| := abs_pos.2 hS
  have h1 : 6 / 7 * |S| ≤ |s| := by
    have := abs_sub_abs_le_abs_sub S s
    rw [abs_sub_comm] at this
    linarith
  have hsp : 0 < |s| := by linarith
  have hs0 : s ≠ 0 := abs_pos.1 hsp
  have hE0 : 0 ≤ E := (abs_nonneg _).trans hs
  have h2 : |1 / s| ≤ 7 / 6 * (1 / |S|) := by
    rw [abs_div, abs_one, div_le_iff₀ hsp, ← div_eq_mul_one_div, div_mul_eq_mul_div, le_div_iff₀ hSp]
    linarith
  have h3 : |1 / s - 1 / S| ≤ 7 / 6 * (E * (1 / |S|) ^ 2) := by
    have e : 1 / s - 1 / S = -((s - S) * (1 / S) * (1 / s)) := by field_simp; ring
    rw [e, abs_neg, abs_mul, abs_mul, abs_div 1 S, abs_one]
    have := mul_le_mul (mul_le_mul_of_nonneg_right hs (by positivity : 0 ≤ 1 / |S|)) h2 (abs_nonneg _) (by positivity)
    refine this.trans (le_of_eq (by ring))
  have h4 := mul_le_mul_of_nonneg_left h2 hu0
  have := abs_sub_le q (1 / s) (1 / S)
  linarith

/-- one tap of the normalised low pass -/
private theorem tap_real {u t n M S a T d q h E : ℝ} (hu0 : 0 ≤ u) (ht0 : 0 ≤ t) (hn : 0 ≤ n) (hu : u ≤ 1 / 1000) (ht : t ≤ u)
    (hS : S ≠ 0) (hSM : |S| ≤ M) (ha : 0 ≤ a) (hE : E = (113 / 100 * n + 21) * u * M) (hE7 : E ≤ |S| / 7)
    (hq : |q - 1 / S| ≤ 7 / 6 * (E * (1 / |S|) ^ 2 + u * (1 / |S|)) + t) (hd : |d| ≤ a) (hT : |T - d| ≤ 20 * u * a + t)
    (hh : |h - T * q| ≤ u * |T * q| + t) :
    |T| ≤ 102 / 100 * a + t ∧ |q| ≤ 12 / 10 * (1 / |S|) + t ∧
    |h - d / S| ≤ (2 * n + 60) * u * a * M / |S| ^ 2 + 2 * t * (1 + a + 1 / |S|) := by
  have hSp : 0 < |S| := abs_pos.2 hS
  obtain ⟨r, hr⟩ : ∃ r, r = 1 / |S| := ⟨_, rfl⟩
  have hr0 : 0 < r := by rw [hr]; positivity
  have hrS : r * |S| = 1 := by rw [hr]; field_simp
  have hMr : 1 ≤ M * r := by
    rw [← hrS, mul_comm r]
    exact mul_le_mul_of_nonneg_right hSM hr0.le
  have hM0 : 0 ≤ M := hSp.le.trans hSM
  have hE0 : 0 ≤ E := by rw [hE]; positivity
  have hur := mul_nonneg hu0 hr0.le
  have hEr : E * r ≤ 1 / 7 := by
    have := mul_le_mul_of_nonneg_right hE7 hr0.le
    rw [div_mul_eq_mul_div, mul_comm |S|, hrS] at this
    exact this
  have hErr : E * r ^ 2 ≤ 1 / 7 * r := by
    have := mul_le_mul_of_nonneg_right hEr hr0.le
    rw [pow_two, ← mul_assoc]
    exact this
  rw [← hr] at hq ⊢
  have hua := mul_nonneg hu0 ha
  have hua' : u * a ≤ 1 / 1000 * a := mul_le_mul_of_nonneg_right hu ha
  have hur' : u * r ≤ 1 / 1000 * r := mul_le_mul_of_nonneg_right hu hr0.le
  have gT : |T| ≤ 102 / 100 * a + t := by
    have := abs_add_le (T - d) d
    rw [sub_add_cancel] at this
    linarith
  have g1S : |1 / S| = r := by rw [abs_div, abs_one, hr]
  have gq : |q| ≤ 12 / 10 * r + t := by
    have := abs_add_le (q - 1 / S) (1 / S)
    rw [sub_add_cancel, g1S] at this
    linarith
  refine ⟨gT, gq, ?_⟩
  obtain ⟨P, hP⟩ : ∃ P, P = u * a * M * r ^ 2 := ⟨_, rfl⟩
  have hP0 : 0 ≤ P := by rw [hP]; positivity
  have huar : u * a * r ≤ P := by
    have := mul_le_mul_of_nonneg_left hMr (by positivity : 0 ≤ u * a * r)
    rw [hP]
    calc _ = u * a * r * 1 := by ring
      _ ≤ _ := this
      _ = _ := by ring
  have hgoal : (2 * n + 60) * u * a * M / |S| ^ 2 = 2 * (n * P) + 60 * P := by
    rw [hP, hr]
    field_simp
  rw [hgoal]
  have hnP : 0 ≤ n * P := mul_nonneg hn hP0
  have b1 : |T * q - d / S| ≤ (102 / 100 * a + t) * (7 / 6 * (E * r ^ 2 + u * r) + t) + (20 * u * a + t) * r := by
    have e : T * q - d / S = T * (q - 1 / S) + (T - d) * (1 / S) := by ring
    rw [e]
    refine (abs_add_le _ _).trans (add_le_add ?_ ?_)
    · rw [abs_mul]
      exact mul_le_mul gT hq (abs_nonneg _) (by positivity)
    · rw [abs_mul, g1S]
      exact mul_le_mul_of_nonneg_right hT hr0.le
  have b2 : |T * q| ≤ (102 / 100 * a + t) * (12 / 10 * r + t) := by
    rw [abs_mul]
    exact mul_le_mul gT gq (abs_nonneg _) (by positivity)
  have b3 := mul_le_mul_of_nonneg_left b2 hu0
  have c1 : a * (E * r ^ 2) = 113 / 100 * (n * P) + 21 * P := by rw [hE, hP]; ring
  have c2 : t * (E * r ^ 2) ≤ 1 / 7 * (t * r) := by
    have := mul_le_mul_of_nonneg_left hErr ht0
    linarith
  have htr := mul_nonneg ht0 hr0.le
  have hta := mul_nonneg ht0 ha
  have c3 : t * t ≤ 1 / 1000 * t := mul_le_mul_of_nonneg_right (ht.trans hu) ht0
  have c4 : u * (t * r) ≤ 1 / 1000 * (t * r) := mul_le_mul_of_nonneg_right hu htr
  have c5 : u * (t * a) ≤ 1 / 1000 * (t * a) := mul_le_mul_of_nonneg_right hu hta
  have c6 : u * (t * t) ≤ 1 / 1000 * (t * t) := mul_le_mul_of_nonneg_right hu (mul_nonneg ht0 ht0)
  have e1 : (102 / 100 * a + t) * (7 / 6 * (E * r ^ 2 + u * r) + t) + (20 * u * a + t) * r =
      119 / 100 * (a * (E * r ^ 2)) + 119 / 100 * (u * a * r) + 102 / 100 * (t * a) + 7 / 6 * (t * (E * r ^ 2)) + 7 / 6 * (u * (t * r)) + t * t +
        20 * (u * a * r) + t * r := by ring
  have e2 : u * ((102 / 100 * a + t) * (12 / 10 * r + t)) = 1224 / 1000 * (u * a * r) + 102 / 100 * (u * (t * a)) + 12 / 10 * (u * (t * r)) + u * (t * t) := by
    ring
  rw [e1] at b1
  rw [e2] at b3
  have e3 : 2 * t * (1 + a + r) = 2 * t + 2 * (t * a) + 2 * (t * r) := by ring
  rw [e3]
  have := abs_sub_le h (T * q) (d / S)
  linarith

end reals

section
variable {F : Type} [Zero F] [Add F] [Sub F] [Mul F] [Fma F] [Div F] [FloatFun F] {A : FloatArithFun F}

private theorem abs_windowedTap_le (n : ℕ) (fc : ℝ) (w : ℕ → F) (i : ℕ) : |windowedTap A n fc w i| ≤ |A.val (w i)| := by
  rw [windowedTap, abs_mul]
  exact mul_le_of_le_one_right (abs_nonneg _) (Real.abs_sinc_le_one _)

private theorem abs_windowedSum_le (n : ℕ) (fc : ℝ) (w : ℕ → F) : |windowedSum A n fc w| ≤ windowMagnitude A n w :=
  (Finset.abs_sum_le_sum_abs _ _).trans (Finset.sum_le_sum fun i _ => abs_windowedTap_le n fc w i)

private theorem window_le (n : ℕ) (w : ℕ → F) {i : ℕ} (hi : i < n) : |A.val (w i)| ≤ windowMagnitude A n w :=
  Finset.single_le_sum (f := fun i => |A.val (w i)|) (fun _ _ => abs_nonneg _) (Finset.mem_range.2 hi)

private theorem window_nonneg (n : ℕ) (w : ℕ → F) : 0 ≤ windowMagnitude A n w := Finset.sum_nonneg fun _ _ => abs_nonneg _

private theorem range_le {n : ℕ} {fc : ℝ} {w : ℕ → F} (h : SuitsLowpass A n fc w) :
    4 * (windowMagnitude A n w + 1) ≤ A.huge ∧ 4 * (1 / |windowedSum A n fc w|) ≤ A.huge ∧
      4 * (windowMagnitude A n w * (1 / |windowedSum A n fc w|)) ≤ A.huge := by
  have h1 := h.range
  have hM := window_nonneg (A := A) n w
  have hr : 0 ≤ 1 / |windowedSum A n fc w| := by positivity
  have e : 4 * (windowMagnitude A n w + 1) * (1 / |windowedSum A n fc w| + 1) = 4 * (windowMagnitude A n w * (1 / |windowedSum A n fc w|)) +
    4 * windowMagnitude A n w + 4 * (1 / |windowedSum A n fc w|) + 4 := by ring
  rw [e] at h1
  have hMr := mul_nonneg hM hr
  exact ⟨by linarith, by linarith, by linarith⟩

/-- the computed sinc -/
private theorem sinc_near {pi : F} {sin : F → F} (hO : SineOps.Ok A pi sin) {n : ℕ} (hodd : n % 2 = 1) (fc : F) (ffc : A.finite fc) {w : ℕ → F}
    (hs : SuitsLowpass A n (A.val fc) w) {t : ℕ} (ht : t < n) (hmid : t ≠ n / 2) :
    A.Near (sin (firArg pi n fc (min t (n - 1 - t))) / firArg pi n fc (min t (n - 1 - t)))
      (Real.sinc (Real.pi * A.val fc * ((t : ℝ) - ((n / 2 : ℕ) : ℝ)))) (18 * A.u) := by
  have hu0 := A.u_nonneg
  have ht0 := A.tiny_nonneg
  have hu := hs.u
  obtain ⟨i, hi⟩ : ∃ i, i = min t (n - 1 - t) := ⟨_, rfl⟩
  have hin : i < n / 2 := by omega
  rw [← sinc_pair hodd ht, ← hi]
  obtain ⟨x0, hx0⟩ : ∃ x0, x0 = ((i : ℝ) - ((n / 2 : ℕ) : ℝ)) * (A.val fc * Real.pi) := ⟨_, rfl⟩
  have hne : x0 ≠ 0 := by rw [hx0]; exact sinc_arg_ne hin hs.cutoff_pos.ne'
  rw [← hx0]
  obtain ⟨k, hk⟩ : ∃ k, k = |(i : ℝ) - ((n / 2 : ℕ) : ℝ)| := ⟨_, rfl⟩
  have hlt : (i : ℝ) + 1 ≤ ((n / 2 : ℕ) : ℝ) := by exact_mod_cast hin
  have hk1 : 1 ≤ k := by rw [hk, abs_of_neg (by linarith)]; linarith
  have hkn : k ≤ n := by
    rw [hk, abs_of_neg (by linarith)]
    have : ((n / 2 : ℕ) : ℝ) ≤ n := by exact_mod_cast Nat.div_le_self _ _
    have : (0 : ℝ) ≤ i := Nat.cast_nonneg i
    linarith
  have hc0 : 0 < A.val fc * Real.pi := mul_pos hs.cutoff_pos Real.pi_pos
  have hpi4 := Real.pi_le_four
  have hcle : A.val fc * Real.pi ≤ 4 := by
    have := mul_le_mul_of_nonneg_right hs.cutoff_le Real.pi_pos.le
    linarith
  have hn0 : (0 : ℝ) ≤ n := Nat.cast_nonneg n
  have hhuge := hs.huge
  -- the arithmetic
  obtain ⟨fi, vi⟩ := hs.integers i (by omega)
  obtain ⟨fh, vh⟩ := hs.integers (n / 2) (by omega)
  obtain ⟨fp, vp⟩ := hO.pi
  have hpb : |A.val pi| ≤ 5 := by
    have := abs_add_le (A.val pi - Real.pi) Real.pi
    rw [sub_add_cancel, abs_of_pos Real.pi_pos] at this
    have := mul_le_mul_of_nonneg_right hu Real.pi_pos.le
    linarith
  obtain ⟨fs, vs⟩ := A.mul fc pi ffc fp (by
    rw [abs_mul, abs_of_pos hs.cutoff_pos]
    have := mul_le_mul hs.cutoff_le hpb (abs_nonneg _) zero_le_one
    linarith)
  obtain ⟨fd, vd⟩ := A.sub (FloatFun.ofSize i) (FloatFun.ofSize (n / 2)) fi fh (by rw [vi, vh, ← hk]; linarith)
  rw [vi, vh] at vd
  have hdb : |A.val (FloatFun.ofSize i - FloatFun.ofSize (n / 2))| ≤ 2 * k := by
    have := abs_add_le (A.val (FloatFun.ofSize i - FloatFun.ofSize (n / 2)) - ((i : ℝ) - ((n / 2 : ℕ) : ℝ))) ((i : ℝ) - ((n / 2 : ℕ) : ℝ))
    rw [sub_add_cancel, ← hk] at this
    rw [← hk] at vd
    have := mul_le_mul_of_nonneg_right hu (by linarith : 0 ≤ k)
    linarith
  have hsc := (arg_real (k := k) (c := A.val fc * Real.pi) (d0 := (i : ℝ) - ((n / 2 : ℕ) : ℝ)) hu0 hu hs.underflow hs.cutoff_pos rfl hk1 hk.symm vp vs vd (xv := A.val (FloatFun.ofSize i - FloatFun.ofSize (n / 2)) * A.val (fc * pi)) (by
    rw [sub_self, abs_zero]; positivity)).1
  have hsb : |A.val (fc * pi)| ≤ 5 := by
    have := abs_add_le (A.val (fc * pi) - A.val fc * Real.pi) (A.val fc * Real.pi)
    rw [sub_add_cancel, abs_of_pos hc0] at this
    have := mul_le_mul_of_nonneg_right hu hc0.le
    linarith
  obtain ⟨fx, vx⟩ := A.mul (FloatFun.ofSize i - FloatFun.ofSize (n / 2)) (fc * pi) fd fs (by
    rw [abs_mul]
    have := mul_le_mul hdb hsb (abs_nonneg _) (by linarith)
    linarith)
  have hxn := (arg_real (k := k) (c := A.val fc * Real.pi) (d0 := (i : ℝ) - ((n / 2 : ℕ) : ℝ)) hu0 hu hs.underflow hs.cutoff_pos rfl hk1 hk.symm vp vs vd vx).2
  have hx0k : |x0| = k * (A.val fc * Real.pi) := by rw [hx0, abs_mul, ← hk, abs_of_pos hc0]
  change A.finite (firArg pi n fc i) at fx
  change |A.val (firArg pi n fc i) - _| ≤ _ at hxn
  rw [← hx0, ← hx0k] at hxn
  have hξ : A.val (firArg pi n fc i) ≠ 0 ∧ 99 / 100 * |x0| ≤ |A.val (firArg pi n fc i)| := by
    obtain ⟨a, b, -⟩ := sinc_real hu0 hu hne hxn (σ := Real.sin (A.val (firArg pi n fc i))) (by rw [sub_self, abs_zero]; positivity)
    exact ⟨a, b⟩
  have hbig : A.val fc ≤ |A.val (firArg pi n fc i)| := by
    have h1 := mul_le_mul_of_nonneg_right hk1 hc0.le
    have h2 := mul_le_mul_of_nonneg_left Real.pi_gt_three.le hs.cutoff_pos.le
    have h3 := hξ.2
    rw [hx0k] at h3
    have := hs.cutoff_pos
    linarith
  obtain ⟨fsin, vsin⟩ := hO.sin _ fx (hs.underflow.trans (mul_le_mul_of_nonneg_left hbig hu0))
  obtain ⟨-, -, hq⟩ := sinc_real hu0 hu hne hxn vsin
  have hsinc := Real.abs_sinc_le_one x0
  have hqb : |A.val (sin (firArg pi n fc i)) / A.val (firArg pi n fc i)| ≤ 1 + 15 * A.u := by
    have := abs_add_le (A.val (sin (firArg pi n fc i)) / A.val (firArg pi n fc i) - Real.sinc x0) (Real.sinc x0)
    rw [sub_add_cancel] at this
    linarith
  obtain ⟨fq, vq⟩ := A.div _ _ fsin fx hξ.1 (by linarith)
  have htu : A.tiny ≤ A.u := by
    have := mul_le_mul_of_nonneg_left hs.cutoff_le hu0
    linarith [hs.underflow]
  refine ⟨fq, ?_⟩
  · have h1 := abs_sub_le (A.val (sin (firArg pi n fc i) / firArg pi n fc i)) (A.val (sin (firArg pi n fc i)) / A.val (firArg pi n fc i)) (Real.sinc x0)
    have h2 := mul_le_mul_of_nonneg_left hqb hu0
    have h3 := mul_le_mul_of_nonneg_left hu hu0
    linarith

/-- the taps before normalisation -/
private theorem firTap_near {pi : F} {sin : F → F} (hO : SineOps.Ok A pi sin) {n : ℕ} (hodd : n % 2 = 1) (fc : F) (ffc : A.finite fc) {w : ℕ → F}
    (hs : SuitsLowpass A n (A.val fc) w) {t : ℕ} (ht : t < n) (fw : A.finite (w t)) :
    A.Near (firTap pi sin n fc w t) (windowedTap A n (A.val fc) w t) (20 * A.u * |A.val (w t)| + A.tiny) := by
  have hu0 := A.u_nonneg
  have ht0 := A.tiny_nonneg
  have hu := hs.u
  have hua : 0 ≤ A.u * |A.val (w t)| := mul_nonneg hu0 (abs_nonneg _)
  unfold firTap
  by_cases hmid : t = n / 2
  · rw [if_pos hmid]
    refine ⟨fw, ?_⟩
    rw [windowedTap, hmid, sub_self, mul_zero, Real.sinc_zero, mul_one, sub_self, abs_zero]
    rw [← hmid]
    linarith
  rw [if_neg hmid, windowedTap]
  obtain ⟨x0, hx0⟩ : ∃ x0, x0 = Real.pi * A.val fc * ((t : ℝ) - ((n / 2 : ℕ) : ℝ)) := ⟨_, rfl⟩
  have hqn := sinc_near hO hodd fc ffc hs ht hmid
  rw [← hx0] at hqn ⊢
  have hsinc := Real.abs_sinc_le_one x0
  have hwn : A.Near (w t) (A.val (w t)) 0 := ⟨fw, by simp⟩
  have hwM := window_le (A := A) n w ht
  have hr := (range_le hs).1
  refine hwn.mul hqn (X := |A.val (w t)|) (Y := 1) (ea := 0) (eb := 18 * A.u) le_rfl hsinc le_rfl le_rfl ?_ ?_
  · have := mul_le_mul_of_nonneg_left hu (abs_nonneg (A.val (w t)))
    have e : (|A.val (w t)| + 0) * (1 + 18 * A.u) = |A.val (w t)| + 18 * (|A.val (w t)| * A.u) := by ring
    rw [e]
    linarith [window_nonneg (A := A) n w]
  · have := mul_le_mul_of_nonneg_left hu hua
    have e : 0 * 1 + |A.val (w t)| * (18 * A.u) + 0 * (18 * A.u) + A.u * ((|A.val (w t)| + 0) * (1 + 18 * A.u)) + A.tiny =
      19 * (A.u * |A.val (w t)|) + 18 * (A.u * |A.val (w t)| * A.u) + A.tiny := by ring
    rw [e]
    linarith

/-- the taps before normalisation -/
private theorem firTapGiven_near {pi : F} {sin : F → F} (hO : SineOps.Ok A pi sin) {n : ℕ} (hodd : n % 2 = 1) (fc : F) (ffc : A.finite fc) {w : ℕ → F}
    (hs : SuitsLowpass A n (A.val fc) w) {t : ℕ} (ht : t < n) (fw : A.finite (w t)) :
    A.Near (firTapGiven pi sin n fc w t) (windowedTap A n (A.val fc) w t) (20 * A.u * |A.val (w t)| + A.tiny) := by
  have hu0 := A.u_nonneg
  have ht0 := A.tiny_nonneg
  have hu := hs.u
  have hua : 0 ≤ A.u * |A.val (w t)| := mul_nonneg hu0 (abs_nonneg _)
  unfold firTapGiven
  by_cases hmid : t = n / 2
  · rw [if_pos hmid]
    have hwM := window_le (A := A) n w ht
    have hr := (range_le hs).1
    obtain ⟨f1, v1⟩ := hs.integers 1 (by omega)
    obtain ⟨f2, v2⟩ := A.mul _ _ f1 fw (by
      rw [v1, Nat.cast_one, one_mul]
      linarith [window_nonneg (A := A) n w])
    rw [v1, Nat.cast_one, one_mul] at v2
    refine ⟨f2, ?_⟩
    have e : windowedTap A n (A.val fc) w t = A.val (w t) := by rw [windowedTap, hmid, sub_self, mul_zero, Real.sinc_zero, mul_one]
    rw [e]
    linarith
  rw [if_neg hmid, windowedTap]
  obtain ⟨x0, hx0⟩ : ∃ x0, x0 = Real.pi * A.val fc * ((t : ℝ) - ((n / 2 : ℕ) : ℝ)) := ⟨_, rfl⟩
  have hqn := sinc_near hO hodd fc ffc hs ht hmid
  rw [← hx0] at hqn ⊢
  have hsinc := Real.abs_sinc_le_one x0
  have hwn : A.Near (w t) (A.val (w t)) 0 := ⟨fw, by simp⟩
  have hwM := window_le (A := A) n w ht
  have hr := (range_le hs).1
  rw [mul_comm (A.val (w t))]
  refine hqn.mul hwn (X := 1) (Y := |A.val (w t)|) (ea := 18 * A.u) (eb := 0) hsinc le_rfl le_rfl le_rfl ?_ ?_
  · have := mul_le_mul_of_nonneg_left hu (abs_nonneg (A.val (w t)))
    have e : (1 + 18 * A.u) * (|A.val (w t)| + 0) = |A.val (w t)| + 18 * (|A.val (w t)| * A.u) := by ring
    rw [e]
    linarith [window_nonneg (A := A) n w]
  · have := mul_le_mul_of_nonneg_left hu hua
    have e : 18 * A.u * |A.val (w t)| + 1 * 0 + 18 * A.u * 0 + A.u * ((1 + 18 * A.u) * (|A.val (w t)| + 0)) + A.tiny =
      19 * (A.u * |A.val (w t)|) + 18 * (A.u * |A.val (w t)| * A.u) + A.tiny := by ring
    rw [e]
    linarith

private theorem range_sum (n : ℕ) (f : ℕ → ℝ) : ((List.range n).map f).sum = ∑ i ∈ range n, f i := by
  induction n with
  | zero => simp
  | succ k ih => rw [List.range_succ, List.map_append, List.sum_append, ih, Finset.sum_range_succ]; simp

/-- the sum of the taps -/
private theorem firSum_near (c : KernOf F) (hc : c.Valid) {n : ℕ} {fc : ℝ} {w T : ℕ → F} (hs : SuitsLowpass A n fc w)
    (hnear : ∀ i, i < n → A.Near (T i) (windowedTap A n fc w i) (20 * A.u * |A.val (w i)| + A.tiny)) :
    (∑ i ∈ range n, |A.val (T i)| ≤ 1021 / 1000 * windowMagnitude A n w) ∧
    ∃ s, sumIn c ((List.range n).map T) = .ok s ∧ A.finite s ∧
      |A.val s - ∑ i ∈ range n, A.val (T i)| ≤ 1124 / 1000 * (n * A.u * windowMagnitude A n w) ∧
      |A.val s - windowedSum A n fc w| ≤ (113 / 100 * n + 21) * A.u * windowMagnitude A n w := by
  have hu0 := A.u_nonneg
  have ht0 := A.tiny_nonneg
  have hu := hs.u
  have hn0 : (0 : ℝ) ≤ n := Nat.cast_nonneg n
  have hM := window_nonneg (A := A) n w
  obtain ⟨M, hMd⟩ : ∃ M, M = windowMagnitude A n w := ⟨_, rfl⟩
  have huM : 0 ≤ A.u * M := by rw [hMd]; positivity
  have huM2 : A.u * M ≤ 1 / 1000 * M := by rw [hMd]; exact mul_le_mul_of_nonneg_right hu hM
  have hus := hs.underflow_sum
  rw [← hMd] at hM hus ⊢
  have hmag : ∑ i ∈ range n, |A.val (T i)| ≤ 1021 / 1000 * M := by
    have h1 : ∑ i ∈ range n, |A.val (T i)| ≤ ∑ i ∈ range n, ((1 + 20 * A.u) * |A.val (w i)| + A.tiny) := by
      refine Finset.sum_le_sum fun i hi => ?_
      have h2 := hnear i (Finset.mem_range.1 hi)
      have h3 := abs_add_le (A.val (T i) - windowedTap A n fc w i) (windowedTap A n fc w i)
      rw [sub_add_cancel] at h3
      have h4 := abs_windowedTap_le (A := A) n fc w i
      have h5 := h2.2
      linarith
    rw [Finset.sum_add_distrib, ← Finset.mul_sum, Finset.sum_const, Finset.card_range, nsmul_eq_mul] at h1
    change _ ≤ (1 + 20 * A.u) * windowMagnitude A n w + _ at h1
    rw [← hMd] at h1
    linarith
  refine ⟨hmag, ?_⟩
  obtain ⟨x, hx⟩ : ∃ x, x = (List.range n).map T := ⟨_, rfl⟩
  have hlen : x.length = n := by rw [hx]; simp
  have hes : exactSum A x = ∑ i ∈ range n, A.val (T i) := by
    rw [hx, exactSum, List.map_map, ← range_sum]
    rfl
  have hea : exactAbsSum A x = ∑ i ∈ range n, |A.val (T i)| := by
    rw [hx, exactAbsSum, List.map_map, ← range_sum]
    rfl
  have hr := (range_le hs).1
  rw [← hMd] at hr
  obtain ⟨s, e, fs, vs⟩ := C73_sum_linear A c hc x (by
    intro a ha
    rw [hx] at ha
    obtain ⟨i, hi, rfl⟩ := List.mem_map.1 ha
    exact (hnear i (List.mem_range.1 hi)).1) (by rw [hlen]; exact hs.long) (by rw [hea]; linarith)
  rw [hlen, hes, hea] at vs
  have hnu : 0 ≤ (n : ℝ) * A.u := mul_nonneg hn0 hu0
  have v2 : |A.val s - ∑ i ∈ range n, A.val (T i)| ≤ 1124 / 1000 * (n * A.u * M) := by
    have := mul_le_mul_of_nonneg_left hmag hnu
    have := mul_nonneg hnu hM
    linarith
  refine ⟨s, by rw [← hx]; exact e, fs, v2, ?_⟩
  have v3 : |∑ i ∈ range n, A.val (T i) - windowedSum A n fc w| ≤ 20 * A.u * M + n * A.tiny := by
    rw [windowedSum, ← Finset.sum_sub_distrib]
    refine (Finset.abs_sum_le_sum_abs _ _).trans ?_
    refine (Finset.sum_le_sum fun i hi => (hnear i (Finset.mem_range.1 hi)).2).trans (le_of_eq ?_)
    rw [Finset.sum_add_distrib, ← Finset.mul_sum, Finset.sum_const, Finset.card_range, nsmul_eq_mul, hMd]
    rfl
  have := abs_sub_le (A.val s) (∑ i ∈ range n, A.val (T i)) (windowedSum A n fc w)
  have := mul_nonneg hnu hM
  linarith

/-- dividing by the computed sum -/
private theorem normalise_near (c : KernOf F) (hc : c.Valid) {n : ℕ} (hodd : n % 2 = 1) {fc : ℝ} {w T : ℕ → F} (hs : SuitsLowpass A n fc w)
    (hnear : ∀ i, i < n → A.Near (T i) (windowedTap A n fc w i) (20 * A.u * |A.val (w i)| + A.tiny)) {s : F}
    (es : sumIn c ((List.range n).map T) = .ok s) :
    (∀ i, i < n → A.finite (T i * (FloatFun.ofSize 1 / s)) ∧
        |A.val (T i * (FloatFun.ofSize 1 / s)) - windowedTap A n fc w i / windowedSum A n fc w| ≤
          (2 * n + 60) * A.u * |A.val (w i)| * windowMagnitude A n w / |windowedSum A n fc w| ^ 2 +
            2 * A.tiny * (1 + |A.val (w i)| + 1 / |windowedSum A n fc w|)) ∧
      |∑ i ∈ range n, A.val (T i * (FloatFun.ofSize 1 / s)) - 1| ≤
        (2 * n + 5) * A.u * (windowMagnitude A n w / |windowedSum A n fc w|) +
          2 * A.tiny * (windowMagnitude A n w + n) := by
  have hu0 := A.u_nonneg
  have ht0 := A.tiny_nonneg
  have hu := hs.u
  have hn0 : (0 : ℝ) ≤ n := Nat.cast_nonneg n
  have hM := window_nonneg (A := A) n w
  obtain ⟨hmag, s', es', fs, vs1, vs2⟩ := firSum_near c hc hs hnear
  obtain rfl : s' = s := by rw [es] at es'; exact (Out.ok.inj es').symm
  have htu : A.tiny ≤ A.u := by
    have := mul_le_mul_of_nonneg_left hs.cutoff_le hu0
    linarith [hs.underflow]
  obtain ⟨M, hMd⟩ : ∃ M, M = windowMagnitude A n w := ⟨_, rfl⟩
  obtain ⟨S, hSd⟩ : ∃ S, S = windowedSum A n fc w := ⟨_, rfl⟩
  have hS0 : S ≠ 0 := by rw [hSd]; exact hs.sum
  have hSM : |S| ≤ M := by rw [hSd, hMd]; exact abs_windowedSum_le n _ w
  have hcond := hs.conditioned
  obtain ⟨r1, r2, r3⟩ := range_le hs
  have hwle : ∀ i, i < n → |A.val (w i)| ≤ M := fun i hi => by rw [hMd]; exact window_le n w hi
  rw [← hMd, ← hSd] at hcond vs2 r3 ⊢
  rw [← hMd] at hM hmag vs1 r1
  rw [← hSd] at r2
  have hSp : 0 < |S| := abs_pos.2 hS0
  have huM : 0 ≤ A.u * M := mul_nonneg hu0 hM
  have hnuM : 0 ≤ n * (A.u * M) := mul_nonneg hn0 huM
  have hE7 : (113 / 100 * n + 21) * A.u * M ≤ |S| / 7 := by linarith
  have hs67 : 6 / 7 * |S| ≤ |A.val s'| := by
    have := abs_sub_abs_le_abs_sub S (A.val s')
    rw [abs_sub_comm] at this
    linarith
  have hs87 : |A.val s'| ≤ 8 / 7 * |S| := by
    have := abs_sub_abs_le_abs_sub (A.val s') S
    linarith
  have hsne : A.val s' ≠ 0 := abs_pos.1 (by linarith)
  obtain ⟨f1, v1⟩ := hs.integers 1 (by omega)
  obtain ⟨r, hrd⟩ : ∃ r, r = 1 / |S| := ⟨_, rfl⟩
  have hr0 : 0 < r := by rw [hrd]; positivity
  have h1s : |1 / A.val s'| ≤ 7 / 6 * r := by
    rw [hrd, abs_div, abs_one, div_le_iff₀ (by linarith), ← div_eq_mul_one_div, div_mul_eq_mul_div, le_div_iff₀ hSp]
    linarith
  obtain ⟨fq, vq⟩ := A.div (FloatFun.ofSize 1) s' f1 fs hsne (by
    rw [v1, Nat.cast_one]
    rw [← hrd] at r2
    linarith)
  rw [v1, Nat.cast_one] at vq
  have hq := recip_real (n := n) (M := M) hu0 ht0 hu hS0 vs2 hE7 vq
  -- one tap
  have tap : ∀ i, i < n → A.finite (T i * (FloatFun.ofSize 1 / s')) ∧
      |A.val (FloatFun.ofSize 1 / s')| ≤ 12 / 10 * r + A.tiny ∧
      |A.val (T i * (FloatFun.ofSize 1 / s')) - A.val (T i) * A.val (FloatFun.ofSize 1 / s')| ≤
        A.u * |A.val (T i) * A.val (FloatFun.ofSize 1 / s')| + A.tiny ∧
      |A.val (T i * (FloatFun.ofSize 1 / s')) - windowedTap A n fc w i / S| ≤
        (2 * n + 60) * A.u * |A.val (w i)| * M / |S| ^ 2 + 2 * A.tiny * (1 + |A.val (w i)| + 1 / |S|) := by
    intro i hi
    have hT := hnear i hi
    have hd := abs_windowedTap_le (A := A) n fc w i
    obtain ⟨b1, b2, -⟩ := tap_real (h := A.val (T i) * A.val (FloatFun.ofSize 1 / s')) hu0 ht0 hn0 hu htu hS0 hSM
      (abs_nonneg (A.val (w i))) rfl hE7 hq hd hT.2 (by rw [sub_self, abs_zero]; positivity)
    rw [← hrd] at b2
    obtain ⟨fh, vh⟩ := A.mul (T i) (FloatFun.ofSize 1 / s') hT.1 fq (by
      rw [abs_mul]
      refine (mul_le_mul b1 b2 (abs_nonneg _) (by positivity)).trans ?_
      have hR := hs.range
      rw [← hMd, ← hSd, ← hrd] at hR
      refine le_trans ?_ hR
      have hwM := hwle i hi
      refine mul_le_mul (by linarith [abs_nonneg (A.val (w i))]) ?_ (by positivity) (by positivity) |>.trans (le_of_eq (?_ : 2 * (M + 1) * (2 * (r + 1)) = _))
      · linarith
      · ring)
    obtain ⟨-, -, b3⟩ := tap_real hu0 ht0 hn0 hu htu hS0 hSM (abs_nonneg (A.val (w i))) rfl hE7 hq hd hT.2 vh
    exact ⟨fh, b2, vh, b3⟩
  refine ⟨fun i hi => ⟨(tap i hi).1, (tap i hi).2.2.2⟩, ?_⟩
  -- the gain
  obtain ⟨q, hqd⟩ : ∃ q, q = A.val (FloatFun.ofSize 1 / s') := ⟨_, rfl⟩
  obtain ⟨Ts, hTd⟩ : ∃ Ts, Ts = ∑ i ∈ range n, A.val (T i) := ⟨_, rfl⟩
  have hqb := (tap 0 (by omega)).2.1
  rw [← hqd] at hqb vq
  rw [← hTd] at vs1
  have g1 : |∑ i ∈ range n, A.val (T i * (FloatFun.ofSize 1 / s')) - Ts * q| ≤ A.u * |q| * (1021 / 1000 * M) + n * A.tiny := by
    rw [hTd, Finset.sum_mul, ← Finset.sum_sub_distrib]
    refine (Finset.abs_sum_le_sum_abs _ _).trans ?_
    refine (Finset.sum_le_sum (g := fun i => A.u * |q| * |A.val (T i)| + A.tiny) fun i hi => ?_).trans ?_
    · have := (tap i (Finset.mem_range.1 hi)).2.2.1
      rw [← hqd] at this
      refine this.trans (le_of_eq ?_)
      rw [abs_mul]
      ring
    · rw [Finset.sum_add_distrib, ← Finset.mul_sum, Finset.sum_const, Finset.card_range, nsmul_eq_mul]
      have := mul_le_mul_of_nonneg_left hmag (mul_nonneg hu0 (abs_nonneg q))
      linarith
  have g2 : |Ts * q - 1| ≤ 1124 / 1000 * (n * A.u * M) * |q| + 8 / 7 * |S| * (A.u * (7 / 6 * r) + A.tiny) := by
    have e : Ts * q - 1 = -(A.val s' - Ts) * q + A.val s' * (q - 1 / A.val s') := by field_simp; ring
    rw [e]
    refine (abs_add_le _ _).trans (add_le_add ?_ ?_)
    · rw [abs_mul, abs_neg]
      exact mul_le_mul_of_nonneg_right vs1 (abs_nonneg _)
    · rw [abs_mul]
      have := mul_le_mul_of_nonneg_left h1s hu0
      exact mul_le_mul hs87 (by linarith) (abs_nonneg _) (by positivity)
  have hrS : |S| * r = 1 := by rw [hrd]; field_simp
  have hMr : 1 ≤ M * r := by
    rw [← hrS]
    exact mul_le_mul_of_nonneg_right hSM hr0.le
  have g3 := mul_le_mul_of_nonneg_left hqb (by positivity : 0 ≤ A.u * (1021 / 1000 * M))
  have g4 := mul_le_mul_of_nonneg_left hqb (by positivity : 0 ≤ 1124 / 1000 * (n * A.u * M))
  have htM : 0 ≤ A.tiny * M := mul_nonneg ht0 hM
  have g5 : n * A.u * (A.tiny * M) ≤ 1 / 10 * (A.tiny * M) := mul_le_mul_of_nonneg_right hs.long htM
  have g6 : A.u * (A.tiny * M) ≤ 1 / 1000 * (A.tiny * M) := mul_le_mul_of_nonneg_right hu htM
  have g7 := mul_le_mul_of_nonneg_left hSM ht0
  have g8 := mul_le_mul_of_nonneg_left hMr hu0
  have e2 : 8 / 7 * |S| * (A.u * (7 / 6 * r) + A.tiny) = 8 / 6 * A.u * (|S| * r) + 8 / 7 * (A.tiny * |S|) := by ring
  rw [e2, hrS] at g2
  have hMS : M / |S| = M * r := by rw [hrd]; ring
  rw [hMS]
  have g9 : 0 ≤ n * A.u * (M * r) := by positivity
  have g10 : 0 ≤ A.u * (M * r) := by positivity
  have g11 : 0 ≤ n * A.tiny := by positivity
  have := abs_sub_le (∑ i ∈ range n, A.val (T i * (FloatFun.ofSize 1 / s'))) (Ts * q) 1
  linarith

/-- **C99** the computed taps are symmetric, bit for bit, for every symmetric window - whatever the arithmetic, the functions and the
rounding, even if something overflows -, and nothing else in memory changes. -/
theorem C99_symmetric {F : Type} [Zero F] [Add F] [Sub F] [Mul F] [Div F] [FloatFun F] (pi : F) (sin : F → F) (e : Exec) (c : KernOf F)
    (hc : c.Valid) (mem : List F) (out : Span) (hodd : out.size % 2 = 1) (hm : out.Within mem) (fc : F)
    (window : List F → Span → Out (List F)) {m0 : List F} {w : ℕ → F} (hwin : window mem out = .ok m0) (hww : Writes mem m0 out w)
    (hsym : ∀ i, i < out.size → w (out.size - 1 - i) = w i) :
    ∃ m h, kernelWindowedLowpassF pi sin e c mem out fc window = .ok m ∧ Writes mem m out h ∧
      ∀ i, i < out.size → h (out.size - 1 - i) = h i := by
  obtain ⟨m, s, e1, -, h2⟩ := kernelWindowedLowpassF_writes pi sin e c hc mem out hodd hm fc window hwin hww
  refine ⟨m, _, e1, h2, fun i hi => ?_⟩
  rw [firTap_mirror pi sin hodd fc w hsym hi]

/-- **C99** every computed tap is close to the exact tap of the low pass designed with the same window, for every number of taps, cutoff,
window, way the summation is vectorised and ordered; and the gain at frequency zero - the sum of the exact values of the taps - is one up
to rounding. -/
theorem C99_lowpass {pi : F} {sin : F → F} (hO : SineOps.Ok A pi sin) (e : Exec) (c : KernOf F) (hc : c.Valid) (mem : List F) (out : Span)
    (hodd : out.size % 2 = 1) (hm : out.Within mem) (fc : F) (ffc : A.finite fc) (window : List F → Span → Out (List F)) {m0 : List F}
    {w : ℕ → F} (hwin : window mem out = .ok m0) (hww : Writes mem m0 out w) (fw : ∀ i, i < out.size → A.finite (w i))
    (hs : SuitsLowpass A out.size (A.val fc) w) :
    ∃ m h, kernelWindowedLowpassF pi sin e c mem out fc window = .ok m ∧ Writes mem m out h ∧
      (∀ i, i < out.size → A.finite (h i) ∧
        |A.val (h i) - windowedTap A out.size (A.val fc) w i / windowedSum A out.size (A.val fc) w| ≤
          (2 * out.size + 60) * A.u * |A.val (w i)| * windowMagnitude A out.size w / |windowedSum A out.size (A.val fc) w| ^ 2 +
            2 * A.tiny * (1 + |A.val (w i)| + 1 / |windowedSum A out.size (A.val fc) w|)) ∧
      |∑ i ∈ range out.size, A.val (h i) - 1| ≤
        (2 * out.size + 5) * A.u * (windowMagnitude A out.size w / |windowedSum A out.size (A.val fc) w|) +
          2 * A.tiny * (windowMagnitude A out.size w + out.size) := by
  obtain ⟨m, s, e1, es, h2⟩ := kernelWindowedLowpassF_writes pi sin e c hc mem out hodd hm fc window hwin hww
  exact ⟨m, _, e1, h2, normalise_near c hc hodd hs (fun i hi => firTap_near hO hodd fc ffc hs hi (fw i hi)) es⟩

/-- **C99** with a given window: the computed taps are symmetric, bit for bit, for every symmetric window - whatever the arithmetic, the functions and the
rounding, even if something overflows -, and nothing else in memory changes. -/
theorem C99_symmetric_given {F : Type} [Zero F] [Add F] [Sub F] [Mul F] [Div F] [FloatFun F] (pi : F) (sin : F → F) (e : Exec) (c : KernOf F)
    (hc : c.Valid) (mem : List F) (out win : Span) (hodd : out.size % 2 = 1) (hsize : out.size = win.size) (hm : out.Within mem) (hwi : win.Within mem)
    (hdis : out.pos + out.size ≤ win.pos ∨ win.pos + win.size ≤ out.pos) (fc : F) {w : ℕ → F} (hr : Reads mem win w)
    (hsym : ∀ i, i < out.size → w (out.size - 1 - i) = w i) :
    ∃ m h, kernelWindowedLowpassGivenF pi sin e c mem out fc win = .ok m ∧ Writes mem m out h ∧
      ∀ i, i < out.size → h (out.size - 1 - i) = h i := by
  obtain ⟨m, s, e1, -, h2⟩ := kernelWindowedLowpassGivenF_writes pi sin e c hc mem out win hodd hsize hm hwi hdis fc hr
  refine ⟨m, _, e1, h2, fun i hi => ?_⟩
  rw [firTapGiven_mirror pi sin hodd fc w hsym hi]

/-- **C99** with a given window: every computed tap is close to the exact tap of the low pass designed with the same window, for every number of taps, cutoff,
window, way the summation is vectorised and ordered; and the gain at frequency zero - the sum of the exact values of the taps - is one up
to rounding. -/
theorem C99_lowpass_given {pi : F} {sin : F → F} (hO : SineOps.Ok A pi sin) (e : Exec) (c : KernOf F) (hc : c.Valid) (mem : List F) (out win : Span)
    (hodd : out.size % 2 = 1) (hsize : out.size = win.size) (hm : out.Within mem) (hwi : win.Within mem)
    (hdis : out.pos + out.size ≤ win.pos ∨ win.pos + win.size ≤ out.pos) (fc : F) (ffc : A.finite fc) {w : ℕ → F} (hr : Reads mem win w)
    (fw : ∀ i, i < out.size → A.finite (w i))
    (hs : SuitsLowpass A out.size (A.val fc) w) :
    ∃ m h, kernelWindowedLowpassGivenF pi sin e c mem out fc win = .ok m ∧ Writes mem m out h ∧
      (∀ i, i < out.size → A.finite (h i) ∧
        |A.val (h i) - windowedTap A out.size (A.val fc) w i / windowedSum A out.size (A.val fc) w| ≤
          (2 * out.size + 60) * A.u * |A.val (w i)| * windowMagnitude A out.size w / |windowedSum A out.size (A.val fc) w| ^ 2 +
            2 * A.tiny * (1 + |A.val (w i)| + 1 / |windowedSum A out.size (A.val fc) w|)) ∧
      |∑ i ∈ range out.size, A.val (h i) - 1| ≤
        (2 * out.size + 5) * A.u * (windowMagnitude A out.size w / |windowedSum A out.size (A.val fc) w|) +
          2 * A.tiny * (windowMagnitude A out.size w + out.size) := by
  obtain ⟨m, s, e1, es, h2⟩ := kernelWindowedLowpassGivenF_writes pi sin e c hc mem out win hodd hsize hm hwi hdis fc hr
  exact ⟨m, _, e1, h2, normalise_near c hc hodd hs (fun i hi => firTapGiven_near hO hodd fc ffc hs hi (fw i hi)) es⟩

private theorem response_near {n : ℕ} {fc : ℝ} {w h : ℕ → F} (hh : ∀ i, i < n → A.finite (h i) ∧
      |A.val (h i) - windowedTap A n fc w i / windowedSum A n fc w| ≤
        (2 * n + 60) * A.u * |A.val (w i)| * windowMagnitude A n w / |windowedSum A n fc w| ^ 2 +
          2 * A.tiny * (1 + |A.val (w i)| + 1 / |windowedSum A n fc w|)) (ω : ℝ) :
    ‖firResponse n (fun i => A.val (h i)) ω - firResponse n (fun i => windowedTap A n fc w i / windowedSum A n fc w) ω‖ ≤
      (2 * n + 60) * A.u * (windowMagnitude A n w / |windowedSum A n fc w|) ^ 2 +
        2 * A.tiny * (n + windowMagnitude A n w + n * (1 / |windowedSum A n fc w|)) := by
  unfold firResponse
  rw [← Finset.sum_sub_distrib]
  refine (norm_sum_le _ _).trans ?_
  refine (Finset.sum_le_sum (g := fun i => (2 * n + 60) * A.u * windowMagnitude A n w / |windowedSum A n fc w| ^ 2 * |A.val (w i)| +
    (2 * A.tiny * (1 + 1 / |windowedSum A n fc w|) + 2 * A.tiny * |A.val (w i)|)) fun i hi => ?_).trans (le_of_eq ?_)
  · rw [← sub_mul, norm_mul, Complex.norm_exp, ← Complex.ofReal_sub, Complex.norm_real, Real.norm_eq_abs]
    refine le_trans (le_of_eq ?_) (((hh i (Finset.mem_range.1 hi)).2).trans (le_of_eq (by ring)))
    simp
  · rw [Finset.sum_add_distrib, Finset.sum_add_distrib, ← Finset.mul_sum, Finset.sum_const, Finset.card_range, nsmul_eq_mul, ← Finset.mul_sum]
    rw [show ∑ i ∈ range n, |A.val (w i)| = windowMagnitude A n w from rfl]
    ring

/-- **C99** the frequency response of the computed taps is, at every frequency, close to that of the exact design with the same window. -/
theorem C99_response {pi : F} {sin : F → F} (hO : SineOps.Ok A pi sin) (e : Exec) (c : KernOf F) (hc : c.Valid) (mem : List F) (out : Span)
    (hodd : out.size % 2 = 1) (hm : out.Within mem) (fc : F) (ffc : A.finite fc) (window : List F → Span → Out (List F)) {m0 : List F}
    {w : ℕ → F} (hwin : window mem out = .ok m0) (hww : Writes mem m0 out w) (fw : ∀ i, i < out.size → A.finite (w i))
    (hs : SuitsLowpass A out.size (A.val fc) w) :
    ∃ m h, kernelWindowedLowpassF pi sin e c mem out fc window = .ok m ∧ Writes mem m out h ∧ ∀ ω : ℝ,
      ‖firResponse out.size (fun i => A.val (h i)) ω -
          firResponse out.size (fun i => windowedTap A out.size (A.val fc) w i / windowedSum A out.size (A.val fc) w) ω‖ ≤
        (2 * out.size + 60) * A.u * (windowMagnitude A out.size w / |windowedSum A out.size (A.val fc) w|) ^ 2 +
          2 * A.tiny * (out.size + windowMagnitude A out.size w + out.size * (1 / |windowedSum A out.size (A.val fc) w|)) := by
  obtain ⟨m, h, e1, e2, e3, -⟩ := C99_lowpass hO e c hc mem out hodd hm fc ffc window hwin hww fw hs
  exact ⟨m, h, e1, e2, response_near e3⟩

/-- **C99** the same with a given window. -/
theorem C99_response_given {pi : F} {sin : F → F} (hO : SineOps.Ok A pi sin) (e : Exec) (c : KernOf F) (hc : c.Valid) (mem : List F) (out win : Span)
    (hodd : out.size % 2 = 1) (hsize : out.size = win.size) (hm : out.Within mem) (hwi : win.Within mem)
    (hdis : out.pos + out.size ≤ win.pos ∨ win.pos + win.size ≤ out.pos) (fc : F) (ffc : A.finite fc) {w : ℕ → F} (hr : Reads mem win w)
    (fw : ∀ i, i < out.size → A.finite (w i))
    (hs : SuitsLowpass A out.size (A.val fc) w) :
    ∃ m h, kernelWindowedLowpassGivenF pi sin e c mem out fc win = .ok m ∧ Writes mem m out h ∧ ∀ ω : ℝ,
      ‖firResponse out.size (fun i => A.val (h i)) ω -
          firResponse out.size (fun i => windowedTap A out.size (A.val fc) w i / windowedSum A out.size (A.val fc) w) ω‖ ≤
        (2 * out.size + 60) * A.u * (windowMagnitude A out.size w / |windowedSum A out.size (A.val fc) w|) ^ 2 +
          2 * A.tiny * (out.size + windowMagnitude A out.size w + out.size * (1 / |windowedSum A out.size (A.val fc) w|)) := by
  obtain ⟨m, h, e1, e2, e3, -⟩ := C99_lowpass_given hO e c hc mem out win hodd hsize hm hwi hdis fc ffc hr fw hs
  exact ⟨m, h, e1, e2, response_near e3⟩

end

namespace WindowedRoundedExample
open FloatWindowsExample

noncomputable def half : Bin 24 (-149) := .num (1 / 2) ⟨2 ^ 148, by norm_num⟩

noncomputable def sine (a : Bin 24 (-149)) : Bin 24 (-149) := Bin.pack 24 (-149) (Real.sin a.val)

theorem sine_ok : SineOps.Ok fl ops.pi sine where
  pi := ops_ok.pi
  sin a ha ht := by
    refine pack_near ((Real.abs_sin_le_one _).trans (by norm_num)) ?_
    have h1 : |Real.sin a.val| ≤ |a.val| := Real.abs_sin_le_abs
    change (2 : ℝ) ^ ((-149 : ℤ) - 1) ≤ (2 : ℝ) ^ (-(24 : ℤ)) * |a.val| at ht
    change _ ≤ 2 * (2 : ℝ) ^ (-(24 : ℤ)) * |a.val|
    have := mul_le_mul_of_nonneg_left h1 (by positivity : (0 : ℝ) ≤ 2 ^ (-(24 : ℤ)))
    have e : (2 : ℝ) ^ ((-149 : ℤ) - 1) = 2 ^ (-150 : ℤ) := by norm_num
    rw [e] at ht
    linarith

theorem integers (k : ℕ) (hk : k ≤ 3) : fl.finite (FloatFun.ofSize k : Bin 24 (-149)) ∧ fl.val (FloatFun.ofSize k : Bin 24 (-149)) = k := by
  have hk' : (k : ℝ) ≤ 3 := by exact_mod_cast hk
  obtain ⟨h1, h2⟩ := Bin.pack_spec (p := 24) (emin := -149) (by norm_num) (x := (k : ℝ))
    (by rw [abs_of_nonneg (Nat.cast_nonneg k)]; exact hk'.trans (by norm_num)) (by norm_num)
  refine ⟨h1, h2.trans ?_⟩
  have := binRound_int 24 (-149) (by norm_num) (k : ℤ) (by rw [abs_of_nonneg (Int.natCast_nonneg k)]; omega)
  simpa using this

noncomputable def ones : ℕ → Bin 24 (-149) := fun _ => FloatFun.ofSize 1

theorem val_ones (i : ℕ) : fl.val (ones i) = 1 := by
  have := (integers 1 (by norm_num)).2
  rw [Nat.cast_one] at this
  exact this

theorem magnitude : windowMagnitude fl 3 ones = 3 := by
  simp only [windowMagnitude, Finset.sum_range_succ, Finset.sum_range_zero, val_ones, abs_one]
  norm_num

theorem sum_eq : windowedSum fl 3 (1 / 2) ones = 1 + 4 / Real.pi := by
  have h1 : Real.sinc (Real.pi * (1 / 2)) = 2 / Real.pi := by
    rw [Real.sinc_of_ne_zero (by positivity), show Real.pi * (1 / 2) = Real.pi / 2 by ring, Real.sin_pi_div_two]
    field_simp
  simp only [windowedSum, windowedTap, Finset.sum_range_succ, Finset.sum_range_zero, val_ones, one_mul]
  norm_num
  rw [h1]
  ring

theorem suits : SuitsLowpass fl 3 (fl.val half) ones := by
  have hf : fl.val half = 1 / 2 := rfl
  have hpi := Real.pi_gt_three
  have hpi4 := Real.pi_le_four
  have hS : 2 ≤ |windowedSum fl 3 (1 / 2) ones| := by
    have h : 1 ≤ 4 / Real.pi := by rw [le_div_iff₀ Real.pi_pos]; linarith
    rw [sum_eq, abs_of_pos (by linarith)]
    linarith
  have hu : fl.u = 2 ^ (-(24 : ℤ)) := rfl
  have ht : fl.tiny = 2 ^ ((-149 : ℤ) - 1) := rfl
  have hh : fl.huge = 2 ^ 126 := rfl
  rw [hf]
  refine ⟨by rw [hu]; norm_num, integers, by norm_num, by norm_num, by rw [hu, ht]; norm_num, by rw [hu]; norm_num, by rw [hh]; norm_num,
    abs_pos.1 (by linarith), ?_, ?_, ?_⟩
  · rw [magnitude, hu]
    refine le_trans ?_ hS
    norm_num
  · rw [magnitude, hu, ht]
    norm_num
  · rw [magnitude, hh]
    have : 1 / |windowedSum fl 3 (1 / 2) ones| ≤ 1 := by
      rw [div_le_one (by linarith)]
      linarith
    refine (mul_le_mul_of_nonneg_left (add_le_add_left this 1) (by norm_num)).trans ?_
    norm_num

/-- three taps with the cutoff at half the Nyquist frequency and a rectangular window, in single precision: the gain at frequency zero is
one to within a millionth -/
example (c : KernOf (Bin 24 (-149))) (hc : c.Valid) : ∃ m h,
    kernelWindowedLowpassF ops.pi sine ⟨true, true, 4⟩ c [0, 0, 0] ⟨0, 3⟩ half
      (fun mem out => forN out.size (fun i mem => wr mem ((out.pos + i : Nat) : Int) (ones i)) mem) = .ok m ∧
    Writes [0, 0, 0] m ⟨0, 3⟩ h ∧ |∑ i ∈ range 3, fl.val (h i) - 1| ≤ 1e-6 := by
  have hw : (⟨0, 3⟩ : Span).Within ([0, 0, 0] : List (Bin 24 (-149))) := le_refl 3
  have : Inhabited (Bin 24 (-149)) := ⟨0⟩
  obtain ⟨m0, w1, w2⟩ := fill_writes ([0, 0, 0] : List (Bin 24 (-149))) ⟨0, 3⟩ ones hw
  obtain ⟨m, h, e1, e2, -, e3⟩ := C99_lowpass sine_ok ⟨true, true, 4⟩ c hc [0, 0, 0] ⟨0, 3⟩ rfl hw half
    (show |(1 / 2 : ℝ)| ≤ 2 ^ 128 by norm_num)
    (fun mem out => forN out.size (fun i mem => wr mem ((out.pos + i : Nat) : Int) (ones i)) mem) w1 w2 (fun i _ => (integers 1 (by norm_num)).1) suits
  refine ⟨m, h, e1, e2, e3.trans ?_⟩
  have hpi4 := Real.pi_le_four
  have hS : 2 ≤ |windowedSum fl 3 (fl.val half) ones| := by
    have h : 1 ≤ 4 / Real.pi := by rw [le_div_iff₀ Real.pi_pos]; linarith
    rw [show fl.val half = 1 / 2 from rfl, sum_eq, abs_of_pos (by linarith)]
    linarith
  have hq : windowMagnitude fl 3 ones / |windowedSum fl 3 (fl.val half) ones| ≤ 3 / 2 := by
    rw [magnitude, div_le_div_iff₀ (by linarith) (by norm_num)]
    linarith
  change (2 * ((3 : ℕ) : ℝ) + 5) * fl.u * (windowMagnitude fl 3 ones / |windowedSum fl 3 (fl.val half) ones|) +
    2 * fl.tiny * (windowMagnitude fl 3 ones + (3 : ℕ)) ≤ _
  have hu : fl.u = 2 ^ (-(24 : ℤ)) := rfl
  have ht : fl.tiny = 2 ^ ((-149 : ℤ) - 1) := rfl
  have := mul_le_mul_of_nonneg_left hq (by rw [hu]; positivity : 0 ≤ (2 * ((3 : ℕ) : ℝ) + 5) * fl.u)
  refine (add_le_add_left this _).trans ?_
  rw [magnitude, hu, ht]
  norm_num

end WindowedRoundedExample

end Verif
