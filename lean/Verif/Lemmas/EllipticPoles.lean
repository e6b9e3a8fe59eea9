import Verif.Lemmas.EllipticDegree
import Mathlib.Algebra.Polynomial.Eval.Defs

set_option linter.unusedSimpArgs false
set_option linter.unusedSectionVars false

/-! # The poles of an elliptic filter: Jacobi's transformation at complex arguments -/

namespace Verif
open Polynomial Finset

/-- functions on the elliptic curve `w² = x (1 - x) (1 - k² x)` that are polynomials -/
def OnCurve (k : ℝ) (F : ℂ → ℂ → ℂ) : Prop :=
  ∃ P Q : ℂ[X], ∀ x w : ℂ, w ^ 2 = x * (1 - x) * (1 - (k : ℂ) ^ 2 * x) → F x w = P.eval x + w * Q.eval x

namespace OnCurve
variable {k : ℝ} {F G : ℂ → ℂ → ℂ}

theorem poly (P : ℂ[X]) : OnCurve k fun x _ => P.eval x := ⟨P, 0, fun x w _ => by simp⟩
theorem const (c : ℂ) : OnCurve k fun _ _ => c := ⟨C c, 0, fun x w _ => by simp⟩
theorem fst : OnCurve k fun x _ => x := ⟨X, 0, fun x w _ => by simp⟩
theorem snd : OnCurve k fun _ w => w := ⟨0, 1, fun x w _ => by simp⟩
theorem add (hF : OnCurve k F) (hG : OnCurve k G) : OnCurve k fun x w => F x w + G x w := by
  obtain ⟨P, Q, h⟩ := hF
  obtain ⟨P', Q', h'⟩ := hG
  exact ⟨P + P', Q + Q', fun x w hw => by simp only []; rw [h x w hw, h' x w hw, eval_add, eval_add]; ring⟩
theorem mul (hF : OnCurve k F) (hG : OnCurve k G) : OnCurve k fun x w => F x w * G x w := by
  obtain ⟨P, Q, h⟩ := hF
  obtain ⟨P', Q', h'⟩ := hG
  refine ⟨P * P' + X * (1 - X) * (1 - C ((k : ℂ) ^ 2) * X) * (Q * Q'), P * Q' + Q * P', fun x w hw => ?_⟩
  simp only []
  rw [h x w hw, h' x w hw]
  simp only [eval_add, eval_mul, eval_sub, eval_one, eval_X, eval_C]
  linear_combination (Q.eval x * Q'.eval x) * hw
theorem sub (hF : OnCurve k F) (hG : OnCurve k G) : OnCurve k fun x w => F x w - G x w := by
  have := hF.add ((const (-1)).mul hG)
  simpa [sub_eq_add_neg] using this
theorem prod {ι : Type*} (s : Finset ι) {F : ι → ℂ → ℂ → ℂ} (h : ∀ i, OnCurve k (F i)) : OnCurve k fun x w => ∏ i ∈ s, F i x w := by
  classical
  induction s using Finset.induction_on with
  | empty => simpa using const 1
  | insert a s ha ih => simpa [prod_insert ha] using (h a).mul ih

/-- A polynomial on the curve that vanishes at all real arguments vanishes everywhere. -/
theorem eq_zero (hk : k ^ 2 < 1) (hF : OnCurve k F)
    (h : ∀ u : ℝ, F ((jsn k u ^ 2 : ℝ) : ℂ) ((jsn k u * jcn k u * jdn k u : ℝ) : ℂ) = 0) {x w : ℂ}
    (hw : w ^ 2 = x * (1 - x) * (1 - (k : ℂ) ^ 2 * x)) : F x w = 0 := by
  obtain ⟨P, Q, hPQ⟩ := hF
  have hcurve : ∀ u : ℝ, ((jsn k u * jcn k u * jdn k u : ℝ) : ℂ) ^ 2 =
      ((jsn k u ^ 2 : ℝ) : ℂ) * (1 - ((jsn k u ^ 2 : ℝ) : ℂ)) * (1 - (k : ℂ) ^ 2 * ((jsn k u ^ 2 : ℝ) : ℂ)) := by
    intro u
    have : (jsn k u * jcn k u * jdn k u) ^ 2 = jsn k u ^ 2 * (1 - jsn k u ^ 2) * (1 - k ^ 2 * jsn k u ^ 2) := by
      rw [← jcn_sq hk, ← jdn_sq hk]; ring
    exact_mod_cast congrArg (fun z : ℝ => (z : ℂ)) this
  have hplus : ∀ u : ℝ, P.eval ((jsn k u ^ 2 : ℝ) : ℂ) + ((jsn k u * jcn k u * jdn k u : ℝ) : ℂ) * Q.eval ((jsn k u ^ 2 : ℝ) : ℂ) = 0 := by
    intro u
    rw [← hPQ _ _ (hcurve u)]
    exact h u
  have hminus : ∀ u : ℝ, P.eval ((jsn k u ^ 2 : ℝ) : ℂ) - ((jsn k u * jcn k u * jdn k u : ℝ) : ℂ) * Q.eval ((jsn k u ^ 2 : ℝ) : ℂ) = 0 := by
    intro u
    have := hplus (-u)
    rw [jsn_neg hk, jcn_neg hk, jdn_neg hk, neg_sq] at this
    rw [← this]
    push_cast
    ring
  have hK := legendreK_pos hk
  have hinf : (Set.range fun u : Set.Ioo 0 (legendreK k) => ((jsn k u ^ 2 : ℝ) : ℂ)).Infinite := by
    have : Infinite (Set.Ioo 0 (legendreK k)) := (Set.Ioo_infinite hK).to_subtype
    apply Set.infinite_range_of_injective
    intro u v huv
    have h1 : jsn k u ^ 2 = jsn k v ^ 2 := Complex.ofReal_injective huv
    have p0 : ∀ u : Set.Ioo 0 (legendreK k), 0 < jsn k u := fun u => by
      have := jsn_lt hk le_rfl u.2.1 u.2.2.le
      rwa [jsn_zero hk] at this
    have h2 : jsn k u = jsn k v := by
      have a := p0 u
      have b := p0 v
      nlinarith
    by_contra hne
    rcases lt_or_gt_of_ne (fun h => hne (Subtype.ext h) : (u : ℝ) ≠ v) with hlt | hlt
    · have := jsn_lt hk u.2.1.le hlt v.2.2.le; linarith
    · have := jsn_lt hk v.2.1.le hlt u.2.2.le; linarith
  have hP : P = 0 := by
    apply eq_zero_of_infinite_isRoot
    refine hinf.mono ?_
    rintro _ ⟨u, rfl⟩
    change P.eval _ = 0
    have a := hplus u
    have b := hminus u
    linear_combination (a + b) / 2
  have hQ : Q = 0 := by
    apply eq_zero_of_infinite_isRoot
    refine hinf.mono ?_
    rintro _ ⟨u, rfl⟩
    change Q.eval _ = 0
    have a := hplus u
    have b := hminus u
    have hne : ((jsn k u * jcn k u * jdn k u : ℝ) : ℂ) ≠ 0 := by
      have h1 := jsn_lt hk le_rfl u.2.1 u.2.2.le
      rw [jsn_zero hk] at h1
      have h2 := jcn_pos hk u.2.1.le u.2.2
      have h3 := jdn_pos hk (u : ℝ)
      exact_mod_cast (by positivity)
    have : ((jsn k u * jcn k u * jdn k u : ℝ) : ℂ) * Q.eval ((jsn k u ^ 2 : ℝ) : ℂ) = 0 := by linear_combination (a - b) / 2
    exact (mul_eq_zero.mp this).resolve_left hne
  rw [hPQ x w hw, hP, hQ]
  simp

end OnCurve

/-- the numerator of the square of sn of a sum, `s` and `r` being the square and the product sn cn dn of the second argument -/
noncomputable def addNum (k s r : ℝ) (x w : ℂ) : ℂ :=
  x * ((1 - s) * (1 - k ^ 2 * s) : ℝ) + (s : ℝ) * ((1 - x) * (1 - (k : ℂ) ^ 2 * x)) + 2 * w * (r : ℝ)
/-- its denominator -/
noncomputable def addDen (k s : ℝ) (x : ℂ) : ℂ := (1 - (k : ℂ) ^ 2 * x * (s : ℝ)) ^ 2

theorem addNum_onCurve (k s r : ℝ) : OnCurve k (addNum k s r) := by
  unfold addNum
  have h1 : OnCurve k fun x _ => x := OnCurve.fst
  have h2 : OnCurve k fun _ w => w := OnCurve.snd
  exact ((h1.mul (OnCurve.const _)).add ((OnCurve.const _).mul (((OnCurve.const 1).sub h1).mul ((OnCurve.const 1).sub ((OnCurve.const _).mul h1))))).add
    (((OnCurve.const 2).mul h2).mul (OnCurve.const _))

theorem addDen_onCurve (k s : ℝ) : OnCurve k fun x _ => addDen k s x := by
  unfold addDen
  have h1 : OnCurve k fun x _ => x := OnCurve.fst
  have h := ((OnCurve.const (k := k) 1).sub (((OnCurve.const ((k : ℂ) ^ 2)).mul h1).mul (OnCurve.const ((s : ℝ) : ℂ))))
  have := h.mul h
  simpa [sq] using this

/-- Jacobi's transformation with a shifted argument, at any point of the curve: if it holds for all real arguments -/
theorem shift_identity {k : ℝ} (hk : k ^ 2 < 1) (a b : ℕ → ℝ) (n : ℕ) (τ v : ℝ)
    (h : ∀ u : ℝ, (∏ j ∈ range n, (jsn k (u + v) ^ 2 - a j)) * (∏ j ∈ range n, (1 - k ^ 2 * b j * jsn k u ^ 2)) =
      τ * ((∏ j ∈ range n, (jsn k u ^ 2 - b j)) * ∏ j ∈ range n, (1 - k ^ 2 * a j * jsn k (u + v) ^ 2)))
    {x w : ℂ} (hw : w ^ 2 = x * (1 - x) * (1 - (k : ℂ) ^ 2 * x)) {z : ℂ}
    (hz : z * addDen k (jsn k v ^ 2) x = addNum k (jsn k v ^ 2) (jsn k v * jcn k v * jdn k v) x w) (hd : addDen k (jsn k v ^ 2) x ≠ 0) :
    (∏ j ∈ range n, (z - (a j : ℝ))) * (∏ j ∈ range n, (1 - (k : ℂ) ^ 2 * (b j : ℝ) * x)) =
      (τ : ℝ) * ((∏ j ∈ range n, (x - (b j : ℝ))) * ∏ j ∈ range n, (1 - (k : ℂ) ^ 2 * (a j : ℝ) * z)) := by
  obtain ⟨s, hs⟩ : ∃ s, s = jsn k v ^ 2 := ⟨_, rfl⟩
  obtain ⟨r, hr⟩ : ∃ r, r = jsn k v * jcn k v * jdn k v := ⟨_, rfl⟩
  rw [← hs] at hz hd
  rw [← hr] at hz
  have hx : OnCurve k fun x _ => x := OnCurve.fst
  have hB := addNum_onCurve k s r
  have hQ := addDen_onCurve k s
  have hcurve : OnCurve k fun x w =>
      (∏ j ∈ range n, (addNum k s r x w - ((a j : ℝ) : ℂ) * addDen k s x)) * (∏ j ∈ range n, (1 - (k : ℂ) ^ 2 * ((b j : ℝ) : ℂ) * x)) -
      ((τ : ℝ) : ℂ) * ((∏ j ∈ range n, (x - ((b j : ℝ) : ℂ))) * ∏ j ∈ range n, (addDen k s x - (k : ℂ) ^ 2 * ((a j : ℝ) : ℂ) * addNum k s r x w)) := by
    refine OnCurve.sub (OnCurve.mul (OnCurve.prod _ fun j => ?_) (OnCurve.prod _ fun j => ?_))
      (OnCurve.mul (OnCurve.const _) (OnCurve.mul (OnCurve.prod _ fun j => ?_) (OnCurve.prod _ fun j => ?_)))
    · exact hB.sub ((OnCurve.const _).mul hQ)
    · exact (OnCurve.const 1).sub ((OnCurve.const _).mul hx)
    · exact hx.sub (OnCurve.const _)
    · exact hQ.sub ((OnCurve.const _).mul hB)
  have hzero := hcurve.eq_zero hk (fun u => ?_) hw
  · have e1 : ∏ j ∈ range n, (addNum k s r x w - ((a j : ℝ) : ℂ) * addDen k s x) = addDen k s x ^ n * ∏ j ∈ range n, (z - (a j : ℝ)) := by
      rw [← card_range n, ← prod_const, card_range, ← prod_mul_distrib]
      exact prod_congr rfl fun j _ => by rw [← hz]; ring
    have e2 : ∏ j ∈ range n, (addDen k s x - (k : ℂ) ^ 2 * ((a j : ℝ) : ℂ) * addNum k s r x w) =
        addDen k s x ^ n * ∏ j ∈ range n, (1 - (k : ℂ) ^ 2 * (a j : ℝ) * z) := by
      rw [← card_range n, ← prod_const, card_range, ← prod_mul_distrib]
      exact prod_congr rfl fun j _ => by rw [← hz]; ring
    rw [e1, e2] at hzero
    apply mul_left_cancel₀ (pow_ne_zero n hd)
    linear_combination hzero
  · have hadd := jsn_add_sq hk u v
    have hpos := (jsn_den_pos hk u v).ne'
    obtain ⟨q, hq⟩ : ∃ q, q = (1 - k ^ 2 * jsn k u ^ 2 * jsn k v ^ 2) ^ 2 := ⟨_, rfl⟩
    have hq0 : q ≠ 0 := by rw [hq]; positivity
    have hQr : addDen k s ((jsn k u ^ 2 : ℝ) : ℂ) = (q : ℝ) := by rw [addDen, hq, hs]; push_cast; ring
    have hBr : addNum k s r ((jsn k u ^ 2 : ℝ) : ℂ) ((jsn k u * jcn k u * jdn k u : ℝ) : ℂ) = ((jsn k (u + v) ^ 2 * q : ℝ) : ℂ) := by
      rw [← hq] at hadd
      rw [hadd, div_mul_cancel₀ _ hq0, addNum, hs, hr]
      push_cast
      ring
    have hu := h u
    have e1 : (∏ j ∈ range n, (addNum k s r ((jsn k u ^ 2 : ℝ) : ℂ) ((jsn k u * jcn k u * jdn k u : ℝ) : ℂ) - ((a j : ℝ) : ℂ) * addDen k s ((jsn k u ^ 2 : ℝ) : ℂ))) =
        ((q ^ n * ∏ j ∈ range n, (jsn k (u + v) ^ 2 - a j) : ℝ) : ℂ) := by
      rw [← card_range n, ← prod_const, card_range, ← prod_mul_distrib, Complex.ofReal_prod]
      exact prod_congr rfl fun j _ => by rw [hBr, hQr]; push_cast; ring
    have e2 : (∏ j ∈ range n, (addDen k s ((jsn k u ^ 2 : ℝ) : ℂ) - (k : ℂ) ^ 2 * ((a j : ℝ) : ℂ) * addNum k s r ((jsn k u ^ 2 : ℝ) : ℂ) ((jsn k u * jcn k u * jdn k u : ℝ) : ℂ))) =
        ((q ^ n * ∏ j ∈ range n, (1 - k ^ 2 * a j * jsn k (u + v) ^ 2) : ℝ) : ℂ) := by
      rw [← card_range n, ← prod_const, card_range, ← prod_mul_distrib, Complex.ofReal_prod]
      exact prod_congr rfl fun j _ => by rw [hBr, hQr]; push_cast; ring
    have e3 : (∏ j ∈ range n, (1 - (k : ℂ) ^ 2 * ((b j : ℝ) : ℂ) * ((jsn k u ^ 2 : ℝ) : ℂ))) = ((∏ j ∈ range n, (1 - k ^ 2 * b j * jsn k u ^ 2) : ℝ) : ℂ) := by
      rw [Complex.ofReal_prod]
      exact prod_congr rfl fun j _ => by push_cast; ring
    have e4 : (∏ j ∈ range n, (((jsn k u ^ 2 : ℝ) : ℂ) - ((b j : ℝ) : ℂ))) = ((∏ j ∈ range n, (jsn k u ^ 2 - b j) : ℝ) : ℂ) := by
      rw [Complex.ofReal_prod]
      exact prod_congr rfl fun j _ => by push_cast; ring
    rw [e1, e2, e3, e4, ← Complex.ofReal_mul, ← Complex.ofReal_mul, ← Complex.ofReal_mul, ← Complex.ofReal_sub, Complex.ofReal_eq_zero]
    linear_combination q ^ n * hu

/-- sn at a complex argument satisfies the addition theorem -/
theorem complexSn_add {k : ℝ} (hk : k ^ 2 < 1) (v ψ : ℝ) (hc : Real.cos ψ ≠ 0) :
    let x : ℂ := ((-Real.tan ψ ^ 2 : ℝ) : ℂ)
    let w : ℂ := Complex.I * ((Real.tan ψ * (jacobiDelta (Real.sqrt (1 - k ^ 2)) ψ / Real.cos ψ ^ 2) : ℝ) : ℂ)
    w ^ 2 = x * (1 - x) * (1 - (k : ℂ) ^ 2 * x) ∧ addDen k (jsn k v ^ 2) x ≠ 0 ∧
      complexSn k (jam k v) ψ ^ 2 * addDen k (jsn k v ^ 2) x = addNum k (jsn k v ^ 2) (jsn k v * jcn k v * jdn k v) x w := by
  intro x w
  obtain ⟨d, hd⟩ : ∃ d, d = jacobiDelta (Real.sqrt (1 - k ^ 2)) ψ := ⟨_, rfl⟩
  obtain ⟨t, ht⟩ : ∃ t, t = Real.tan ψ := ⟨_, rfl⟩
  obtain ⟨c, hc'⟩ : ∃ c, c = Real.cos ψ := ⟨_, rfl⟩
  have hsin : Real.sin ψ = t * c := by rw [ht, hc', Real.tan_mul_cos hc]
  have hd2 : d ^ 2 = 1 - (1 - k ^ 2) * (t * c) ^ 2 := by rw [hd, delta_compl_sq hk.le, hsin]
  have hc0 : c ≠ 0 := by rw [hc']; exact hc
  have htc : (1 + t ^ 2) * c ^ 2 = 1 := by
    have := Real.sin_sq_add_cos_sq ψ
    rw [hsin, ← hc'] at this
    linarith
  have hα : (d / c ^ 2) ^ 2 = (1 + t ^ 2) * (1 + k ^ 2 * t ^ 2) := by
    rw [div_pow, hd2, div_eq_iff (by positivity)]
    linear_combination -(((1 + k ^ 2 * t ^ 2) * c ^ 2 + 1) * 1) * htc
  have hx : x = ((-t ^ 2 : ℝ) : ℂ) := by rw [ht]
  have hw : w = Complex.I * ((t * (d / c ^ 2) : ℝ) : ℂ) := by rw [ht, hd, hc']
  have hαc : ((d / c ^ 2 : ℝ) : ℂ) ^ 2 = (1 + (t : ℂ) ^ 2) * (1 + (k : ℂ) ^ 2 * (t : ℂ) ^ 2) := by
    exact_mod_cast congrArg (fun z : ℝ => (z : ℂ)) hα
  have hI := Complex.I_sq
  obtain ⟨E, hE⟩ : ∃ E, E = 1 + k ^ 2 * t ^ 2 * jsn k v ^ 2 := ⟨_, rfl⟩
  have hE0 : E ≠ 0 := by rw [hE]; positivity
  have hden : addDen k (jsn k v ^ 2) x = ((E ^ 2 : ℝ) : ℂ) := by
    rw [addDen, hx, hE]
    push_cast
    ring
  have hD : complexDenominator k (jam k v) ψ = c ^ 2 * E := by
    rw [complexDenominator, hsin, ← hc', hE, jsn]; ring
  have hsn : complexSn k (jam k v) ψ * ((E : ℝ) : ℂ) = ((jsn k v * (d / c ^ 2) : ℝ) : ℂ) + Complex.I * ((t * (jcn k v * jdn k v) : ℝ) : ℂ) := by
    apply Complex.ext
    · rw [complexSn, hD, hsin, ← hc', ← hd]
      simp only [Complex.mul_re, Complex.add_re, Complex.ofReal_re, Complex.ofReal_im, Complex.I_re, Complex.I_im, mul_zero, sub_zero, zero_mul, one_mul, add_zero, zero_sub]
      rw [jsn]
      field_simp
    · rw [complexSn, hD, hsin, ← hc', ← hd]
      simp only [Complex.mul_im, Complex.add_im, Complex.ofReal_re, Complex.ofReal_im, Complex.I_re, Complex.I_im, mul_zero, sub_zero, zero_mul, one_mul, add_zero, zero_add]
      rw [jcn, jdn]
      field_simp
  refine ⟨?_, ?_, ?_⟩
  · rw [hw, hx, mul_pow, hI, Complex.ofReal_mul, mul_pow, hαc]
    push_cast
    ring
  · rw [hden]
    exact_mod_cast pow_ne_zero 2 hE0
  · rw [hden, Complex.ofReal_pow, ← mul_pow, hsn, addNum, hw, hx]
    have hc2 : ((jcn k v : ℝ) : ℂ) ^ 2 = 1 - ((jsn k v : ℝ) : ℂ) ^ 2 := by
      exact_mod_cast congrArg (fun z : ℝ => (z : ℂ)) (jcn_sq hk v)
    have hdn2 : ((jdn k v : ℝ) : ℂ) ^ 2 = 1 - (k : ℂ) ^ 2 * ((jsn k v : ℝ) : ℂ) ^ 2 := by
      exact_mod_cast congrArg (fun z : ℝ => (z : ℂ)) (jdn_sq hk v)
    simp only [Complex.ofReal_mul, Complex.ofReal_neg, Complex.ofReal_pow, Complex.ofReal_sub, Complex.ofReal_one]
    generalize ((d / c ^ 2 : ℝ) : ℂ) = α at *
    rw [← hc2, ← hdn2]
    linear_combination (jsn k v : ℂ) ^ 2 * hαc + (t : ℂ) ^ 2 * (jcn k v * jdn k v : ℂ) ^ 2 * hI

end Verif
