import Verif.Props.IirRounded
import Mathlib.Analysis.Complex.Circle
import Mathlib.Topology.MetricSpace.ProperSpace.Lemmas

/-!
# C86: what inexact coefficients do to a recursive filter

A filter is designed in one precision and stored in another (or its coefficients are typed in with a few digits), so the filter that runs is
never exactly the filter that was designed.  For a stable filter a small enough change of the coefficients keeps it stable, and changes the
frequency response and the output, however long it runs, by an amount proportional to the change.
-/

set_option linter.unusedVariables false

namespace Verif
open Finset Rnd

/-- The coefficients `c'` differ from `c` by at most `δ`. -/
def CoefClose (c c' : List ℝ) (δ : ℝ) : Prop := c'.length = c.length ∧ ∀ i, i < c.length → |sig c' i - sig c i| ≤ δ

private theorem close_sum {c c' : List ℝ} {δ : ℝ} (h : CoefClose c c' δ) (y : List ℝ) (Y : ℝ) (hY : 0 ≤ Y) (hy : ∀ v ∈ y, |v| ≤ Y) (n : ℤ) :
    |taps c' y n - taps c y n| ≤ c.length * δ * Y := by
  unfold taps
  rw [h.1, ← sum_sub_distrib]
  refine (abs_sum_le_sum_abs _ _).trans ?_
  have hs : ∀ i : ℤ, |sigI y i| ≤ Y := by
    intro i
    unfold sigI sig
    split
    · by_cases c : i.toNat < y.length
      · simp only [List.getD_eq_getElem?_getD, List.getElem?_eq_getElem c, Option.getD_some]
        exact hy _ (List.getElem_mem _)
      · simp only [List.getD_eq_getElem?_getD, List.getElem?_eq_none (not_lt.1 c), Option.getD_none]
        simpa using hY
    · simpa using hY
  have : ∀ k ∈ range c.length, |sig c' (c.length - 1 - k) * sigI y (n - k) - sig c (c.length - 1 - k) * sigI y (n - k)| ≤ δ * Y := by
    intro k hk
    have hk' := mem_range.1 hk
    rw [← sub_mul, abs_mul]
    have h1 := h.2 (c.length - 1 - k) (by omega)
    exact mul_le_mul h1 (hs _) (abs_nonneg _) ((abs_nonneg _).trans h1)
  refine (sum_le_sum this).trans ?_
  rw [sum_const, card_range, nsmul_eq_mul]
  linarith

private theorem exists_max : ∀ l : List ℝ, ∃ Y, 0 ≤ Y ∧ (∀ w ∈ l, |w| ≤ Y) ∧ (Y = 0 ∨ ∃ w ∈ l, |w| = Y)
  | [] => ⟨0, le_rfl, by simp, Or.inl rfl⟩
  | a :: l => by
    obtain ⟨Y, h0, h1, h2⟩ := exists_max l
    rcases le_total |a| Y with h | h
    · refine ⟨Y, h0, fun w hw => ?_, ?_⟩
      · rcases List.mem_cons.1 hw with rfl | hw
        · exact h
        · exact h1 w hw
      · rcases h2 with h2 | ⟨w, hw, h2⟩
        · exact Or.inl h2
        · exact Or.inr ⟨w, by simp [hw], h2⟩
    · refine ⟨|a|, abs_nonneg _, fun w hw => ?_, Or.inr ⟨a, by simp, rfl⟩⟩
      rcases List.mem_cons.1 hw with rfl | hw
      · exact le_rfl
      · exact (h1 w hw).trans h

private theorem nonneg_of_bound {x y b a : List ℝ} {B w : ℝ} (hr : IsResponse b a x y) (hx : ∀ v ∈ x, |v| ≤ B) (hw : w ∈ y) : 0 ≤ B := by
  cases x with
  | nil => have := hr.1; simp at this; subst this; simp at hw
  | cons v _ => exact (abs_nonneg v).trans (hx v (by simp))

/-- **C86**, the amplification of the recursive part at most doubles when its coefficients change little compared to the amplification. -/
theorem C86_gain (a a' : List ℝ) (M δ : ℝ) (hM : IsGain a M) (hc : CoefClose a a' δ) (hδ : M * (a.length * δ) ≤ 1 / 2) : IsGain a' (2 * M) := by
  refine ⟨by have := hM.1; linarith, fun x y B hr hx w hw => ?_⟩
  have hB := nonneg_of_bound hr hx hw
  obtain ⟨Y, h0, h1, h2⟩ := exists_max y
  have key := gain_taps hM y (B + a.length * δ * Y) (fun n hn => by
    have hn' : n < x.length := by rw [← hr.1]; exact hn
    have e1 : taps a' y n = taps [1] x n := response_taps hr hn'
    have e2 := close_sum hc y Y h0 h1 n
    have e3 := taps_bound [1] x B hB hx n
    have e4 : (∑ k ∈ range ([1] : List ℝ).length, |sig ([1] : List ℝ) (([1] : List ℝ).length - 1 - k)|) = 1 := by simp [sig]
    rw [e4, one_mul] at e3
    rw [← e1] at e3
    rw [abs_le] at e2 e3 ⊢
    constructor <;> linarith [e2.1, e2.2, e3.1, e3.2])
  have hY : Y ≤ M * (B + a.length * δ * Y) := by
    rcases h2 with h2 | ⟨v, hv, h2⟩
    · have := key w hw
      rw [h2] at this ⊢
      exact (abs_nonneg w).trans this
    · rw [← h2]
      rw [h2]
      have := key v hv
      rwa [h2] at this
  have h3 : M * (a.length * δ) * Y ≤ 1 / 2 * Y := mul_le_mul_of_nonneg_right hδ h0
  have h4 : M * (B + a.length * δ * Y) = M * B + M * (a.length * δ) * Y := by ring
  have := h1 w hw
  linarith

private theorem exists_delta {a : List ℝ} {M : ℝ} (hM : 0 ≤ M) (hlead : sig a (a.length - 1) ≠ 0) :
    ∃ δ, 0 < δ ∧ δ ≤ 1 ∧ δ ≤ |sig a (a.length - 1)| / 2 ∧ M * (a.length * δ) ≤ 1 / 2 := by
  have hl := abs_pos.2 hlead
  obtain ⟨d, hd⟩ : ∃ d, d = 1 / (2 * (M * a.length + 1)) := ⟨_, rfl⟩
  have hMa : 0 ≤ M * a.length := by positivity
  have hd0 : 0 < d := by rw [hd]; positivity
  have hd1 : M * (a.length * d) ≤ 1 / 2 := by
    rw [hd]
    have : M * (a.length * (1 / (2 * (M * a.length + 1)))) = (M * a.length) / (M * a.length + 1) / 2 := by field_simp
    rw [this]
    have : (M * a.length) / (M * a.length + 1) ≤ 1 := (div_le_one (by positivity)).2 (by linarith)
    linarith
  refine ⟨min d (min 1 (|sig a (a.length - 1)| / 2)), by positivity, (min_le_right _ _).trans (min_le_left _ _),
    (min_le_right _ _).trans (min_le_right _ _), le_trans ?_ hd1⟩
  exact mul_le_mul_of_nonneg_left (mul_le_mul_of_nonneg_left (min_le_left _ _) (by positivity)) hM

private theorem lead_close {a a' : List ℝ} {δ : ℝ} (hc : CoefClose a a' δ) (hlead : sig a (a.length - 1) ≠ 0) (hδ : δ ≤ |sig a (a.length - 1)| / 2) :
    |sig a (a.length - 1)| / 2 ≤ |sig a' (a'.length - 1)| := by
  have hp : 0 < a.length := by
    rcases Nat.eq_zero_or_pos a.length with h | h
    · rw [List.length_eq_zero_iff] at h; subst h; simp [sig] at hlead
    · exact h
  rw [hc.1]
  have h1 := hc.2 (a.length - 1) (by omega)
  have h2 := abs_sub_abs_le_abs_sub (sig a (a.length - 1)) (sig a' (a.length - 1))
  rw [abs_sub_comm] at h1
  linarith

/-- **C86**, a stable filter stays stable when its coefficients change little enough. -/
theorem C86_stays_stable (sys : TransferFn ℝ) (hlead : sig sys.den (sys.den.length - 1) ≠ 0) (hst : sys.IsStable) :
    ∃ δ, 0 < δ ∧ ∀ sys' : TransferFn ℝ, CoefClose sys.den sys'.den δ → sys'.IsStable := by
  obtain ⟨M, hM⟩ := exists_gain sys hlead hst
  obtain ⟨δ, h0, -, h1, h2⟩ := exists_delta hM.1 hlead
  refine ⟨δ, h0, fun sys' hc z hz hden => ?_⟩
  have hg := C86_gain _ _ M δ hM hc h2
  have hl' := lead_close hc hlead h1
  have hl0 : sig sys'.den (sys'.den.length - 1) ≠ 0 := by
    have := abs_pos.2 hlead
    exact abs_pos.1 (by linarith)
  obtain ⟨x, y, hr, hx, w, hw, hlt⟩ := C82_unstable ⟨[1], sys'.den⟩ hl0 z hz hden (by simp [polyEval]) (2 * M)
  have := hg.2 x y 1 hr hx w hw
  rw [mul_one] at this
  linarith

/-- The constant of the output's sensitivity. -/
noncomputable def sensConst (b a : List ℝ) (M : ℝ) : ℝ := M * (a.length * (2 * M * (coefSize b + b.length)) + b.length + coefSize b)

/-- how a change of input and coefficients shows in the output of one filter -/
private theorem one_filter (b a : List ℝ) (M : ℝ) (hM : IsGain a M) (δ0 : ℝ) (hδ0 : M * (a.length * δ0) ≤ 1 / 2) (hδ1 : δ0 ≤ 1)
    {b' a' : List ℝ} {δ : ℝ} (h0 : 0 ≤ δ) (hδ : δ ≤ δ0) (hb : CoefClose b b' δ) (ha : CoefClose a a' δ) {x x' y y' : List ℝ} {X ε : ℝ}
    (hr : IsResponse b a x y) (hr' : IsResponse b' a' x' y') (hl : x'.length = x.length) (hX : 0 ≤ X) (hε : 0 ≤ ε) (hx : ∀ v ∈ x, |v| ≤ X)
    (hxx : ∀ n, n < x.length → |sig x' n - sig x n| ≤ ε) :
    ∀ n, n < x.length → |sig y' n - sig y n| ≤ sensConst b a M * (ε + δ * (X + ε)) := by
  have hM0 := hM.1
  have hx' : ∀ v ∈ x', |v| ≤ X + ε := by
    intro v hv
    obtain ⟨k, hk, rfl⟩ := List.mem_iff_getElem.1 hv
    have hk' : k < x.length := by omega
    have e1 : sig x' k = x'[k] := by simp [sig, hk]
    have e2 : sig x k = x[k] := by simp [sig, hk']
    have h1 := hxx k hk'
    have h2 := hx _ (List.getElem_mem hk')
    rw [e1, e2] at h1
    rw [abs_le] at h1 h2 ⊢
    constructor <;> linarith [h1.1, h1.2, h2.1, h2.2]
  have hg := C86_gain a a' M δ hM ha (le_trans (mul_le_mul_of_nonneg_left (mul_le_mul_of_nonneg_left hδ (by positivity)) hM0) hδ0)
  have hXε : 0 ≤ X + ε := by linarith
  have hcb := coefSize_nonneg b
  -- the perturbed output is bounded
  obtain ⟨Y, hYd⟩ : ∃ Y, Y = 2 * M * ((coefSize b + b.length) * (X + ε)) := ⟨_, rfl⟩
  have hY0 : 0 ≤ Y := by rw [hYd]; positivity
  have hY : ∀ w ∈ y', |w| ≤ Y := by
    intro w hw
    rw [hYd]
    refine gain_taps hg y' _ (fun n hn => ?_) w hw
    have hn' : n < x'.length := by rw [← hr'.1]; exact hn
    rw [response_taps hr' hn']
    have e1 := close_sum hb x' _ hXε hx' n
    have e2 := taps_bound b x' _ hXε hx' n
    have e3 : (b.length : ℝ) * δ * (X + ε) ≤ b.length * (X + ε) := by
      apply mul_le_mul_of_nonneg_right _ hXε
      have : (b.length : ℝ) * δ ≤ b.length * 1 := mul_le_mul_of_nonneg_left (by linarith) (by positivity)
      linarith
    have e4 : (coefSize b + b.length) * (X + ε) = coefSize b * (X + ε) + b.length * (X + ε) := by ring
    rw [e4]
    unfold coefSize
    rw [abs_le] at e1 e2 ⊢
    constructor <;> linarith [e1.1, e1.2, e2.1, e2.2]
  intro n hn
  have key := perturbed hM (b := b) (x := x) (ŷ := y') (by rw [hr'.1, hl]) (ε := a.length * δ * Y + b.length * δ * (X + ε) + coefSize b * ε)
    (fun m hm => by
      have e1 := close_sum ha y' Y hY0 hY m
      have e2 := close_sum hb x' _ hXε hx' m
      have e3 : |taps b x' m - taps b x m| ≤ coefSize b * ε := by
        rw [← taps_sub hl]
        refine taps_bound b _ ε hε ?_ m
        intro v hv
        obtain ⟨k, hk, rfl⟩ := List.mem_iff_getElem.1 hv
        have hk1 : k < x.length := by simp [hl] at hk; exact hk
        have hk2 : k < x'.length := by omega
        have := hxx k hk1
        have e1 : sig x' k = x'[k] := by simp [sig, hk2]
        have e2 : sig x k = x[k] := by simp [sig, hk1]
        rw [e1, e2] at this
        simpa using this
      have e4 : taps a' y' m = taps b' x' m := response_taps hr' (by omega)
      rw [e4] at e1
      rw [abs_le] at e1 e2 e3 ⊢
      constructor <;> linarith [e1.1, e1.2, e2.1, e2.2, e3.1, e3.2]) hr n hn
  refine key.trans ?_
  unfold sensConst
  rw [mul_assoc M]
  apply mul_le_mul_of_nonneg_left _ hM0
  rw [hYd]
  have h5 : (0 : ℝ) ≤ coefSize b * (δ * (X + ε)) := by positivity
  have h6 : (0 : ℝ) ≤ (a.length * (2 * M * (coefSize b + b.length)) + b.length) * ε := by positivity
  have e : (a.length * (2 * M * (coefSize b + b.length)) + b.length + coefSize b) * (ε + δ * (X + ε)) =
    a.length * δ * (2 * M * ((coefSize b + b.length) * (X + ε))) + b.length * δ * (X + ε) + coefSize b * ε + coefSize b * (δ * (X + ε)) +
      (a.length * (2 * M * (coefSize b + b.length)) + b.length) * ε := by ring
  linarith

/-- **C86**, the output: for every stable filter the output of the filter with the inexact coefficients stays close to that of the exact one
for inputs of any length. -/
theorem C86_output (sys : TransferFn ℝ) (hlead : sig sys.den (sys.den.length - 1) ≠ 0) (hst : sys.IsStable) :
    ∃ C δ₀ : ℝ, 0 < δ₀ ∧ ∀ (sys' : TransferFn ℝ) (δ : ℝ), 0 ≤ δ → δ ≤ δ₀ → CoefClose sys.num sys'.num δ → CoefClose sys.den sys'.den δ →
      ∀ (x y y' : List ℝ) (X : ℝ), IsResponse sys.num sys.den x y → IsResponse sys'.num sys'.den x y' → (∀ v ∈ x, |v| ≤ X) →
      ∀ n, n < x.length → |sig y' n - sig y n| ≤ C * (δ * X) := by
  obtain ⟨M, hM⟩ := exists_gain sys hlead hst
  obtain ⟨δ₀, h0, h1, -, h2⟩ := exists_delta hM.1 hlead
  refine ⟨sensConst sys.num sys.den M, δ₀, h0, fun sys' δ hd0 hd hb ha x y y' X hr hr' hx n hn => ?_⟩
  have hX : 0 ≤ X := (abs_nonneg _).trans (hx _ (List.getElem_mem hn))
  have := one_filter sys.num sys.den M hM δ₀ h2 h1 hd0 hd hb ha hr hr' rfl hX le_rfl hx (by simp) n hn
  rw [zero_add, add_zero] at this
  exact this

/-! ### the frequency response -/

private theorem close_poly {c c' : List ℝ} {δ : ℝ} (h : CoefClose c c' δ) {z : ℂ} (hz : ‖z‖ = 1) :
    ‖polyEval (algebraMap ℝ ℂ) c' z - polyEval (algebraMap ℝ ℂ) c z‖ ≤ c.length * δ := by
  rw [polyEval_sum, polyEval_sum, h.1, ← sum_sub_distrib]
  refine (norm_sum_le _ _).trans ?_
  have : ∀ i ∈ range c.length, ‖algebraMap ℝ ℂ (sig c' i) * z ^ i - algebraMap ℝ ℂ (sig c i) * z ^ i‖ ≤ δ := by
    intro i hi
    rw [← sub_mul, norm_mul, norm_pow, hz, one_pow, mul_one, ← map_sub]
    have := h.2 i (mem_range.1 hi)
    simpa [Complex.norm_real, ← Complex.ofReal_sub] using this
  refine (sum_le_sum this).trans ?_
  rw [sum_const, card_range, nsmul_eq_mul]

private theorem poly_bound (c : List ℝ) {z : ℂ} (hz : ‖z‖ = 1) : ‖polyEval (algebraMap ℝ ℂ) c z‖ ≤ ∑ i ∈ range c.length, |sig c i| := by
  rw [polyEval_sum]
  refine (norm_sum_le _ _).trans (sum_le_sum fun i _ => ?_)
  rw [norm_mul, norm_pow, hz, one_pow, mul_one]
  simp

private theorem poly_lower (a : List ℝ) (h : ∀ z : ℂ, 1 ≤ ‖z‖ → polyEval Complex.ofReal a z ≠ 0) :
    ∃ D, 0 < D ∧ ∀ z : ℂ, ‖z‖ = 1 → D ≤ ‖polyEval (algebraMap ℝ ℂ) a z‖ := by
  have hcont : Continuous fun z : ℂ => ‖polyEval (algebraMap ℝ ℂ) a z‖ := by
    simp only [polyEval_sum]
    fun_prop
  obtain ⟨z₀, hz₀, hmin⟩ := (isCompact_sphere (0 : ℂ) 1).exists_isMinOn (NormedSpace.sphere_nonempty.2 zero_le_one) hcont.continuousOn
  rw [mem_sphere_zero_iff_norm] at hz₀
  refine ⟨_, norm_pos_iff.2 (h z₀ hz₀.ge), fun z hz => ?_⟩
  exact hmin (mem_sphere_zero_iff_norm.2 hz)

/-- **C86**, the frequency response: a change of the coefficients by `δ` changes the response by at most `C * δ` at every frequency. -/
theorem C86_frequency_response (sys : TransferFn ℝ) (hst : sys.IsStable) :
    ∃ C δ₀ : ℝ, 0 < δ₀ ∧ ∀ (sys' : TransferFn ℝ) (δ : ℝ), 0 ≤ δ → δ ≤ δ₀ → CoefClose sys.num sys'.num δ → CoefClose sys.den sys'.den δ →
      ∀ w : ℝ, ‖sys'.eval (Complex.exp (w * Complex.I)) - sys.eval (Complex.exp (w * Complex.I))‖ ≤ C * δ := by
  obtain ⟨D, hD, hlow⟩ := poly_lower sys.den hst
  obtain ⟨B, hB⟩ : ∃ B, B = ∑ i ∈ range sys.num.length, |sig sys.num i| := ⟨_, rfl⟩
  have hB0 : 0 ≤ B := by rw [hB]; exact sum_nonneg fun _ _ => abs_nonneg _
  refine ⟨(sys.num.length * (2 / D)) + B * sys.den.length * (2 / D) * (1 / D), D / (2 * (sys.den.length + 1)), by positivity,
    fun sys' δ h0 hδ hb ha w => ?_⟩
  obtain ⟨z, hz⟩ : ∃ z, z = Complex.exp (w * Complex.I) := ⟨_, rfl⟩
  rw [← hz]
  have hz1 : ‖z‖ = 1 := by rw [hz]; exact Complex.norm_exp_ofReal_mul_I w
  have e1 := close_poly hb hz1
  have e2 := close_poly ha hz1
  have e3 := poly_bound sys.num hz1
  have e4 := hlow z hz1
  rw [← hB] at e3
  unfold TransferFn.eval
  revert e1 e2 e3 e4
  generalize polyEval (algebraMap ℝ ℂ) sys'.num z = b'
  generalize polyEval (algebraMap ℝ ℂ) sys'.den z = a'
  generalize polyEval (algebraMap ℝ ℂ) sys.num z = b
  generalize polyEval (algebraMap ℝ ℂ) sys.den z = a
  intro e1 e2 e3 e4
  have e5 : (sys.den.length : ℝ) * δ ≤ D / 2 := by
    have : (sys.den.length : ℝ) * δ ≤ sys.den.length * (D / (2 * (sys.den.length + 1))) := mul_le_mul_of_nonneg_left hδ (by positivity)
    refine this.trans ?_
    rw [show (sys.den.length : ℝ) * (D / (2 * (sys.den.length + 1))) = (sys.den.length / (sys.den.length + 1)) * (D / 2) by field_simp]
    have : (sys.den.length : ℝ) / (sys.den.length + 1) ≤ 1 := (div_le_one (by positivity)).2 (by linarith)
    have := mul_le_mul_of_nonneg_right this (show 0 ≤ D / 2 by positivity)
    linarith
  have e6 : D / 2 ≤ ‖a'‖ := by
    have := norm_sub_norm_le a a'
    rw [norm_sub_rev] at this
    linarith
  have ha0 : a ≠ 0 := norm_pos_iff.1 (by linarith)
  have ha0' : a' ≠ 0 := norm_pos_iff.1 (by linarith)
  have e7 : b' / a' - b / a = (b' - b) * a'⁻¹ - b * (a' - a) * a'⁻¹ * a⁻¹ := by
    field_simp
    ring
  have e8 : ‖a'⁻¹‖ ≤ 2 / D := by
    rw [norm_inv, inv_eq_one_div, div_le_div_iff₀ (by linarith) hD]
    linarith
  have e9 : ‖a⁻¹‖ ≤ 1 / D := by
    rw [norm_inv, inv_eq_one_div]
    exact one_div_le_one_div_of_le hD e4
  rw [e7]
  refine (norm_sub_le _ _).trans ?_
  rw [norm_mul, norm_mul, norm_mul, norm_mul]
  have f1 : ‖b' - b‖ * ‖a'⁻¹‖ ≤ sys.num.length * δ * (2 / D) := mul_le_mul e1 e8 (norm_nonneg _) (by positivity)
  have f2 : ‖b‖ * ‖a' - a‖ ≤ B * (sys.den.length * δ) := mul_le_mul e3 e2 (norm_nonneg _) hB0
  have f3 : ‖b‖ * ‖a' - a‖ * ‖a'⁻¹‖ ≤ B * (sys.den.length * δ) * (2 / D) := mul_le_mul f2 e8 (norm_nonneg _) (by positivity)
  have f4 : ‖b‖ * ‖a' - a‖ * ‖a'⁻¹‖ * ‖a⁻¹‖ ≤ B * (sys.den.length * δ) * (2 / D) * (1 / D) := mul_le_mul f3 e9 (norm_nonneg _) (by positivity)
  have f5 : ((sys.num.length * (2 / D)) + B * sys.den.length * (2 / D) * (1 / D)) * δ =
    sys.num.length * δ * (2 / D) + B * (sys.den.length * δ) * (2 / D) * (1 / D) := by ring
  linarith

/-! ### cascades -/

private theorem cascade_sens : ∀ (secs : List (SectionCoeffs ℝ)), (∀ s ∈ secs, (⟨s.num, s.den ++ [1]⟩ : TransferFn ℝ).IsStable) →
    ∃ C δ₀ : ℝ, 0 ≤ C ∧ 0 < δ₀ ∧ ∀ (secs' : List (SectionCoeffs ℝ)) (δ : ℝ), 0 ≤ δ → δ ≤ δ₀ →
      List.Forall₂ (fun s s' => CoefClose s.num s'.num δ ∧ CoefClose s.den s'.den δ) secs secs' →
      ∀ (x x' y y' : List ℝ) (X ε : ℝ), IsCascadeResponse secs x y → IsCascadeResponse secs' x' y' → x'.length = x.length → 0 ≤ X → 0 ≤ ε →
      (∀ v ∈ x, |v| ≤ X) → (∀ n, n < x.length → |sig x' n - sig x n| ≤ ε) →
      ∀ n, n < x.length → |sig y' n - sig y n| ≤ C * (ε + δ * X)
  | [], _ => by
    refine ⟨1, 1, zero_le_one, one_pos, fun secs' δ h0 hδ hf x x' y y' X ε hr hr' hl hX hε hx hxx n hn => ?_⟩
    cases hf
    have e1 : y = x := hr
    have e2 : y' = x' := hr'
    rw [e1, e2]
    have := hxx n hn
    have : 0 ≤ δ * X := by positivity
    linarith
  | s :: ss, hst => by
    obtain ⟨C, δ₀, hC, h0, ih⟩ := cascade_sens ss (fun t ht => hst t (by simp [ht]))
    have hs := hst s (by simp)
    have hlead : sig (s.den ++ [1]) ((s.den ++ [1]).length - 1) ≠ 0 := by simp [sig]
    obtain ⟨M, hM⟩ := exists_gain ⟨s.num, s.den ++ [1]⟩ hlead hs
    obtain ⟨δ₁, h1, h2, -, h3⟩ := exists_delta hM.1 hlead
    obtain ⟨K, hK⟩ := C82_bounded ⟨s.num, s.den ++ [1]⟩ hlead hs
    obtain ⟨S, hS⟩ : ∃ S, S = sensConst s.num (s.den ++ [1]) M := ⟨_, rfl⟩
    have hM0 := hM.1
    have hcb := coefSize_nonneg s.num
    have hS0 : 0 ≤ S := by rw [hS]; unfold sensConst; positivity
    refine ⟨C * (2 * S + |K|), min δ₀ δ₁, by positivity, by positivity, fun secs' δ hd0 hδ hf x x' y y' X ε hr hr' hl hX hε hx hxx n hn => ?_⟩
    cases hf with
    | cons hss hrest =>
      rename_i s' ss'
      obtain ⟨m, hm1, hm2⟩ := hr
      obtain ⟨m', hm1', hm2'⟩ := hr'
      have hden : CoefClose (s.den ++ [1]) (s'.den ++ [1]) δ := by
        refine ⟨by simp [hss.2.1], fun i hi => ?_⟩
        have hl' := hss.2.1
        rcases Nat.lt_or_ge i s.den.length with c | c
        · have e1 : sig (s.den ++ [1]) i = sig s.den i := by simp [sig, List.getD_eq_getElem?_getD, List.getElem?_append_left c]
          have e2 : sig (s'.den ++ [1]) i = sig s'.den i := by
            simp [sig, List.getD_eq_getElem?_getD, List.getElem?_append_left (show i < s'.den.length by omega)]
          rw [e1, e2]
          exact hss.2.2 i c
        · have hi' : i = s.den.length := by simp at hi; omega
          have e1 : sig (s.den ++ [1]) i = 1 := by rw [hi']; simp [sig]
          have e2 : sig (s'.den ++ [1]) i = 1 := by rw [hi', ← hl']; simp [sig]
          rw [e1, e2]
          simpa using hd0
      have hd1 : δ ≤ δ₁ := hδ.trans (min_le_right _ _)
      have hdm := one_filter s.num (s.den ++ [1]) M hM δ₁ h3 h2 hd0 hd1 hss.1 hden hm1 hm1' hl hX hε hx hxx
      rw [← hS] at hdm
      have hlm : m.length = x.length := hm1.1
      have hlm' : m'.length = x.length := by rw [hm1'.1, hl]
      have hmb : ∀ v ∈ m, |v| ≤ |K| * X := fun v hv =>
        (hK x m X hm1 hx v hv).trans (mul_le_mul_of_nonneg_right (le_abs_self K) hX)
      have hXε : 0 ≤ X + ε := by linarith
      have := ih ss' δ hd0 (hδ.trans (min_le_left _ _)) hrest m m' y y' (|K| * X) (S * (ε + δ * (X + ε))) hm2 hm2' (by omega) (by positivity)
        (by positivity) hmb (by rw [hlm]; exact hdm) n (by omega)
      refine this.trans ?_
      rw [mul_assoc]
      apply mul_le_mul_of_nonneg_left _ hC
      have h4 : δ * ε ≤ 1 * ε := mul_le_mul_of_nonneg_right (by linarith) hε
      have h5 : S * (δ * ε) ≤ S * ε := mul_le_mul_of_nonneg_left (by linarith) hS0
      have h6 : 0 ≤ S * (δ * X) := by positivity
      have h7 : 0 ≤ |K| * ε := by positivity
      have e1 : S * (ε + δ * (X + ε)) + δ * (|K| * X) = S * ε + S * (δ * X) + S * (δ * ε) + |K| * (δ * X) := by ring
      have e2 : (2 * S + |K|) * (ε + δ * X) = 2 * (S * ε) + 2 * (S * (δ * X)) + |K| * ε + |K| * (δ * X) := by ring
      linarith

/-- **C86**, cascades of stable second order sections. -/
theorem C86_cascade (secs : List (SectionCoeffs ℝ)) (hst : ∀ s ∈ secs, (⟨s.num, s.den ++ [1]⟩ : TransferFn ℝ).IsStable) :
    ∃ C δ₀ : ℝ, 0 < δ₀ ∧ ∀ (secs' : List (SectionCoeffs ℝ)) (δ : ℝ), 0 ≤ δ → δ ≤ δ₀ →
      List.Forall₂ (fun s s' => CoefClose s.num s'.num δ ∧ CoefClose s.den s'.den δ) secs secs' →
      ∀ (x y y' : List ℝ) (X : ℝ), IsCascadeResponse secs x y → IsCascadeResponse secs' x y' → (∀ v ∈ x, |v| ≤ X) →
      ∀ n, n < x.length → |sig y' n - sig y n| ≤ C * (δ * X) := by
  obtain ⟨C, δ₀, -, h0, h⟩ := cascade_sens secs hst
  refine ⟨C, δ₀, h0, fun secs' δ hd0 hd hf x y y' X hr hr' hx n hn => ?_⟩
  have hX : 0 ≤ X := (abs_nonneg _).trans (hx _ (List.getElem_mem hn))
  have := h secs' δ hd0 hd hf x x y y' X 0 hr hr' rfl hX le_rfl hx (by simp) n hn
  rwa [zero_add] at this

/-! ### inexact coefficients and inexact arithmetic together -/

private theorem dotQ_mono : ∀ (c c' : List ℝ) (P P' : ℝ), List.Forall₂ (fun v v' => |v'| ≤ |v| + 1) c c' → P' ≤ P →
    dotQ c' P' ≤ dotQ (c.map fun v => |v| + 1) P
  | [], _, P, P', h, hP => by cases h; exact hP
  | v :: c, _, P, P', h, hP => by
    cases h with
    | cons h1 h2 =>
      simp only [List.map_cons, dotQ]
      refine dotQ_mono c _ _ _ h2 ?_
      rw [abs_of_nonneg (show 0 ≤ |v| + 1 by positivity)]
      linarith

private theorem close_forall {c c' : List ℝ} {δ : ℝ} (h : CoefClose c c' δ) (hδ : δ ≤ 1) : List.Forall₂ (fun v v' => |v'| ≤ |v| + 1) c c' := by
  rw [List.forall₂_iff_get]
  refine ⟨h.1.symm, fun i h1 h2 => ?_⟩
  have := h.2 i h1
  have e1 : sig c i = c.get ⟨i, h1⟩ := by simp [sig, h1]
  have e2 : sig c' i = c'.get ⟨i, h2⟩ := by simp [sig, h2]
  rw [e1, e2] at this
  have h3 := abs_sub_abs_le_abs_sub (c'.get ⟨i, h2⟩) (c.get ⟨i, h1⟩)
  linarith

private theorem close_dropLast {c c' : List ℝ} {δ : ℝ} (h : CoefClose c c' δ) : CoefClose c.dropLast c'.dropLast δ := by
  refine ⟨by simp [h.1], fun i hi => ?_⟩
  have hi' : i < c.length - 1 := by simpa using hi
  have e : ∀ l : List ℝ, i < l.length - 1 → sig l.dropLast i = sig l i := by
    intro l hl
    simp [sig, List.getD_eq_getElem?_getD, hl, show i < l.length by omega]
  rw [e c hi', e c' (by rw [h.1]; exact hi')]
  exact h.2 i (by omega)

private theorem close_size {c c' : List ℝ} {δ : ℝ} (h : CoefClose c c' δ) (hδ : δ ≤ 1) : coefSize c' ≤ coefSize c + c.length := by
  unfold coefSize
  rw [h.1]
  have : (c.length : ℝ) = ∑ k ∈ range c.length, (1 : ℝ) := by simp
  rw [this, ← sum_add_distrib]
  refine sum_le_sum fun k hk => ?_
  have hk' := mem_range.1 hk
  have := h.2 (c.length - 1 - k) (by omega)
  have h3 := abs_sub_abs_le_abs_sub (sig c' (c.length - 1 - k)) (sig c (c.length - 1 - k))
  linarith

private theorem dotQ_close {c c' : List ℝ} {δ : ℝ} (h : CoefClose c c' δ) (hδ : δ ≤ 1) : dotQ c' 0 ≤ dotQ (c.map fun v => |v| + 1) 0 :=
  dotQ_mono c c' 0 0 (close_forall h hδ) le_rfl

/-- the constant of direct form I is bounded in a neighbourhood of the coefficients -/
private theorem dfiConst_close (b a : List ℝ) (M : ℝ) (hM : 0 ≤ M) (hlead : sig a (a.length - 1) ≠ 0) :
    ∃ C, ∀ (b' a' : List ℝ) (δ : ℝ), δ ≤ 1 → δ ≤ |sig a (a.length - 1)| / 2 → CoefClose b b' δ → CoefClose a a' δ → dfiConst b' a' M ≤ C := by
  obtain ⟨L, hL⟩ : ∃ L, L = |sig a (a.length - 1)| := ⟨_, rfl⟩
  have hL0 : 0 < L := by rw [hL]; exact abs_pos.2 hlead
  obtain ⟨Q, hQ⟩ : ∃ Q, Q = dotQ (b.map fun v => |v| + 1) 0 + dotQ (a.dropLast.map fun v => |v| + 1) 0 := ⟨_, rfl⟩
  obtain ⟨S, hS⟩ : ∃ S, S = coefSize b + b.length := ⟨_, rfl⟩
  have hS0 : 0 ≤ S := by rw [hS]; have := coefSize_nonneg b; positivity
  obtain ⟨N, hN⟩ : ∃ N, N = 2 / L := ⟨_, rfl⟩
  have hN0 : 0 ≤ N := by rw [hN]; positivity
  refine ⟨1 + N + M * ((L + 1) * (4 * Q * (2 * N + 1) + 1 + 4 * Q * (N + 1) + N * (4 * Q))) * (2 * (M * S) + 5) + 4 * Q * (2 * N + 1) * (2 * (M * S) + 3),
    fun b' a' δ h1 h2 hb ha => ?_⟩
  have l1 := lead_close ha hlead h2
  have l2 : |sig a' (a'.length - 1)| ≤ L + 1 := by
    have hp : 0 < a.length := by
      rcases Nat.eq_zero_or_pos a.length with h | h
      · rw [List.length_eq_zero_iff] at h; subst h; simp [sig] at hlead
      · exact h
    have := ha.2 (a.length - 1) (by omega)
    have h3 := abs_sub_abs_le_abs_sub (sig a' (a.length - 1)) (sig a (a.length - 1))
    rw [ha.1, hL]
    linarith
  rw [← hL] at l1
  have q1 := dotQ_close hb h1
  have q2 := dotQ_close (close_dropLast ha) h1
  have q3 := close_size hb h1
  have q0 : 0 ≤ dotQ b' 0 := le_dotQ b' 0 le_rfl
  have q0' : 0 ≤ dotQ a'.dropLast 0 := le_dotQ _ 0 le_rfl
  unfold dfiConst stepH
  simp only
  have hn : |1 / sig a' (a'.length - 1)| ≤ N := by
    rw [abs_div, abs_one, hN, div_le_div_iff₀ (by linarith) hL0]
    linarith
  rw [← hS] at q3
  have q4 : dotQ b' 0 + dotQ a'.dropLast 0 ≤ Q := by rw [hQ]; linarith
  have q5 : 0 ≤ dotQ b' 0 + dotQ a'.dropLast 0 := by linarith
  have c0 := coefSize_nonneg b'
  revert hn q3 q4 q5 l2 c0
  generalize dotQ b' 0 + dotQ a'.dropLast 0 = q
  generalize coefSize b' = s
  generalize hv : |1 / sig a' (a'.length - 1)| = v
  generalize hl : |sig a' (a'.length - 1)| = l
  intro l2 hn q3 q4 q5 c0
  have v0 : 0 ≤ v := by rw [← hv]; positivity
  have l0 : 0 ≤ l := by rw [← hl]; positivity
  have Q0 : 0 ≤ Q := q5.trans q4
  gcongr

/-- **C86**, direct form I with inexact coefficients and inexact arithmetic: the output is finite and as close to that of the exact filter as
the error of the coefficients and the rounding unit allow, for inputs of any length. -/
theorem C86_direct_form_I (sys : TransferFn ℝ) (hlead : sig sys.den (sys.den.length - 1) ≠ 0) (hst : sys.IsStable) :
    ∃ C : ℝ, 0 < C ∧ ∀ (F : Type) [Zero F] [One F] [Add F] [Sub F] [Mul F] [Div F] [Fma F] [FloatFun F] (A : FloatArithFun F) (fsys : TransferFn F)
      (δ : ℝ) (ord : ℕ) (x : List F) (X : ℝ), A.finite 1 → A.val 1 = 1 → 0 ≤ δ → CoefClose sys.num (fsys.num.map A.val) δ →
      CoefClose sys.den (fsys.den.map A.val) δ → (∀ c ∈ fsys.num, A.finite c) → (∀ c ∈ fsys.den, A.finite c) → fsys.order ≤ ord → 0 ≤ X →
      (∀ v ∈ x, A.finite v ∧ |A.val v| ≤ X) → C * δ ≤ 1 → C * (A.u + A.tiny) ≤ 1 → C * (1 + X) ≤ A.huge →
      ∃ ŷ s, DirectFormI.feed fsys x (DirectFormI.make ord) = .ok (ŷ, s) ∧ ŷ.length = x.length ∧ (∀ w ∈ ŷ, A.finite w) ∧
        ∀ y, IsResponse sys.num sys.den (x.map A.val) y → ∀ n, n < x.length →
          |A.val (sig ŷ n) - sig y n| ≤ C * (δ * X + A.u * X + A.tiny * (1 + X)) := by
  obtain ⟨M, hM⟩ := exists_gain sys hlead hst
  obtain ⟨δ₀, h0, h1, h2, h3⟩ := exists_delta hM.1 hlead
  obtain ⟨C₁, hC₁⟩ := dfiConst_close sys.num sys.den (2 * M) (by have := hM.1; linarith) hlead
  obtain ⟨C₂, hC₂⟩ : ∃ C₂, C₂ = sensConst sys.num sys.den M := ⟨_, rfl⟩
  obtain ⟨C, hC⟩ : ∃ C, C = |C₁| + |C₂| + 1 / δ₀ := ⟨_, rfl⟩
  have hid : 0 < 1 / δ₀ := by positivity
  have hCpos : 0 < C := by rw [hC]; positivity
  have hC1 : C₁ ≤ C := by rw [hC]; have := le_abs_self C₁; have := abs_nonneg C₂; linarith
  have hC2 : C₂ ≤ C := by rw [hC]; have := le_abs_self C₂; have := abs_nonneg C₁; linarith
  have hC3 : 1 / δ₀ ≤ C := by rw [hC]; have := abs_nonneg C₁; have := abs_nonneg C₂; linarith
  refine ⟨C, hCpos, fun F _ _ _ _ _ _ _ _ A fsys δ ord x X f1 v1 hδ hb ha hbf haf hord hX hx hCδ hp ho => ?_⟩
  have hδ' : δ ≤ δ₀ := by
    have : 1 / δ₀ * δ ≤ 1 := (mul_le_mul_of_nonneg_right hC3 hδ).trans hCδ
    rw [one_div, inv_mul_le_iff₀ h0] at this
    linarith
  have hg : IsGain (fsys.den.map A.val) (2 * M) :=
    C86_gain _ _ M δ hM ha (le_trans (mul_le_mul_of_nonneg_left (mul_le_mul_of_nonneg_left hδ' (by positivity)) hM.1) h3)
  have hl' := lead_close ha hlead (hδ'.trans h2)
  have hl0 : sig (fsys.den.map A.val) ((fsys.den.map A.val).length - 1) ≠ 0 := by
    have := abs_pos.2 hlead
    exact abs_pos.1 (by linarith)
  have hK := hC₁ _ _ δ (hδ'.trans h1) (hδ'.trans h2) hb ha
  have hu0 := A.u_nonneg
  have ht0 := A.tiny_nonneg
  obtain ⟨ŷ, s, g1, g2, g3, g4⟩ := C83_direct_form_I_explicit _ _ (2 * M) hl0 hg A f1 v1 fsys rfl rfl hbf haf ord hord x X hX hx
    (le_trans (mul_le_mul_of_nonneg_right (hK.trans hC1) (by linarith)) hp) (le_trans (mul_le_mul_of_nonneg_right (hK.trans hC1) (by linarith)) ho)
  refine ⟨ŷ, s, g1, g2, g3, fun y hy n hn => ?_⟩
  obtain ⟨y', -, -, hy'⟩ := C20_directFormI ⟨fsys.num.map A.val, fsys.den.map A.val⟩ hl0 _ le_rfl (x.map A.val)
  have k1 := g4 y' hy' n hn
  have k2 := one_filter sys.num sys.den M hM δ₀ h3 h1 hδ hδ' hb ha hy hy' rfl hX le_rfl (by simpa using fun v hv => (hx v hv).2) (by simp) n (by simpa using hn)
  rw [zero_add, add_zero, ← hC₂] at k2
  have hnn : 0 ≤ A.u * X + A.tiny * (1 + X) := by positivity
  have k3 := k1.trans (mul_le_mul_of_nonneg_right (hK.trans hC1) hnn)
  have k4 := k2.trans (mul_le_mul_of_nonneg_right hC2 (by positivity))
  have e : A.val (sig ŷ n) - sig y n = (A.val (sig ŷ n) - sig y' n) + (sig y' n - sig y n) := by ring
  rw [e]
  refine (abs_add_le _ _).trans ((add_le_add k3 k4).trans (le_of_eq ?_))
  ring

/-- the constant of direct form II is bounded in a neighbourhood of the coefficients -/
private theorem dfiiConst_close (b a : List ℝ) (M : ℝ) (hM : 0 ≤ M) :
    ∃ C, ∀ (b' a' : List ℝ) (δ : ℝ), δ ≤ 1 → CoefClose b b' δ → CoefClose a a' δ → dfiiConst b' a' M ≤ C := by
  obtain ⟨Q, hQ⟩ : ∃ Q, Q = dotQ (b.map fun v => |v| + 1) 0 + dotQ (a.dropLast.map fun v => |v| + 1) 0 := ⟨_, rfl⟩
  refine ⟨1 + 2 * (M * (10 + 2 * Q)) + M * ((coefSize b + b.length) * (10 + 2 * Q) + (coefSize a + a.length) * Q) * (2 * M + 3) + (6 + Q) * (2 * M + 3),
    fun b' a' δ h1 hb ha => ?_⟩
  have q1 := dotQ_close hb h1
  have q2 := dotQ_close (close_dropLast ha) h1
  have q3 := close_size hb h1
  have q6 := close_size ha h1
  have q0 : 0 ≤ dotQ b' 0 := le_dotQ b' 0 le_rfl
  have q0' : 0 ≤ dotQ a'.dropLast 0 := le_dotQ _ 0 le_rfl
  have q4 : dotQ b' 0 + dotQ a'.dropLast 0 ≤ Q := by rw [hQ]; linarith
  have q5 : 0 ≤ dotQ b' 0 + dotQ a'.dropLast 0 := by linarith
  have c0 := coefSize_nonneg b'
  have c1 := coefSize_nonneg a'
  have Q0 : 0 ≤ Q := q5.trans q4
  have c2 : 0 ≤ coefSize b + b.length := c0.trans q3
  have c3 : 0 ≤ coefSize a + a.length := c1.trans q6
  unfold dfiiConst
  simp only
  gcongr

/-- **C86**, direct form II (leading coefficient exactly one, see C21) with inexact coefficients and inexact arithmetic: the output is finite and as close to that of the exact filter as
the error of the coefficients and the rounding unit allow, for inputs of any length. -/
theorem C86_direct_form_II (sys : TransferFn ℝ) (hone : sig sys.den (sys.den.length - 1) = 1) (hst : sys.IsStable) :
    ∃ C : ℝ, 0 < C ∧ ∀ (F : Type) [Zero F] [One F] [Add F] [Sub F] [Mul F] [Div F] [Fma F] [FloatFun F] (A : FloatArithFun F) (fsys : TransferFn F)
      (δ : ℝ) (ord : ℕ) (x : List F) (X : ℝ), A.finite 1 → A.val 1 = 1 → 0 ≤ δ → CoefClose sys.num (fsys.num.map A.val) δ →
      CoefClose sys.den (fsys.den.map A.val) δ → sig (fsys.den.map A.val) (fsys.den.length - 1) = 1 → (∀ c ∈ fsys.num, A.finite c) → (∀ c ∈ fsys.den, A.finite c) → fsys.order ≤ ord → 0 ≤ X →
      (∀ v ∈ x, A.finite v ∧ |A.val v| ≤ X) → C * δ ≤ 1 → C * (A.u + A.tiny) ≤ 1 → C * (1 + X) ≤ A.huge →
      ∃ ŷ s, DirectFormII.feed fsys x (DirectFormII.make ord) = .ok (ŷ, s) ∧ ŷ.length = x.length ∧ (∀ w ∈ ŷ, A.finite w) ∧
        ∀ y, IsResponse sys.num sys.den (x.map A.val) y → ∀ n, n < x.length →
          |A.val (sig ŷ n) - sig y n| ≤ C * (δ * X + A.u * X + A.tiny * (1 + X)) := by
  have hlead : sig sys.den (sys.den.length - 1) ≠ 0 := by rw [hone]; exact one_ne_zero
  obtain ⟨M, hM⟩ := exists_gain sys hlead hst
  obtain ⟨δ₀, h0, h1, h2, h3⟩ := exists_delta hM.1 hlead
  obtain ⟨C₁, hC₁⟩ := dfiiConst_close sys.num sys.den (2 * M) (by have := hM.1; linarith)
  obtain ⟨C₂, hC₂⟩ : ∃ C₂, C₂ = sensConst sys.num sys.den M := ⟨_, rfl⟩
  obtain ⟨C, hC⟩ : ∃ C, C = |C₁| + |C₂| + 1 / δ₀ := ⟨_, rfl⟩
  have hid : 0 < 1 / δ₀ := by positivity
  have hCpos : 0 < C := by rw [hC]; positivity
  have hC1 : C₁ ≤ C := by rw [hC]; have := le_abs_self C₁; have := abs_nonneg C₂; linarith
  have hC2 : C₂ ≤ C := by rw [hC]; have := le_abs_self C₂; have := abs_nonneg C₁; linarith
  have hC3 : 1 / δ₀ ≤ C := by rw [hC]; have := abs_nonneg C₁; have := abs_nonneg C₂; linarith
  refine ⟨C, hCpos, fun F _ _ _ _ _ _ _ _ A fsys δ ord x X f1 v1 hδ hb ha hone' hbf haf hord hX hx hCδ hp ho => ?_⟩
  have hδ' : δ ≤ δ₀ := by
    have : 1 / δ₀ * δ ≤ 1 := (mul_le_mul_of_nonneg_right hC3 hδ).trans hCδ
    rw [one_div, inv_mul_le_iff₀ h0] at this
    linarith
  have hg : IsGain (fsys.den.map A.val) (2 * M) :=
    C86_gain _ _ M δ hM ha (le_trans (mul_le_mul_of_nonneg_left (mul_le_mul_of_nonneg_left hδ' (by positivity)) hM.1) h3)
  have hl1 : sig (fsys.den.map A.val) ((fsys.den.map A.val).length - 1) = 1 := by rw [List.length_map]; exact hone'
  have hl0 : sig (fsys.den.map A.val) ((fsys.den.map A.val).length - 1) ≠ 0 := by rw [hl1]; exact one_ne_zero
  have hK := hC₁ _ _ δ (hδ'.trans h1) hb ha
  have hu0 := A.u_nonneg
  have ht0 := A.tiny_nonneg
  obtain ⟨ŷ, s, g1, g2, g3, g4⟩ := C83_direct_form_II_explicit _ _ (2 * M) hl1 hg A f1 v1 fsys rfl rfl hbf haf ord hord x X hX hx
    (le_trans (mul_le_mul_of_nonneg_right (hK.trans hC1) (by linarith)) hp) (le_trans (mul_le_mul_of_nonneg_right (hK.trans hC1) (by linarith)) ho)
  refine ⟨ŷ, s, g1, g2, g3, fun y hy n hn => ?_⟩
  obtain ⟨y', -, -, hy'⟩ := C20_directFormI ⟨fsys.num.map A.val, fsys.den.map A.val⟩ hl0 _ le_rfl (x.map A.val)
  have k1 := g4 y' hy' n hn
  have k2 := one_filter sys.num sys.den M hM δ₀ h3 h1 hδ hδ' hb ha hy hy' rfl hX le_rfl (by simpa using fun v hv => (hx v hv).2) (by simp) n (by simpa using hn)
  rw [zero_add, add_zero, ← hC₂] at k2
  have hnn : 0 ≤ A.u * X + A.tiny * (1 + X) := by positivity
  have k3 := k1.trans (mul_le_mul_of_nonneg_right (hK.trans hC1) hnn)
  have k4 := k2.trans (mul_le_mul_of_nonneg_right hC2 (by positivity))
  have e : A.val (sig ŷ n) - sig y n = (A.val (sig ŷ n) - sig y' n) + (sig y' n - sig y n) := by ring
  rw [e]
  refine (abs_add_le _ _).trans ((add_le_add k3 k4).trans (le_of_eq ?_))
  ring

/-! ### the hypotheses hold -/

/-- `y n = x n + y (n - 1) / 2` with the feedback coefficient off by 1/100: the error is at most 36 percent of the input level, for ever -/
example (x y y' : List ℝ) (X : ℝ) (hr : IsResponse [1] [-1 / 2, 1] x y) (hr' : IsResponse [1] [-0.51, 1] x y') (hx : ∀ v ∈ x, |v| ≤ X) :
    ∀ n, n < x.length → |sig y' n - sig y n| ≤ 0.36 * X := by
  intro n hn
  have hX : 0 ≤ X := (abs_nonneg _).trans (hx _ (List.getElem_mem hn))
  have := one_filter [1] [-1 / 2, 1] 2 (half_gain _ half_taps) (1 / 100) (by norm_num) (by norm_num) (δ := 1 / 100) (by norm_num) le_rfl
    (b' := [1]) ⟨rfl, by intro i hi; simp at hi; subst hi; norm_num [sig]⟩ (a' := [-0.51, 1])
    ⟨rfl, by intro i hi; simp at hi; interval_cases i <;> norm_num [sig, abs_le]⟩ hr hr' rfl hX le_rfl hx (by simp) n hn
  refine this.trans (le_of_eq ?_)
  norm_num [sensConst, coefSize, sig]
  ring

/-- the stable filter the theorems are applied to -/
example : (⟨[0, 1], [-1 / 2, 1]⟩ : TransferFn ℝ).IsStable ∧ CoefClose [-1 / 2, 1] [-0.51, 1] 0.01 ∧ ¬ CoefClose [-1 / 2, 1] [-0.52, 1] 0.01 := by
  refine ⟨?_, ⟨rfl, by intro i hi; simp at hi; interval_cases i <;> norm_num [sig, abs_le]⟩, fun h => ?_⟩
  · intro z hz h
    have : z = 1 / 2 := by
      simp [polyEval] at h
      linear_combination h
    rw [this] at hz
    norm_num at hz
  · have := h.2 0 (by simp)
    norm_num [sig, abs_le] at this

end Verif
