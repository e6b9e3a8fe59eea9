import Verif.Model.Rational
import Verif.Lemmas.BinaryMono
import Mathlib.Algebra.Order.Field.Basic
import Mathlib.Tactic

/-!
# C81: the conversion of a rational number to floating point

`rnd` rounds a real number to the format: integers are converted and quotients formed by rounding the exact result.
`Lemmas/BinaryMono.lean` shows that the rounding of IEEE 754 formats meets the hypotheses.
-/

set_option linter.unusedVariables false

namespace Verif

open Rational

/-- Rational.hpp:198-202, the conversion in a format: `static_cast<F>(k)` rounds `k`, the division rounds the quotient. -/
noncomputable def Rational.toReal (rnd : ℝ → ℝ) (r : Rational) : ℝ := r.toFloat (fun k => rnd k) (fun a b => rnd (a / b))

private theorem near {rnd : ℝ → ℝ} {u : ℝ} (hu : ∀ x : ℝ, 2⁻¹ ^ 65 ≤ |x| → |rnd x - x| ≤ u * |x|) {x : ℝ} (hx : 2⁻¹ ^ 65 ≤ |x|) :
    ∃ d : ℝ, |d| ≤ u ∧ rnd x = x * (1 + d) := by
  have hp : 0 < |x| := lt_of_lt_of_le (by positivity) hx
  have h0 : x ≠ 0 := abs_pos.1 hp
  refine ⟨(rnd x - x) / x, ?_, ?_⟩
  · rw [abs_div, div_le_iff₀ hp]
    exact hu x hx
  · field_simp
    ring

private theorem int_large {k : ℤ} (hk : k ≠ 0) : (2⁻¹ : ℝ) ^ 65 ≤ |(k : ℝ)| := by
  have h1 : (1 : ℝ) ≤ |(k : ℝ)| := by
    have := Int.one_le_abs hk
    exact_mod_cast this
  exact le_trans (pow_le_one₀ (by norm_num) (by norm_num)) h1

private theorem toReal_factor {rnd : ℝ → ℝ} {u : ℝ} (hu : ∀ x : ℝ, 2⁻¹ ^ 65 ≤ |x| → |rnd x - x| ≤ u * |x|) (hu4 : u ≤ 1 / 4)
    (r : Rational) (hd : 0 < r.den) (hd' : r.den < 2 ^ 63) (hn : r.num ≠ 0) :
    ∃ a b c : ℝ, |a| ≤ u ∧ |b| ≤ u ∧ |c| ≤ u ∧ r.toReal rnd = (r.num / r.den : ℝ) * ((1 + a) * (1 + c) / (1 + b)) := by
  obtain ⟨a, ha, ea⟩ := near hu (int_large hn)
  obtain ⟨b, hb, eb⟩ := near hu (int_large hd.ne')
  have hb' := abs_le.1 hb
  have ha' := abs_le.1 ha
  have hden : (0 : ℝ) < r.den := by exact_mod_cast hd
  have hq : (2⁻¹ : ℝ) ^ 65 ≤ |rnd r.num / rnd r.den| := by
    rw [ea, eb, abs_div, abs_mul, abs_mul]
    have h1 : (1 : ℝ) ≤ |(r.num : ℝ)| := by
      have := Int.one_le_abs hn
      exact_mod_cast this
    have h2 : 3 / 4 ≤ |1 + a| := by
      rw [abs_of_pos (by linarith)]; linarith
    have h3 : |1 + b| ≤ 5 / 4 := by
      rw [abs_of_pos (by linarith)]; linarith
    have h3' : 0 < |1 + b| := abs_pos.2 (by linarith)
    have h4 : |(r.den : ℝ)| ≤ 2 ^ 63 := by
      rw [abs_of_pos hden]
      exact_mod_cast hd'.le
    have h5 : 0 < |(r.den : ℝ)| := abs_pos.2 hden.ne'
    rw [le_div_iff₀ (by positivity)]
    have h6 : |(r.den : ℝ)| * |1 + b| ≤ 2 ^ 63 * (5 / 4) := mul_le_mul h4 h3 h3'.le (by norm_num)
    have h7 : 1 * (3 / 4) ≤ |(r.num : ℝ)| * |1 + a| := mul_le_mul h1 h2 (by norm_num) (by linarith)
    calc (2⁻¹ : ℝ) ^ 65 * (|(r.den : ℝ)| * |1 + b|) ≤ (2⁻¹) ^ 65 * (2 ^ 63 * (5 / 4)) :=
          mul_le_mul_of_nonneg_left h6 (by positivity)
      _ ≤ 1 * (3 / 4) := by norm_num
      _ ≤ _ := h7
  obtain ⟨c, hc, ec⟩ := near hu hq
  refine ⟨a, b, c, ha, hb, hc, ?_⟩
  unfold Rational.toReal Rational.toFloat
  beta_reduce
  rw [ec, ea, eb]
  have : (1 + b) ≠ 0 := by
    have : 0 < 1 + b := by linarith
    exact this.ne'
  field_simp

/-- **C81**: the relative error of the conversion of a rational of 64 bit integers is at most that of three roundings. -/
theorem C81_error (rnd : ℝ → ℝ) (u : ℝ) (h0 : rnd 0 = 0) (hu : ∀ x : ℝ, 2⁻¹ ^ 65 ≤ |x| → |rnd x - x| ≤ u * |x|) (hu0 : 0 ≤ u) (hu4 : u ≤ 1 / 4)
    (r : Rational) (hr : 0 < r.den ∧ Int.gcd r.num r.den = 1) (hd : r.den < 2 ^ 63) (x : ℝ) (hx : x = (r.num : ℝ) / r.den) :
    |r.toReal rnd - x| ≤ ((1 + u) ^ 2 / (1 - u) - 1) * |x| := by
  rcases eq_or_ne r.num 0 with hn | hn
  · have hx0 : x = 0 := by rw [hx, hn]; simp
    unfold Rational.toReal Rational.toFloat
    rw [hx0, hn]
    simp [h0]
  · obtain ⟨a, b, c, ha, hb, hc, e⟩ := toReal_factor hu hu4 r hr.1 hd hn
    have ha := abs_le.1 ha
    have hb := abs_le.1 hb
    have hc := abs_le.1 hc
    rw [e, ← hx]
    have e1 : x * ((1 + a) * (1 + c) / (1 + b)) - x = x * ((1 + a) * (1 + c) / (1 + b) - 1) := by ring
    rw [e1, abs_mul, mul_comm]
    refine mul_le_mul_of_nonneg_right ?_ (abs_nonneg x)
    have hb1 : 0 < 1 + b := by linarith
    have hu1 : 0 < 1 - u := by linarith
    have hup : (1 + a) * (1 + c) / (1 + b) ≤ (1 + u) ^ 2 / (1 - u) := by
      refine div_le_div₀ (by positivity) ?_ hu1 (by linarith)
      nlinarith
    have hlo : 2 - (1 + u) ^ 2 / (1 - u) ≤ (1 + a) * (1 + c) / (1 + b) := by
      have h1 : (1 - u) ^ 2 / (1 + u) ≤ (1 + a) * (1 + c) / (1 + b) := by
        refine div_le_div₀ (by nlinarith) ?_ hb1 (by linarith)
        nlinarith
      refine le_trans ?_ h1
      have h2 : (0 : ℝ) < 1 + u := by linarith
      rw [sub_le_iff_le_add, div_add_div _ _ h2.ne' hu1.ne', le_div_iff₀ (by positivity)]
      nlinarith [mul_nonneg hu0 hu0]
    rw [abs_le]
    constructor <;> linarith

/-- **C81**: ... and is below `4 u`. -/
theorem C81_error_linear (rnd : ℝ → ℝ) (u : ℝ) (h0 : rnd 0 = 0) (hu : ∀ x : ℝ, 2⁻¹ ^ 65 ≤ |x| → |rnd x - x| ≤ u * |x|) (hu0 : 0 ≤ u)
    (hu4 : u ≤ 1 / 8) (r : Rational) (hr : 0 < r.den ∧ Int.gcd r.num r.den = 1) (hd : r.den < 2 ^ 63) (x : ℝ)
    (hx : x = (r.num : ℝ) / r.den) : |r.toReal rnd - x| ≤ 4 * u * |x| := by
  refine (C81_error rnd u h0 hu hu0 (by linarith) r hr hd x hx).trans (mul_le_mul_of_nonneg_right ?_ (abs_nonneg x))
  have hu1 : 0 < 1 - u := by linarith
  rw [sub_le_iff_le_add, div_le_iff₀ hu1]
  nlinarith

/-- **C81**: the sign is right, and only zero becomes zero. -/
theorem C81_sign (rnd : ℝ → ℝ) (u : ℝ) (h0 : rnd 0 = 0) (hu : ∀ x : ℝ, 2⁻¹ ^ 65 ≤ |x| → |rnd x - x| ≤ u * |x|) (hu4 : u ≤ 1 / 4)
    (r : Rational) (hr : 0 < r.den ∧ Int.gcd r.num r.den = 1) (hd : r.den < 2 ^ 63) (x : ℝ) (hx : x = (r.num : ℝ) / r.den) :
    (0 < r.toReal rnd ↔ 0 < x) ∧ (r.toReal rnd < 0 ↔ x < 0) ∧ (r.toReal rnd = 0 ↔ x = 0) := by
  rcases eq_or_ne r.num 0 with hn | hn
  · have hx0 : x = 0 := by rw [hx, hn]; simp
    unfold Rational.toReal Rational.toFloat
    rw [hx0, hn]
    simp [h0]
  · obtain ⟨a, b, c, ha, hb, hc, e⟩ := toReal_factor hu hu4 r hr.1 hd hn
    have ha := abs_le.1 ha
    have hb := abs_le.1 hb
    have hc := abs_le.1 hc
    have hp : 0 < (1 + a) * (1 + c) / (1 + b) := by
      refine div_pos (mul_pos ?_ ?_) ?_ <;> linarith
    rw [e, ← hx]
    refine ⟨mul_pos_iff_of_pos_right hp, ?_, by simp [hp.ne']⟩
    rw [mul_neg_iff]
    constructor
    · rintro (⟨_, h⟩ | ⟨h, _⟩)
      · linarith
      · exact h
    · exact fun h => Or.inr ⟨h, hp⟩

/-- **C81**: if numerator and denominator are numbers of the format, the result is the correctly rounded value, whatever the rounding. -/
theorem C81_correctly_rounded (rnd : ℝ → ℝ) (r : Rational) (hn : rnd r.num = r.num) (hd : rnd r.den = r.den) :
    r.toReal rnd = rnd ((r.num : ℝ) / r.den) := by
  unfold Rational.toReal Rational.toFloat
  beta_reduce
  rw [hn, hd]

/-- **C81**: then the conversion also preserves the order. -/
theorem C81_monotone (rnd : ℝ → ℝ) (hm : Monotone rnd) (l r : Rational) (hl : rnd l.num = l.num ∧ rnd l.den = l.den)
    (hr : rnd r.num = r.num ∧ rnd r.den = r.den) (h : (l.num : ℚ) / l.den ≤ r.num / r.den) : l.toReal rnd ≤ r.toReal rnd := by
  rw [C81_correctly_rounded rnd l hl.1 hl.2, C81_correctly_rounded rnd r hr.1 hr.2]
  refine hm ?_
  exact_mod_cast h

/-- **C81**: the conversion of an integer is the conversion of the fraction with denominator one. -/
theorem C81_integer (rnd : ℝ → ℝ) (h1 : rnd 1 = 1) (hi : ∀ x, rnd (rnd x) = rnd x) (k : ℤ) : (ofInt k).toReal rnd = rnd k := by
  unfold Rational.toReal Rational.toFloat ofInt
  simp [h1, hi]

/-- IEEE 754 `float` meets the hypotheses, with `u = 2^-24` ... -/
example : binRound 24 (-149) 0 = 0 ∧ Monotone (binRound 24 (-149)) ∧
    (∀ x : ℝ, 2⁻¹ ^ 65 ≤ |x| → |binRound 24 (-149) x - x| ≤ (2 : ℝ) ^ (-24 : ℤ) * |x|) ∧ ∀ k : ℤ, |k| < 2 ^ 24 → binRound 24 (-149) k = k := by
  refine ⟨binRound_zero _ _, binRound_mono 24 (by norm_num) _, fun x hx => ?_, fun k hk => binRound_int 24 _ (by norm_num) k hk⟩
  have := binRound_rel 24 (-149) (x := x) (le_trans (by norm_num) hx)
  exact_mod_cast this

/-- ... and a fraction that is not a number of the format has that error. -/
example : |(⟨1, 3⟩ : Rational).toReal (binRound 24 (-149)) - 1 / 3| ≤ 4 * 2 ^ (-24 : ℤ) * (1 / 3) := by
  have h := C81_error_linear (binRound 24 (-149)) ((2 : ℝ) ^ (-24 : ℤ)) (binRound_zero _ _)
    (fun x hx => by exact_mod_cast binRound_rel 24 (-149) (x := x) (le_trans (by norm_num) hx)) (by positivity) (by norm_num) ⟨1, 3⟩
    (by decide) (by norm_num) (1 / 3) (by norm_num)
  rwa [abs_of_pos (show (0 : ℝ) < 1 / 3 by norm_num)] at h

end Verif
