import Verif.Lemmas.Stability
import Mathlib.Analysis.Normed.Group.InfiniteSum

/-!
A filter that bounds its output has an absolutely summable impulse response, and hence no pole outside the open unit disk that is not cancelled.
-/

set_option linter.unusedVariables false
set_option linter.unusedSimpArgs false

namespace Verif.Stab
open Finset

/-- the impulse response -/
noncomputable def imp (b : List ℝ) (lead : ℝ) (ps : List ℂ) : ℕ → ℂ := resp b lead ps (fun n => if n = 0 then 1 else 0)

theorem resp_conv (b : List ℝ) {a : List ℝ} {lead : ℝ} {ps : List ℂ} (h : Factored a lead ps) (X : ℕ → ℂ) (n : ℕ) :
    resp b lead ps X n = ∑ k ∈ range (n + 1), imp b lead ps k * X (n - k) := by
  obtain ⟨A, hA⟩ : ∃ A : PowerSeries ℂ, A = (((revP a).map Complex.ofRealHom : Polynomial ℂ) : PowerSeries ℂ) := ⟨_, rfl⟩
  have hu : IsUnit A := by
    rw [PowerSeries.isUnit_iff_constantCoeff, hA, revP_factor h, Polynomial.coe_mul, coe_prod, map_mul, map_list_prod, List.map_map]
    have : (List.map ((PowerSeries.constantCoeff : PowerSeries ℂ →+* ℂ) ∘ fun p => (1 - PowerSeries.C p * PowerSeries.X : PowerSeries ℂ)) ps).prod = 1 := by
      rw [List.prod_eq_one]
      intro v hv
      obtain ⟨p, -, rfl⟩ := List.mem_map.1 hv
      simp
    rw [this, mul_one]
    have : (lead : ℂ) ≠ 0 := by exact_mod_cast h.lead_ne
    simpa using this
  have h1 := resp_series b h X
  have h2 := resp_series b h (fun n => if n = 0 then 1 else 0)
  have h3 : PowerSeries.mk (fun n => if n = 0 then (1 : ℂ) else 0) = 1 := by
    ext n
    rw [PowerSeries.coeff_mk, PowerSeries.coeff_one]
  rw [h3, mul_one] at h2
  rw [← h2, mul_assoc, ← hA] at h1
  have h4 := hu.mul_left_cancel h1
  have := congrArg (PowerSeries.coeff n) h4
  rw [PowerSeries.coeff_mk, PowerSeries.coeff_mul, Nat.sum_antidiagonal_eq_sum_range_succ_mk] at this
  simp only [PowerSeries.coeff_mk] at this
  exact this

theorem hasSum_shift {f : ℕ → ℂ} {s : ℂ} (h : HasSum f s) (k : ℕ) : HasSum (fun n => if k ≤ n then f (n - k) else 0) s := by
  have hi : Function.Injective (fun n : ℕ => n + k) := fun a b h => by simpa using h
  rw [← hi.hasSum_iff]
  · convert h using 1
    funext n
    simp
  · intro n hn
    rw [if_neg]
    intro hk
    exact hn ⟨n - k, by simp; omega⟩

/-- multiplying a convergent series by a polynomial -/
theorem hasSum_numer (a : List ℝ) (g : ℕ → ℂ) (z s : ℂ) (h : HasSum (fun n => g n * z⁻¹ ^ n) s) :
    HasSum (fun n => numer a g n * z⁻¹ ^ n) (revVal a z * s) := by
  unfold numer revVal
  rw [sum_mul]
  simp only [sum_mul]
  refine hasSum_sum fun k _ => ?_
  have := (hasSum_shift h k).mul_left (((sig a (a.length - 1 - k) : ℝ) : ℂ) * z⁻¹ ^ k)
  have e : (fun n => ((sig a (a.length - 1 - k) : ℝ) : ℂ) * (if k ≤ n then g (n - k) else 0) * z⁻¹ ^ n) =
      fun n => ((sig a (a.length - 1 - k) : ℝ) : ℂ) * z⁻¹ ^ k * (if k ≤ n then g (n - k) * z⁻¹ ^ (n - k) else 0) := by
    funext n
    split
    · rename_i hk
      rw [show z⁻¹ ^ n = z⁻¹ ^ (n - k) * z⁻¹ ^ k by rw [← pow_add]; congr 1; omega]
      ring
    · ring
  rw [e]
  exact this

theorem no_outer_pole (b : List ℝ) {a : List ℝ} {lead : ℝ} {ps : List ℂ} (h : Factored a lead ps) (M : ℝ)
    (hM : ∀ L, ∑ k ∈ range L, ‖imp b lead ps k‖ ≤ M) (p : ℂ) (hp : 1 ≤ ‖p‖) (ha : polyEval Complex.ofReal a p = 0) :
    polyEval Complex.ofReal b p = 0 := by
  have hp0 : p ≠ 0 := norm_pos_iff.1 (by linarith)
  have hsum : Summable fun n => ‖imp b lead ps n‖ := summable_of_sum_range_le (fun _ => norm_nonneg _) hM
  have hs : Summable fun n => imp b lead ps n * p⁻¹ ^ n := by
    refine Summable.of_norm_bounded hsum fun n => ?_
    rw [norm_mul, norm_pow, norm_inv]
    have : ‖p‖⁻¹ ^ n ≤ 1 := pow_le_one₀ (by positivity) (inv_le_one_of_one_le₀ hp)
    exact mul_le_of_le_one_right (norm_nonneg _) this
  obtain ⟨s, hs⟩ := hs
  have h1 := hasSum_numer a _ p s hs
  have e1 : revVal a p = 0 := by
    have := revVal_eq a hp0
    rw [ha] at this
    rcases mul_eq_zero.1 this with h | h
    · exact absurd h (pow_ne_zero _ hp0)
    · exact h
  rw [e1, zero_mul] at h1
  have e2 : ∀ n, numer a (imp b lead ps) n = numer b (fun n => if n = 0 then 1 else 0) n := by
    intro n
    have := resp_series b h (fun n => if n = 0 then 1 else 0)
    rw [numer_series, numer_series] at this
    have := congrArg (PowerSeries.coeff n) this
    rwa [PowerSeries.coeff_mk, PowerSeries.coeff_mk] at this
  simp only [e2] at h1
  have h2 : HasSum (fun n => (if n = 0 then (1 : ℂ) else 0) * p⁻¹ ^ n) 1 := by
    convert hasSum_single (0 : ℕ) (f := fun n : ℕ => (if n = 0 then (1 : ℂ) else 0) * p⁻¹ ^ n) (fun n hn => by simp [hn]) using 1
    simp
  have h3 := hasSum_numer b _ p 1 h2
  rw [mul_one] at h3
  have := h1.unique h3
  have h4 := revVal_eq b hp0
  rw [← this, mul_zero] at h4
  exact h4.symm

end Verif.Stab
