import Verif.Lemmas.OverlapAdd
import Verif.Lemmas.FFT
import Verif.Lemmas.ChunkSize
import Verif.Props.Convolution

/-!
# Properties C15, C16, C59: overlap-add convolution

Exact arithmetic.  The transforms inside are exact discrete Fourier transforms.
-/

namespace Verif
open Finset

/-- **C59**: `NextPowerOfTwo` returns the least power of two that is not smaller than its argument (zero for
zero), and refuses the arguments for which that power does not fit. -/
theorem C59_nextPowerOfTwo (n : ℕ) :
    (n = 0 → nextPowerOfTwo n = .ok 0) ∧
    (0 < n → n < 2 ^ 63 → ∃ k, nextPowerOfTwo n = .ok (2 ^ k) ∧ n ≤ 2 ^ k ∧ ∀ j, n ≤ 2 ^ j → 2 ^ k ≤ 2 ^ j) ∧
    (2 ^ 63 ≤ n → nextPowerOfTwo n = .assertFail) := by
  refine ⟨?_, fun h0 h => ?_, fun h => ?_⟩
  · rintro rfl
    simp [nextPowerOfTwo, cassert]
  · refine ⟨_, nextPowerOfTwo_loop n (by omega) h, Nat.le_pow_clog (by norm_num) n, fun j hj => ?_⟩
    exact Nat.pow_le_pow_right (by norm_num) ((Nat.clog_le_iff_le_pow (by norm_num)).2 hj)
  · unfold nextPowerOfTwo
    rw [cassert, if_neg (by omega)]
    rfl

example : nextPowerOfTwo 100 = .ok 128 := by decide +kernel
example : nextPowerOfTwo 64 = .ok 64 := by decide +kernel

/-- **C16**: the automatically selected chunk is legal, however many Newton steps are taken, for all lengths
(filter lengths up to `2^54`, beyond any address space). -/
theorem C16_auto_legal (iters N F : ℕ) (hF : 1 ≤ F) (hNF : F ≤ N) (hF2 : F ≤ 2 ^ 54) :
    ∃ K, optimalPracticalSize iters N F = .ok K ∧ 2 * F - 1 ≤ K :=
  optimalPracticalSize_ok iters N F hF hNF hF2

example : ∃ K, optimalPracticalSize 7 100000 333 = .ok K ∧ 665 ≤ K :=
  C16_auto_legal 7 100000 333 (by norm_num) (by norm_num) (by norm_num)

/-- **C15** for any exact circular convolution pipeline and any chunk size selection that is legal: the call
succeeds exactly when the chunk size given explicitly is large enough and the range lies inside the full
convolution, and then it does what direct convolution does. -/
theorem C15_overlapAdd {R : Type} [CommRing R] (auto : ℕ → ℕ → Out ℕ) {cc : List R → List R → Out (List R)}
    (hcc : IsCircularConvolution cc) (out u v : List R) (offset chunkSize : ℕ) (clear : Bool)
    (hu : u ≠ []) (hv : v ≠ [])
    (hauto : ∃ K, auto (max u.length v.length) (min u.length v.length) = .ok K ∧
      2 * min u.length v.length - 1 ≤ K) :
    overlapAdd auto cc out u v offset chunkSize clear =
      if (chunkSize = 0 ∨ 2 * min u.length v.length - 1 ≤ chunkSize) ∧
          offset + out.length ≤ convLengthFull u.length v.length
      then .ok (convExpected (!clear) u v out offset) else .assertFail := by
  have hu' := List.length_pos_iff.2 hu
  have hv' := List.length_pos_iff.2 hv
  have hpos : 0 < u.length ∧ 0 < v.length := ⟨hu', hv'⟩
  obtain ⟨A, hA1, hA2⟩ := hauto
  by_cases hc : chunkSize = 0 ∨ 2 * min u.length v.length - 1 ≤ chunkSize
  · obtain ⟨K, hK1, hK2⟩ : ∃ K, (if chunkSize = 0 then auto (max u.length v.length) (min u.length v.length)
        else pure chunkSize) = .ok K ∧ 2 * min u.length v.length - 1 ≤ K := by
      by_cases h0 : chunkSize = 0
      · exact ⟨A, by rw [if_pos h0, hA1], hA2⟩
      · exact ⟨chunkSize, by rw [if_neg h0]; rfl, by omega⟩
    by_cases hb : offset + out.length ≤ convLengthFull u.length v.length
    · rw [if_pos ⟨hc, hb⟩]
      obtain ⟨o, h1, h2⟩ := overlapAdd_done auto hcc out u v offset chunkSize K clear hK1 hu' hv' hK2 hb
      rw [h1, h2.eq]
    · rw [if_neg (fun h => hb h.2)]
      unfold overlapAdd
      have hs : convLengthFull u.length v.length = convLengthFull v.length u.length := by
        unfold convLengthFull; split <;> split <;> omega
      split
      · rename_i hl
        rw [max_eq_right hl.le, min_eq_left hl.le] at hK1
        rw [min_eq_left hl.le] at hK2
        unfold overlapAddOrdered
        rw [hK1, Out.ok_bind, cassert_true (by rw [usub, if_pos (by omega)]; exact hK2), Out.ok_bind,
          cassert, if_neg (by omega)]
        rfl
      · rename_i hl
        have hl : v.length ≤ u.length := by omega
        rw [max_eq_left hl, min_eq_right hl] at hK1
        rw [min_eq_right hl] at hK2
        unfold overlapAddOrdered
        rw [hK1, Out.ok_bind, cassert_true (by rw [usub, if_pos (by omega)]; exact hK2), Out.ok_bind,
          cassert, if_neg (by omega)]
        rfl
  · rw [if_neg (fun h => hc h.1)]
    rw [not_or] at hc
    unfold overlapAdd
    split
    · rename_i hl
      have e := min_eq_left hl.le
      unfold overlapAddOrdered
      rw [if_neg hc.1, Out.pure_def, Out.ok_bind, cassert, if_neg (by rw [usub, if_pos (by omega)]; omega)]
      rfl
    · rename_i hl
      have e := min_eq_right (show v.length ≤ u.length by omega)
      unfold overlapAddOrdered
      rw [if_neg hc.1, Out.pure_def, Out.ok_bind, cassert, if_neg (by rw [usub, if_pos (by omega)]; omega)]
      rfl

/-- The FFT, multiply, inverse FFT pipeline used for two real signals computes circular convolutions, for
even and odd chunk lengths. -/
theorem C15_pipeline_real : IsCircularConvolution olaPipelineReal := by
  intro a b h0 h
  refine ⟨_, pipelineReal_circular a b h h0, by simp, fun k hk => ?_⟩
  rw [sig_reg, if_pos hk]

/-- The pipeline for two complex signals. -/
theorem C15_pipeline_complex : IsCircularConvolution olaPipelineComplex := by
  intro a b h0 h
  refine ⟨_, pipelineComplex_circular a b h h0, by simp, fun k hk => ?_⟩
  rw [sig_reg, if_pos hk]

/-- A real chunk with a complex filter goes through the same pipeline as its complex embedding. -/
theorem C15_pipeline_mixed (a : List ℝ) (b : List ℂ) (h0 : a ≠ []) :
    olaPipelineMixed a b = olaPipelineComplex (a.map Complex.ofReal) b := pipelineMixed_eq a b h0

/-- **C15, C16** as the user sees them, real signals. -/
theorem C15_real (iters : ℕ) (out u v : List ℝ) (offset chunkSize : ℕ) (clear : Bool)
    (hu : u ≠ []) (hv : v ≠ []) (hsz : min u.length v.length ≤ 2 ^ 54) :
    overlapAdd (optimalPracticalSize iters) olaPipelineReal out u v offset chunkSize clear =
      if (chunkSize = 0 ∨ 2 * min u.length v.length - 1 ≤ chunkSize) ∧
          offset + out.length ≤ convLengthFull u.length v.length
      then .ok (convExpected (!clear) u v out offset) else .assertFail := by
  have hu' := List.length_pos_iff.2 hu
  have hv' := List.length_pos_iff.2 hv
  exact C15_overlapAdd _ C15_pipeline_real out u v offset chunkSize clear hu hv
    (C16_auto_legal iters _ _ (by omega) (by omega) hsz)

/-- **C15, C16** as the user sees them, complex signals. -/
theorem C15_complex (iters : ℕ) (out u v : List ℂ) (offset chunkSize : ℕ) (clear : Bool)
    (hu : u ≠ []) (hv : v ≠ []) (hsz : min u.length v.length ≤ 2 ^ 54) :
    overlapAdd (optimalPracticalSize iters) olaPipelineComplex out u v offset chunkSize clear =
      if (chunkSize = 0 ∨ 2 * min u.length v.length - 1 ≤ chunkSize) ∧
          offset + out.length ≤ convLengthFull u.length v.length
      then .ok (convExpected (!clear) u v out offset) else .assertFail := by
  have hu' := List.length_pos_iff.2 hu
  have hv' := List.length_pos_iff.2 hv
  exact C15_overlapAdd _ C15_pipeline_complex out u v offset chunkSize clear hu hv
    (C16_auto_legal iters _ _ (by omega) (by omega) hsz)

/-- **C15**, second formulation: overlap-add and direct convolution are the same function. -/
theorem C15_equals_direct (iters : ℕ) (vec : Bool) (W : ℕ) (hW : 0 < W) (junk : List ℝ)
    (hj : junk.length = if vec then W else 1) (out u v : List ℝ) (offset chunkSize : ℕ) (clear : Bool)
    (hu : u ≠ []) (hv : v ≠ []) (hsz : min u.length v.length ≤ 2 ^ 54)
    (hc : chunkSize = 0 ∨ 2 * min u.length v.length - 1 ≤ chunkSize) :
    overlapAdd (optimalPracticalSize iters) olaPipelineReal out u v offset chunkSize clear =
      convolution vec W junk out u v offset clear := by
  rw [C15_real iters out u v offset chunkSize clear hu hv hsz, C14_offset vec W hW junk hj]
  simp only [hc, true_and]

-- a concrete instance: 4 samples from offset 2, chunk 5, previous content kept
example : overlapAdd (optimalPracticalSize 3) olaPipelineReal [10, 10, 10, 10] [1, 2, 3, 4, 5] [1, 1, 1] 2 5 false =
    .ok [16, 19, 22, 19] := by
  rw [C15_real _ _ _ _ _ _ _ (by simp) (by simp) (by simp), if_pos (by simp [convLengthFull])]
  congr 1
  norm_num [convExpected, convAt, sig, List.range_succ, Finset.sum_range_succ]

/-- **C15** The allocating form: the requested part of the convolution, or an assertion failure if the request exceeds it. -/
theorem C15_allocating (iters : ℕ) (u v : List ℝ) (offset length chunkSize : ℕ) (hu : u ≠ []) (hv : v ≠ [])
    (hsz : min u.length v.length ≤ 2 ^ 54) (hc : chunkSize = 0 ∨ 2 * min u.length v.length - 1 ≤ chunkSize) :
    overlapAddAlloc (optimalPracticalSize iters) olaPipelineReal u v offset length chunkSize =
      if offset + length ≤ convLengthFull u.length v.length
      then .ok ((List.range length).map fun k => convAt u v (offset + k)) else .assertFail := by
  unfold overlapAddAlloc
  rw [C15_real iters _ u v offset chunkSize false hu hv hsz, List.length_replicate]
  simp only [hc, true_and]
  split
  · congr 1
    unfold convExpected
    rw [List.length_replicate]
    apply List.map_congr_left
    intro k _
    have : sig (List.replicate length (0 : ℝ)) k = 0 := by
      simp only [sig, List.getD_eq_getElem?_getD, List.getElem?_replicate]
      split <;> rfl
    rw [this]; simp
  · rfl

/-- **C15**: the full range, overwriting or accumulating. -/
theorem C15_full {R : Type} [CommRing R] (auto : ℕ → ℕ → Out ℕ) {cc : List R → List R → Out (List R)}
    (hcc : IsCircularConvolution cc) (out u v : List R) (chunkSize : ℕ) (clear : Bool) (hu : u ≠ []) (hv : v ≠ [])
    (hauto : ∃ K, auto (max u.length v.length) (min u.length v.length) = .ok K ∧ 2 * min u.length v.length - 1 ≤ K)
    (hc : chunkSize = 0 ∨ 2 * min u.length v.length - 1 ≤ chunkSize) :
    overlapAddFull auto cc out u v chunkSize clear =
      if out.length = u.length + v.length - 1
      then .ok ((List.range out.length).map fun k => (if clear then 0 else sig out k) + convAt u v k) else .assertFail := by
  have hu' := List.length_pos_iff.2 hu
  have hv' := List.length_pos_iff.2 hv
  have hl : convLengthFull u.length v.length = u.length + v.length - 1 := by unfold convLengthFull; rw [if_neg (by omega)]; omega
  unfold overlapAddFull
  by_cases h : out.length = u.length + v.length - 1
  · rw [cassert_true (by rw [hl]; exact h), Out.ok_bind, C15_overlapAdd auto hcc _ _ _ _ _ _ hu hv hauto, if_pos ⟨hc, by rw [hl]; omega⟩, if_pos h]
    unfold convExpected
    cases clear <;> simp
  · rw [cassert, if_neg (by rw [hl]; exact h), if_neg h]
    rfl

/-- **C15**: the central range, overwriting or accumulating. -/
theorem C15_central {R : Type} [CommRing R] (auto : ℕ → ℕ → Out ℕ) {cc : List R → List R → Out (List R)}
    (hcc : IsCircularConvolution cc) (out u v : List R) (chunkSize : ℕ) (clear : Bool) (hu : u ≠ []) (hv : v ≠ [])
    (hauto : ∃ K, auto (max u.length v.length) (min u.length v.length) = .ok K ∧ 2 * min u.length v.length - 1 ≤ K)
    (hc : chunkSize = 0 ∨ 2 * min u.length v.length - 1 ≤ chunkSize) :
    overlapAddCentral auto cc out u v chunkSize clear =
      if out.length = max u.length v.length - min u.length v.length + 1
      then .ok ((List.range out.length).map fun k => (if clear then 0 else sig out k) + convAt u v (min u.length v.length - 1 + k))
      else .assertFail := by
  have hu' := List.length_pos_iff.2 hu
  have hv' := List.length_pos_iff.2 hv
  obtain ⟨l1, l2⟩ := C14_lengths u.length v.length hu' hv'
  have hu1 : usub u.length 1 = u.length - 1 := by rw [usub, if_pos (by omega)]
  have hv1 : usub v.length 1 = v.length - 1 := by rw [usub, if_pos (by omega)]
  have e : min (u.length - 1) (v.length - 1) = min u.length v.length - 1 := by omega
  unfold overlapAddCentral
  by_cases h : out.length = max u.length v.length - min u.length v.length + 1
  · rw [cassert_true (by rw [l2]; exact h), Out.ok_bind, hu1, hv1, e, C15_overlapAdd auto hcc _ _ _ _ _ _ hu hv hauto,
      if_pos ⟨hc, by rw [l1]; omega⟩, if_pos h]
    unfold convExpected
    cases clear <;> simp
  · rw [cassert, if_neg (by rw [l2]; exact h), if_neg h]
    rfl

example : overlapAddFull (optimalPracticalSize 3) olaPipelineReal [10, 10, 10, 10] [1, 2] [1, 1, 1] 3 false = .ok [11, 13, 13, 12] := by
  rw [C15_full _ C15_pipeline_real _ _ _ _ _ (by simp) (by simp) (C16_auto_legal 3 _ _ (by simp) (by simp) (by simp)) (by simp), if_pos (by simp)]
  simp [List.range_succ, convAt, sig, Finset.sum_range_succ]
  norm_num

end Verif
