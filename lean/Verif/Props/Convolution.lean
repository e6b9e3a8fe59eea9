import Verif.Lemmas.Convolution3
import Mathlib.Algebra.Polynomial.Coeff

/-!
# Properties C12–C14: time domain convolution

Exact arithmetic (any commutative ring).  `vec`/`W`: whether a SIMD path exists and the register width,
`junk`: the uninitialised lanes of a partially loaded register.
-/

namespace Verif
open Finset

section
variable {R : Type u} [CommRing R]

/-- The specification `convAt` is multiplication of polynomials (generating functions). -/
theorem convAt_eq_coeff (u v : List R) (n : ℕ) :
    convAt u v n = ((∑ i ∈ range u.length, Polynomial.monomial i (sig u i)) *
      (∑ i ∈ range v.length, Polynomial.monomial i (sig v i))).coeff n := by
  have hc : ∀ (w : List R) k, (∑ i ∈ range w.length, Polynomial.monomial i (sig w i)).coeff k = sig w k := by
    intro w k
    rw [Polynomial.finsetSum_coeff]
    simp only [Polynomial.coeff_monomial]
    by_cases h : k < w.length
    · simp [h]
    · rw [sig_of_ge (by omega)]
      apply sum_eq_zero
      intro i hi
      have := mem_range.1 hi
      rw [if_neg (by omega)]
  rw [Polynomial.coeff_mul, Finset.Nat.sum_antidiagonal_eq_sum_range_succ_mk]
  unfold convAt
  apply sum_congr rfl
  intro i _
  simp only [hc]

/-- What a convolution call must leave in a buffer with previous content `out`. -/
def convExpected (accumulate : Bool) (u v out : List R) (n : ℕ) : List R :=
  (List.range out.length).map fun k => (if accumulate then sig out k else 0) + convAt u v (n + k)

theorem ConvDone.eq {acc : Bool} {u v out out' : List R} {n : ℕ} (h : ConvDone acc u v out out' n) :
    out' = convExpected acc u v out n := by
  apply list_ext_sig (by simp [h.1, convExpected])
  intro i hi
  rw [h.1] at hi
  have : convExpected acc u v out n =
      reg out.length (fun k => (if acc then sig out k else 0) + convAt u v (n + k)) := rfl
  rw [h.2 i hi, this, sig_reg, if_pos hi]

/-- **C12, C13** naive kernel: every output element is the (possibly accumulated) convolution sum;
no access leaves the buffers. -/
theorem C12_naive (u v out : List R) (n : ℕ) (accumulate : Bool) :
    convolutionNaive u v out n accumulate = .ok (convExpected accumulate u v out n) := by
  obtain ⟨o, h1, h2⟩ := convolutionNaive_done u v out n accumulate
  rw [h1, h2.eq]

/-- **C12, C13** sliding kernel, any register width. -/
theorem C12_slide (vec : Bool) (W : ℕ) (u v out : List R) (n : ℕ) (accumulate : Bool) :
    convolutionSlide vec W u v out n accumulate = .ok (convExpected accumulate u v out n) := by
  obtain ⟨o, h1, h2⟩ := convolutionSlide_done vec W u v out n accumulate
  rw [h1, h2.eq]

/-- **C12** register reducing kernel. -/
theorem C12_reduce (u v out : List R) (n : ℕ) :
    convolutionReduce u v out n false = .ok (convExpected false u v out n) := by
  obtain ⟨o, h1, h2⟩ := convolutionReduce_done u v out n
  rw [h1, h2.eq]

/-- **C12, C13** vectorised reducing kernel: any register width, plain or compensated accumulation, and
whatever the unused lanes contain. -/
theorem C12_reduceVec (vec : Bool) (W : ℕ) (hW : 0 < W) (junk : List R)
    (hj : junk.length = if vec then W else 1) (compensated : Bool) (u v out : List R) (n : ℕ)
    (accumulate : Bool) :
    convolutionReduceVec vec W junk (if compensated then plusCompensated else plainOp (· + ·)) u v out n
      accumulate = .ok (convExpected accumulate u v out n) := by
  have hr : AddsExactly (if compensated then plusCompensated else plainOp (· + ·) : ReduceOp R) := by
    split
    · exact plusCompensated_adds
    · exact plain_adds
  obtain ⟨o, h1, h2⟩ := convolutionReduceVec_done vec hW hr junk hj u v out n accumulate
  rw [h1, h2.eq]

example : convolutionReduceVec true 4 [77, 77, 77, 77] plusCompensated [1, 2, 3] [(1 : ℤ), 1] [5, 5, 5, 5, 5] 0
    true = .ok [6, 8, 10, 8, 5] := by decide +kernel
example : convolutionSlide true 2 [1, 2, 3] [(1 : ℤ), 1] [5, 5, 5] 1 false = .ok [3, 5, 3] :=
  (C12_slide true 2 [1, 2, 3] [1, 1] [5, 5, 5] 1 false).trans (by decide +kernel)

/-- **C13**: with clearing, the previous content is irrelevant; without, the result is the previous
content plus what clearing would have produced. -/
theorem C13_accumulate (vec : Bool) (W : ℕ) (hW : 0 < W) (junk : List R)
    (hj : junk.length = if vec then W else 1) (u v out out₂ : List R) (offset : ℕ)
    (hl : out.length = out₂.length)
    (hb : offset + out.length ≤ convLengthFull u.length v.length) :
    ∃ cleared, convolution vec W junk out u v offset true = .ok cleared ∧
      convolution vec W junk out₂ u v offset true = .ok cleared ∧
      convolution vec W junk out u v offset false = .ok (List.zipWith (· + ·) out cleared) := by
  have key : ∀ (o : List R) (clear : Bool), o.length = out.length →
      convolution vec W junk o u v offset clear = .ok (convExpected (!clear) u v o offset) := by
    intro o clear ho
    unfold convolution
    rw [cassert_true (by omega), Out.ok_bind]
    split
    · exact C12_slide ..
    · exact C12_reduceVec vec W hW junk hj true u v o offset (!clear)
  refine ⟨convExpected false u v out offset, key out true rfl, ?_, ?_⟩
  · rw [key out₂ true hl.symm]
    simp [convExpected, hl]
  · rw [key out false rfl]
    congr 1
    apply List.ext_getElem (by simp [convExpected])
    intro i h1 h2
    have hi : i < out.length := by simpa [convExpected] using h1
    simp [convExpected, sig_of_lt hi]

/-- **C14** (and C12, C13 at API level): the offset form writes samples `offset, offset+1, …` of the
convolution; any range inside the full convolution is accepted and any other is refused. -/
theorem C14_offset (vec : Bool) (W : ℕ) (hW : 0 < W) (junk : List R)
    (hj : junk.length = if vec then W else 1) (u v out : List R) (offset : ℕ) (clear : Bool) :
    convolution vec W junk out u v offset clear =
      if offset + out.length ≤ convLengthFull u.length v.length
      then .ok (convExpected (!clear) u v out offset) else .assertFail := by
  unfold convolution
  by_cases h : offset + out.length ≤ convLengthFull u.length v.length
  · rw [cassert_true h, Out.ok_bind, if_pos h]
    split
    · exact C12_slide ..
    · exact C12_reduceVec vec W hW junk hj true u v out offset (!clear)
  · simp [cassert, h]

/-- **C14**: documented lengths. -/
theorem C14_lengths (m n : ℕ) (hm : 0 < m) (hn : 0 < n) :
    convLengthFull m n = m + n - 1 ∧ convLengthCentral m n = max m n - min m n + 1 := by
  unfold convLengthFull convLengthCentral
  rw [if_neg (by omega), if_neg (by omega)]
  omega

/-- **C14**: full convolution returns every sample of the convolution, and beyond them there are only
zeros (so the length is right). -/
theorem C14_full (vec : Bool) (W : ℕ) (hW : 0 < W) (junk : List R)
    (hj : junk.length = if vec then W else 1) (u v : List R) :
    convolutionAllocFull vec W junk u v =
      .ok ((List.range (convLengthFull u.length v.length)).map (convAt u v)) ∧
    ∀ n, convLengthFull u.length v.length ≤ n → convAt u v n = 0 := by
  refine ⟨?_, fun n hn => convAt_beyond u v n hn⟩
  unfold convolutionAllocFull convolutionAlloc
  rw [C14_offset vec W hW junk hj, if_pos (by simp)]
  congr 1
  unfold convExpected
  simp only [List.length_replicate]
  apply List.map_congr_left
  intro k hk
  have : k < convLengthFull u.length v.length := by simpa using hk
  simp [sig, this]

/-- **C14**: central convolution is the contiguous part of the full one starting at the length of the
shorter operand minus one: exactly the samples at which the shorter operand overlaps completely. -/
theorem C14_central (vec : Bool) (W : ℕ) (hW : 0 < W) (junk : List R)
    (hj : junk.length = if vec then W else 1) (u v : List R) (hu : u ≠ []) (hv : v ≠ []) :
    ∃ full, convolutionAllocFull vec W junk u v = .ok full ∧
      convolutionAllocCentral vec W junk u v =
        .ok ((full.drop (min u.length v.length - 1)).take (max u.length v.length - min u.length v.length + 1)) ∧
      min u.length v.length - 1 + (max u.length v.length - min u.length v.length + 1) ≤ full.length ∧
      ∀ n, (min u.length v.length - 1 ≤ n ∧
          n < min u.length v.length - 1 + (max u.length v.length - min u.length v.length + 1)) ↔
        (∀ j, j < min u.length v.length → j ≤ n ∧ n - j < max u.length v.length) := by
  have hul : 0 < u.length := List.length_pos_iff.2 hu
  have hvl : 0 < v.length := List.length_pos_iff.2 hv
  obtain ⟨l1, l2⟩ := C14_lengths u.length v.length hul hvl
  refine ⟨_, (C14_full vec W hW junk hj u v).1, ?_, by simp [l1]; omega, fun n => ?_⟩
  · unfold convolutionAllocCentral convolutionAlloc
    have hu1 : usub u.length 1 = u.length - 1 := by rw [usub, if_pos (by omega)]
    have hv1 : usub v.length 1 = v.length - 1 := by rw [usub, if_pos (by omega)]
    rw [hu1, hv1, C14_offset vec W hW junk hj, if_pos (by simp [l1, l2]; omega)]
    congr 1
    apply List.ext_getElem (by simp [convExpected, l1, l2]; omega)
    intro i h1 h2
    have hi : i < convLengthCentral u.length v.length := by simpa [convExpected] using h1
    have e : min (u.length - 1) (v.length - 1) = min u.length v.length - 1 := by omega
    simp [convExpected, sig, hi, e]
  · constructor
    · rintro ⟨a, b⟩ j hj'
      omega
    · intro h
      have h0 := h 0 (by omega)
      have h1 := h (min u.length v.length - 1) (by omega)
      omega

/-- **C14**: the forms that write into a caller's buffer accept exactly a buffer of the documented length and write the full or
the central part (added to the buffer's contents when it is not cleared). -/
theorem C14_full_into (vec : Bool) (W : ℕ) (hW : 0 < W) (junk : List R)
    (hj : junk.length = if vec then W else 1) (u v out : List R) (clear : Bool) :
    convolutionFull vec W junk out u v clear =
      if out.length = convLengthFull u.length v.length then .ok (convExpected (!clear) u v out 0) else .assertFail := by
  unfold convolutionFull
  by_cases h : out.length = convLengthFull u.length v.length
  · rw [cassert_true h, Out.ok_bind, C14_offset vec W hW junk hj, if_pos (by omega), if_pos h]
  · rw [cassert, if_neg h, if_neg h]; rfl

theorem C14_central_into (vec : Bool) (W : ℕ) (hW : 0 < W) (junk : List R)
    (hj : junk.length = if vec then W else 1) (u v out : List R) (hu : u ≠ []) (hv : v ≠ []) (clear : Bool) :
    convolutionCentral vec W junk out u v clear =
      if out.length = max u.length v.length - min u.length v.length + 1
      then .ok (convExpected (!clear) u v out (min u.length v.length - 1)) else .assertFail := by
  have hul : 0 < u.length := List.length_pos_iff.2 hu
  have hvl : 0 < v.length := List.length_pos_iff.2 hv
  obtain ⟨l1, l2⟩ := C14_lengths u.length v.length hul hvl
  unfold convolutionCentral
  rw [l2]
  by_cases h : out.length = max u.length v.length - min u.length v.length + 1
  · have hu1 : usub u.length 1 = u.length - 1 := by rw [usub, if_pos (by omega)]
    have hv1 : usub v.length 1 = v.length - 1 := by rw [usub, if_pos (by omega)]
    have e : min (u.length - 1) (v.length - 1) = min u.length v.length - 1 := by omega
    rw [cassert_true h, Out.ok_bind, hu1, hv1, C14_offset vec W hW junk hj, if_pos (by omega), if_pos h, e]
  · rw [cassert, if_neg h, if_neg h]; rfl

/-- **C14**: operand order is unobservable. -/
theorem C14_symmetric (vec : Bool) (W : ℕ) (hW : 0 < W) (junk : List R)
    (hj : junk.length = if vec then W else 1) (u v out : List R) (offset : ℕ) (clear : Bool) :
    convolution vec W junk out u v offset clear = convolution vec W junk out v u offset clear := by
  rw [C14_offset vec W hW junk hj, C14_offset vec W hW junk hj]
  have h1 : convLengthFull u.length v.length = convLengthFull v.length u.length := by
    unfold convLengthFull; split <;> split <;> omega
  have h2 : convExpected (!clear) u v out offset = convExpected (!clear) v u out offset := by
    unfold convExpected
    simp only [convAt_comm u v]
  rw [h1, h2]

example : convolutionAllocCentral true 4 [0, 0, 0, 0] [1, 2, 3, 4] [(1 : ℤ), 1] = .ok [3, 5, 7] := by
  unfold convolutionAllocCentral convolutionAlloc
  rw [C14_offset true 4 (by omega) _ rfl]; decide +kernel
-- an empty operand in central mode fails the assertion instead of returning an empty signal
example : convolutionAllocCentral true 4 [0, 0, 0, 0] [] [(1 : ℤ), 1] = .assertFail := by
  unfold convolutionAllocCentral convolutionAlloc
  rw [C14_offset true 4 (by omega) _ rfl]; decide +kernel

end
end Verif
