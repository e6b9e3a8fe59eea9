import Verif.Lemmas.Rounding2
import Verif.Lemmas.Rounding3
import Verif.Lemmas.BinaryFormat
import Verif.Props.Convolution
import Mathlib.Tactic.NormNum

/-!
# C74: convolution in floating point

`A : FloatArith F` says that `F` is a floating point type (Verif/Spec/FloatArith.lean).  `convAt` is the convolution sum
(Verif/Spec/Convolution.lean), applied to the exact values of the samples or to their magnitudes.
The error of every output sample is at most a *fixed* multiple of `u` times the convolution of the magnitudes, whatever the
lengths: short inputs take the sliding kernel, long ones the compensated one.
-/

set_option linter.unusedSimpArgs false

namespace Verif

section
variable {F : Type} [Zero F] [Add F] [Sub F] [Mul F] [Fma F] (A : FloatArith F)

/-- the value the output sample `j` had before, which counts only when it is not cleared -/
def prevVal (clear : Bool) (out : List F) (j : ℕ) : ℝ := if clear then 0 else A.val (sig out j)

/-- **C74** the compensated kernel behind `Convolution` for long inputs: the constant does not depend on the length. -/
theorem C74_compensated_kernel (vec : Bool) (W : ℕ) (hW : 0 < W) (junk : List F)
    (hj : junk.length = if vec then W else 1) (u v out : List F) (n : ℕ) (acc : Bool)
    (hu : A.u ≤ 1 / 1000) (hlen : (min u.length v.length : ℕ) * A.u ≤ 2 / 5)
    (hfu : ∀ a ∈ u, A.finite a) (hfv : ∀ a ∈ v, A.finite a) (hfo : acc = true → ∀ a ∈ out, A.finite a)
    (hh : ∀ j, j < out.length → 10 * (|prevVal A (!acc) out j| +
      convAt (u.map fun a => |A.val a|) (v.map fun a => |A.val a|) (n + j) +
      (min u.length v.length : ℕ) * A.tiny) ≤ A.huge) :
    ∃ out', convolutionReduceVec vec W junk plusCompensated u v out n acc = .ok out' ∧ out'.length = out.length ∧
      ∀ j, j < out.length → A.finite (sig out' j) ∧
        |A.val (sig out' j) - (prevVal A (!acc) out j + convAt (u.map A.val) (v.map A.val) (n + j))| ≤
          26 * A.u * (|prevVal A (!acc) out j| +
            convAt (u.map fun a => |A.val a|) (v.map fun a => |A.val a|) (n + j)) +
          2 * ((min u.length v.length : ℕ) * A.tiny) := by
  have hW' : 0 < if vec then W else 1 := by split <;> omega
  have hprev : ∀ j, A.val (if acc = true then sig out j else 0) = prevVal A (!acc) out j := by
    intro j
    cases acc <;> simp [prevVal, A.val_zero]
  have hpf : ∀ j, j < out.length → A.finite (if acc = true then sig out j else 0) := by
    intro j hj
    cases hacc : acc
    · simpa using A.zero_finite
    · simp only [if_true]
      rw [← sigI_nat]
      exact A.finite_sigI (hfo hacc) _
  have body : ∀ u v : List F, u.length ≤ v.length → (u.length : ℝ) * A.u ≤ 2 / 5 →
      (∀ a ∈ u, A.finite a) → (∀ a ∈ v, A.finite a) →
      (∀ j, j < out.length → 10 * (|prevVal A (!acc) out j| + A.convMag u v (n + j) + u.length * A.tiny) ≤ A.huge) →
      ∃ out', reduceVecBody (if vec then W else 1) junk plusCompensated u v out n acc = .ok out' ∧
        out'.length = out.length ∧ ∀ j, j < out.length → A.finite (sig out' j) ∧
        |A.val (sig out' j) - (prevVal A (!acc) out j + A.convVal u v (n + j))| ≤
          26 * A.u * (|prevVal A (!acc) out j| + A.convMag u v (n + j)) + 2 * (u.length * A.tiny) := by
    intro u v _ hl hfu hfv hh
    obtain ⟨o, h1, h2, h3⟩ := reduceVecBody_lanes hW' (plusCompensated : ReduceOp F) junk hj u v out n acc
    refine ⟨o, h1, h2, fun j hj => ?_⟩
    have := laneConv_rounding A hu (h3 j hj) hfu hfv (hpf j hj) hl (by rw [hprev]; exact hh j hj)
    rw [hprev] at this
    exact this
  unfold convolutionReduceVec
  simp only
  split
  · rename_i hlt
    have hmin : min u.length v.length = v.length := by omega
    rw [hmin] at hlen hh ⊢
    obtain ⟨o, h1, h2, h3⟩ := body v u hlt.le hlen hfv hfu (fun j hj => by
      rw [A.convMag_comm]; exact hh j hj)
    refine ⟨o, h1, h2, fun j hj => ?_⟩
    have := h3 j hj
    rw [A.convMag_comm, A.convVal_comm] at this
    exact this
  · rename_i hlt
    have hmin : min u.length v.length = u.length := by omega
    rw [hmin] at hlen hh ⊢
    exact body u v (by omega) hlen hfu hfv hh

/-- **C74** the sliding kernel: every length, every register width, fused or separate multiply-add. -/
theorem C74_sliding_kernel (vec : Bool) (W : ℕ) (u v out : List F) (n : ℕ) (acc : Bool) (m : ℕ)
    (hm : m = if slideSwaps u.length v.length then v.length else u.length)
    (hfu : ∀ a ∈ u, A.finite a) (hfv : ∀ a ∈ v, A.finite a) (hfo : acc = true → ∀ a ∈ out, A.finite a)
    (hh : ∀ j, j < out.length → (1 + A.u) ^ (m + 1) * (|prevVal A (!acc) out j| +
      convAt (u.map fun a => |A.val a|) (v.map fun a => |A.val a|) (n + j) + m * A.tiny) ≤ A.huge) :
    ∃ out', convolutionSlide vec W u v out n acc = .ok out' ∧ out'.length = out.length ∧
      ∀ j, j < out.length → A.finite (sig out' j) ∧
        |A.val (sig out' j) - (prevVal A (!acc) out j + convAt (u.map A.val) (v.map A.val) (n + j))| ≤
          ((1 + A.u) ^ (m + 1) - 1) * (|prevVal A (!acc) out j| +
            convAt (u.map fun a => |A.val a|) (v.map fun a => |A.val a|) (n + j)) +
          m * (1 + A.u) ^ m * A.tiny := by
  have hprev : ∀ j, A.val (if acc = true then sig out j else 0) = prevVal A (!acc) out j := by
    intro j
    cases acc <;> simp [prevVal, A.val_zero]
  obtain ⟨o, h1, h2, h3⟩ := slide_rounding A vec W u v out n acc m hm hfu hfv hfo (fun j hj => by
    rw [hprev]; exact hh j hj)
  refine ⟨o, h1, h2, fun j hj => ?_⟩
  have := h3 j hj
  rw [hprev] at this
  exact ⟨this.fin, this.err⟩

/-- **C74** `Convolution`: every output sample is within `35 u` of the exact convolution of the exact values, relative to
the convolution of the magnitudes - for inputs of any length up to `0.4 / u` samples, at any offset, cleared or
accumulated. -/
theorem C74_convolution (vec : Bool) (W : ℕ) (hW : 0 < W) (junk : List F)
    (hj : junk.length = if vec then W else 1) (u v out : List F) (offset : ℕ) (clear : Bool)
    (hb : offset + out.length ≤ convLengthFull u.length v.length)
    (hu : A.u ≤ 1 / 1000) (hlen : (min u.length v.length : ℕ) * A.u ≤ 2 / 5)
    (hfu : ∀ a ∈ u, A.finite a) (hfv : ∀ a ∈ v, A.finite a) (hfo : clear = false → ∀ a ∈ out, A.finite a)
    (hh : ∀ j, j < out.length → 10 * (|prevVal A clear out j| +
      convAt (u.map fun a => |A.val a|) (v.map fun a => |A.val a|) (offset + j) +
      (min u.length v.length : ℕ) * A.tiny) ≤ A.huge) :
    ∃ out', convolution vec W junk out u v offset clear = .ok out' ∧ out'.length = out.length ∧
      ∀ j, j < out.length → A.finite (sig out' j) ∧
        |A.val (sig out' j) - (prevVal A clear out j + convAt (u.map A.val) (v.map A.val) (offset + j))| ≤
          35 * A.u * (|prevVal A clear out j| +
            convAt (u.map fun a => |A.val a|) (v.map fun a => |A.val a|) (offset + j)) +
          2 * ((min u.length v.length : ℕ) * A.tiny) := by
  have hu0 := A.u_nonneg
  have ht0 := A.tiny_nonneg
  have hpos : ∀ j, 0 ≤ |prevVal A clear out j| +
      convAt (u.map fun a => |A.val a|) (v.map fun a => |A.val a|) (offset + j) := fun j =>
    add_nonneg (abs_nonneg _) (A.convMag_nonneg u v _)
  unfold convolution
  rw [cassert_true hb, Out.ok_bind]
  by_cases hs : min u.length v.length ≤ 32
  · rw [if_pos hs]
    obtain ⟨m, hm⟩ : ∃ m, m = if slideSwaps u.length v.length then v.length else u.length := ⟨_, rfl⟩
    have hmm : m = min u.length v.length := by
      have hsw : slideSwaps u.length v.length = decide (v.length < u.length) := by
        unfold slideSwaps
        rw [if_neg (show ¬ min u.length v.length > 512 by omega)]
      rw [hm, hsw]
      simp only [decide_eq_true_eq]
      split <;> omega
    have hp : ∀ k : ℕ, k ≤ 33 → (1 + A.u) ^ k - 1 ≤ 35 * A.u := by
      intro k hk
      have hk' : (k : ℝ) ≤ 33 := by exact_mod_cast hk
      have h1 : (k : ℝ) * A.u ≤ 33 * A.u := mul_le_mul_of_nonneg_right hk' hu0
      have h2 := one_add_pow_le hu0 k (by linarith)
      have h3 : 1 + k * A.u ≤ 35 / 33 := by linarith
      have h4 := mul_le_mul h1 h3 (by positivity) (by positivity)
      linarith
    obtain ⟨o, h1, h2, h3⟩ := C74_sliding_kernel A vec W u v out offset (!clear) m hm hfu hfv
      (by intro h; exact hfo (by simpa using h)) (by
        intro j hj
        rw [Bool.not_not]
        refine le_trans ?_ (hh j hj)
        rw [hmm]
        have e := hp (min u.length v.length + 1) (by omega)
        exact mul_le_mul_of_nonneg_right (by linarith) (add_nonneg (hpos j) (by positivity)))
    refine ⟨o, h1, h2, fun j hj => ⟨(h3 j hj).1, ?_⟩⟩
    have h4 := (h3 j hj).2
    rw [Bool.not_not, hmm] at h4
    have e1 := mul_le_mul_of_nonneg_right (hp (min u.length v.length + 1) (by omega)) (hpos j)
    have e2 := hp (min u.length v.length) (by omega)
    have e3 := mul_le_mul_of_nonneg_right (show (1 + A.u) ^ (min u.length v.length) ≤ 2 by linarith)
      (show 0 ≤ ((min u.length v.length : ℕ) : ℝ) * A.tiny by positivity)
    linarith
  · rw [if_neg hs]
    obtain ⟨o, h1, h2, h3⟩ := C74_compensated_kernel A vec W hW junk hj u v out offset (!clear) hu hlen hfu hfv
      (by intro h; exact hfo (by simpa using h)) (by
        intro j hj
        rw [Bool.not_not]
        exact hh j hj)
    refine ⟨o, h1, h2, fun j hj => ⟨(h3 j hj).1, ?_⟩⟩
    have h4 := (h3 j hj).2
    rw [Bool.not_not] at h4
    have := mul_nonneg hu0 (hpos j)
    linarith

/-- **C74** the allocating form, any part of the convolution. -/
theorem C74_convolution_alloc (vec : Bool) (W : ℕ) (hW : 0 < W) (junk : List F)
    (hj : junk.length = if vec then W else 1) (u v : List F) (offset length : ℕ)
    (hb : offset + length ≤ convLengthFull u.length v.length)
    (hu : A.u ≤ 1 / 1000) (hlen : (min u.length v.length : ℕ) * A.u ≤ 2 / 5)
    (hfu : ∀ a ∈ u, A.finite a) (hfv : ∀ a ∈ v, A.finite a)
    (hh : ∀ j, j < length → 10 * (convAt (u.map fun a => |A.val a|) (v.map fun a => |A.val a|) (offset + j) +
      (min u.length v.length : ℕ) * A.tiny) ≤ A.huge) :
    ∃ out', convolutionAlloc vec W junk u v offset length = .ok out' ∧ out'.length = length ∧
      ∀ j, j < length → A.finite (sig out' j) ∧
        |A.val (sig out' j) - convAt (u.map A.val) (v.map A.val) (offset + j)| ≤
          35 * A.u * convAt (u.map fun a => |A.val a|) (v.map fun a => |A.val a|) (offset + j) +
          2 * ((min u.length v.length : ℕ) * A.tiny) := by
  have hz : ∀ j, prevVal A false (List.replicate length 0) j = 0 := by
    intro j
    simp only [prevVal, Bool.false_eq_true, if_false]
    have : sig (List.replicate length (0 : F)) j = 0 := by
      unfold sig
      by_cases h : j < length
      · rw [List.getD_eq_getElem _ _ (by simpa using h)]; simp
      · rw [List.getD_eq_default _ _ (by simp; omega)]
    rw [this, A.val_zero]
  obtain ⟨o, h1, h2, h3⟩ := C74_convolution A vec W hW junk hj u v (List.replicate length 0) offset false
    (by simpa using hb) hu hlen hfu hfv (by
      intro _ a ha
      rw [List.eq_of_mem_replicate ha]
      exact A.zero_finite) (by
      intro j hj
      rw [hz, abs_zero, zero_add]
      exact hh j (by simpa using hj))
  rw [List.length_replicate] at h2 h3
  refine ⟨o, h1, h2, fun j hj => ?_⟩
  have := h3 j hj
  rw [hz, abs_zero, zero_add, zero_add] at this
  exact this

end

/-! ### the hypotheses hold for `float` and long inputs -/

section example_float

/-- the integer `k` as a `float` -/
noncomputable def Bin.int (k : ℤ) : Bin 24 (-149) := .num k ⟨k * 2 ^ 149, by
  push_cast
  rw [mul_assoc]
  norm_num⟩

theorem Bin.finite_int {k : ℤ} (h : |(k : ℝ)| ≤ 2 ^ 128) : (Bin.arith 24 (-149) (by norm_num) (by norm_num)).finite
    (Bin.int k) := h

/-- forty times three against fifty times minus five, on the compensated path (both are longer than 32) -/
example : ∃ out', convolutionAlloc true 8 (List.replicate 8 0) (List.replicate 40 (Bin.int 3))
    (List.replicate 50 (Bin.int (-5))) 10 30 = .ok out' ∧ out'.length = 30 ∧
    ∀ j, j < 30 → |(sig out' j).val - convAt (List.replicate 40 3) (List.replicate 50 (-5)) (10 + j)| ≤ 1 / 700 := by
  obtain ⟨A, hA⟩ : ∃ A, A = Bin.arith 24 (-149) (by norm_num) (by norm_num) := ⟨_, rfl⟩
  have hu : A.u = 2 ^ (-(24 : ℤ)) := by rw [hA]; rfl
  have ht : A.tiny = 2 ^ (-150 : ℤ) := by rw [hA]; change (2 : ℝ) ^ ((-149 : ℤ) - 1) = _; norm_num
  have hh : A.huge = 2 ^ 126 := by rw [hA]; rfl
  have hv : ∀ k : ℤ, A.val (Bin.int k) = k := by intro k; rw [hA]; rfl
  have hmag : ∀ N, convAt (List.replicate 40 (3 : ℝ)) (List.replicate 50 5) N ≤ 40 * 15 := by
    intro N
    unfold convAt
    rw [← Finset.sum_subset (s₁ := (Finset.range (N + 1)).filter (· < 40)) (Finset.filter_subset _ _)]
    · have hle : ∀ i ∈ (Finset.range (N + 1)).filter (· < 40),
          sig (List.replicate 40 (3 : ℝ)) i * sig (List.replicate 50 (5 : ℝ)) (N - i) ≤ 15 := by
        intro i _
        have h1 : ∀ (n i : ℕ) (a : ℝ), 0 ≤ a → 0 ≤ sig (List.replicate n a) i ∧ sig (List.replicate n a) i ≤ a := by
          intro n i a ha
          unfold sig
          by_cases h : i < n
          · rw [List.getD_eq_getElem _ _ (by simpa using h)]; simp [ha]
          · rw [List.getD_eq_default _ _ (by simp; omega)]; exact ⟨le_rfl, ha⟩
        have := mul_le_mul (h1 40 i 3 (by norm_num)).2 (h1 50 (N - i) 5 (by norm_num)).2
          (h1 50 (N - i) 5 (by norm_num)).1 (by norm_num)
        linarith
      refine (Finset.sum_le_card_nsmul _ _ _ hle).trans ?_
      rw [nsmul_eq_mul]
      have hc : ((Finset.range (N + 1)).filter (· < 40)).card ≤ 40 := by
        calc _ ≤ (Finset.range 40).card := Finset.card_le_card (by
              intro i hi
              simp only [Finset.mem_filter, Finset.mem_range] at hi ⊢
              exact hi.2)
          _ = 40 := Finset.card_range 40
      have : ((((Finset.range (N + 1)).filter (· < 40)).card : ℕ) : ℝ) ≤ 40 := by exact_mod_cast hc
      exact mul_le_mul_of_nonneg_right this (by norm_num)
    · intro i _ hi2
      have : ¬ i < 40 := by
        intro h
        apply hi2
        simp_all
      have hz : sig (List.replicate 40 (3 : ℝ)) i = 0 := by
        unfold sig
        rw [List.getD_eq_default _ _ (by simp; omega)]
      rw [hz, zero_mul]
  have e1 : (List.replicate 40 (Bin.int 3)).map (fun a => |A.val a|) = List.replicate 40 3 := by
    rw [List.map_replicate, hv]; norm_num
  have e2 : (List.replicate 50 (Bin.int (-5))).map (fun a => |A.val a|) = List.replicate 50 5 := by
    rw [List.map_replicate, hv]; norm_num
  obtain ⟨o, h1, h2, h3⟩ := C74_convolution_alloc A true 8 (by norm_num) (List.replicate 8 0) (by simp)
    (List.replicate 40 (Bin.int 3)) (List.replicate 50 (Bin.int (-5))) 10 30 (by simp [convLengthFull])
    (by rw [hu]; norm_num) (by rw [hu]; norm_num)
    (by
      intro a ha
      rw [List.eq_of_mem_replicate ha, hA]
      exact Bin.finite_int (by norm_num))
    (by
      intro a ha
      rw [List.eq_of_mem_replicate ha, hA]
      exact Bin.finite_int (by norm_num))
    (by
      intro j _
      rw [e1, e2, ht, hh]
      have := hmag (10 + j)
      simp only [List.length_replicate]
      norm_num
      linarith)
  refine ⟨o, h1, h2, fun j hj => ?_⟩
  have h4 := (h3 j hj).2
  rw [e1, e2, ht, hu] at h4
  have h5 := hmag (10 + j)
  have e3 : (List.replicate 40 (Bin.int 3)).map A.val = List.replicate 40 3 := by
    rw [List.map_replicate, hv]; norm_num
  have e4 : (List.replicate 50 (Bin.int (-5))).map A.val = List.replicate 50 (-5) := by
    rw [List.map_replicate, hv]; norm_num
  have e5 : A.val (sig o j) = (sig o j).val := by rw [hA]; rfl
  rw [e3, e4, e5] at h4
  refine h4.trans ?_
  simp only [List.length_replicate]
  norm_num at h5 ⊢
  linarith

end example_float

end Verif
