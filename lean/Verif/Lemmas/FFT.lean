import Verif.Model.FFT
import Verif.Spec.CircularConvolution
import Verif.Lemmas.Convolution2
import Mathlib.RingTheory.RootsOfUnity.Complex
import Mathlib.Algebra.Ring.GeomSum
import Mathlib.Tactic.FieldSimp

set_option linter.unusedSimpArgs false
set_option linter.unusedTactic false

namespace Verif
open Complex Finset

theorem ru_add (n : ℕ) (a b : ℤ) : rootOfUnity n (a + b) = rootOfUnity n a * rootOfUnity n b := by
  unfold rootOfUnity
  rw [← Complex.exp_add]
  congr 1
  push_cast
  ring

@[simp] theorem ru_zero (n : ℕ) : rootOfUnity n 0 = 1 := by simp [rootOfUnity]

theorem ru_mul_self (n : ℕ) (hn : n ≠ 0) (t : ℤ) : rootOfUnity n (n * t) = 1 := by
  unfold rootOfUnity
  rw [Complex.exp_eq_one_iff]
  refine ⟨t, ?_⟩
  have : (n : ℂ) ≠ 0 := by exact_mod_cast hn
  push_cast
  field_simp

theorem ru_period (n : ℕ) (hn : n ≠ 0) (m t : ℤ) : rootOfUnity n (m + n * t) = rootOfUnity n m := by
  rw [ru_add, ru_mul_self n hn, mul_one]

theorem ru_conj (n : ℕ) (m : ℤ) : (starRingEnd ℂ) (rootOfUnity n m) = rootOfUnity n (-m) := by
  unfold rootOfUnity
  rw [← Complex.exp_conj]
  congr 1
  simp [Complex.conj_ofNat]

theorem ru_eq_pow (n : ℕ) (m : ℤ) (k : ℕ) : rootOfUnity n (m * k) = rootOfUnity n m ^ k := by
  unfold rootOfUnity
  rw [← Complex.exp_nat_mul]
  congr 1
  push_cast
  ring

theorem ru_eq_one_iff (n : ℕ) (hn : n ≠ 0) (m : ℤ) : rootOfUnity n m = 1 ↔ (n : ℤ) ∣ m := by
  constructor
  · intro h
    unfold rootOfUnity at h
    rw [Complex.exp_eq_one_iff] at h
    obtain ⟨t, ht⟩ := h
    refine ⟨t, ?_⟩
    have hn' : (n : ℂ) ≠ 0 := by exact_mod_cast hn
    have h2 : (2 * Real.pi * I : ℂ) ≠ 0 := by
      simp [Real.pi_ne_zero, I_ne_zero]
    have : (2 * Real.pi * I : ℂ) * m = (2 * Real.pi * I) * (n * t) := by
      field_simp at ht
      linear_combination (2 * Real.pi * I : ℂ) * ht
    have := mul_left_cancel₀ h2 this
    exact_mod_cast this
  · rintro ⟨t, rfl⟩
    exact ru_mul_self n hn t

/-- orthogonality -/
theorem ru_sum (n : ℕ) (hn : n ≠ 0) (d : ℤ) :
    ∑ m ∈ range n, rootOfUnity n (d * m) = if (n : ℤ) ∣ d then (n : ℂ) else 0 := by
  simp only [ru_eq_pow]
  split
  · rename_i h
    rw [(ru_eq_one_iff n hn d).2 h]
    simp
  · rename_i h
    have h1 : rootOfUnity n d ≠ 1 := fun e => h ((ru_eq_one_iff n hn d).1 e)
    have h2 : rootOfUnity n d ^ n = 1 := by
      rw [← ru_eq_pow, mul_comm, ru_mul_self n hn]
    have := mul_geom_sum (rootOfUnity n d) n
    rw [h2, sub_self] at this
    rcases mul_eq_zero.1 this with h | h
    · exact absurd (sub_eq_zero.1 h) h1
    · exact h

theorem c2cForward_reg (x : List ℂ) : c2cForward x = reg x.length (fun k => dftAt x k) := rfl

/-- inverse DFT of the product of two DFTs, as a function of the bin values -/
theorem dft_product (a b : List ℂ) (n : ℕ) (hn : n ≠ 0) (ha : a.length = n) (hb : b.length = n) (k : ℕ)
    (hk : k < n) :
    (1 / (n : ℂ)) * ∑ m ∈ range n, dftAt a m * dftAt b m * rootOfUnity n ((k : ℤ) * m) =
      ∑ i ∈ range n, sig a i * sig b ((k + n - i) % n) := by
  have hn' : (n : ℂ) ≠ 0 := by exact_mod_cast hn
  have h1 : ∑ m ∈ range n, dftAt a m * dftAt b m * rootOfUnity n ((k : ℤ) * m) =
      ∑ i ∈ range n, ∑ j ∈ range n, sig a i * sig b j *
        ∑ m ∈ range n, rootOfUnity n (((k : ℤ) - i - j) * m) := by
    simp only [mul_sum]
    rw [sum_congr rfl (fun i _ => sum_comm), sum_comm]
    apply sum_congr rfl
    intro m _
    unfold dftAt
    rw [ha, hb, sum_mul_sum, sum_mul]
    apply sum_congr rfl
    intro i _
    rw [sum_mul]
    apply sum_congr rfl
    intro j _
    have : ((k : ℤ) - i - j) * m = -((i : ℤ) * m) + -((j : ℤ) * m) + (k : ℤ) * m := by ring
    rw [this, ru_add, ru_add]
    ring
  rw [h1, mul_sum]
  apply sum_congr rfl
  intro i hi
  have hi' := mem_range.1 hi
  rw [sum_eq_single ((k + n - i) % n)]
  · have hd : (n : ℤ) ∣ (k : ℤ) - i - ((k + n - i) % n : ℕ) := by
      have e := Nat.mod_add_div (k + n - i) n
      have e' : (((k + n - i) % n : ℕ) : ℤ) + n * ((k + n - i) / n : ℕ) = k + n - i := by
        have : (((k + n - i) % n + n * ((k + n - i) / n) : ℕ) : ℤ) = ((k + n - i : ℕ) : ℤ) := by rw [e]
        push_cast [Nat.cast_sub (show i ≤ k + n by omega)] at this ⊢
        exact this
      refine ⟨((k + n - i) / n : ℕ) - 1, ?_⟩
      rw [mul_sub]
      omega
    rw [ru_sum n hn, if_pos hd]
    field_simp
  · intro j hj hne
    have hj' := mem_range.1 hj
    rw [ru_sum n hn, if_neg, mul_zero]
    rintro ⟨t, ht⟩
    apply hne
    have hlt : (k + n - i) % n < n := Nat.mod_lt _ (by omega)
    have e := Nat.mod_add_div (k + n - i) n
    have e' : (((k + n - i) % n : ℕ) : ℤ) + n * ((k + n - i) / n : ℕ) = k + n - i := by
      have : (((k + n - i) % n + n * ((k + n - i) / n) : ℕ) : ℤ) = ((k + n - i : ℕ) : ℤ) := by rw [e]
      push_cast [Nat.cast_sub (show i ≤ k + n by omega)] at this ⊢
      exact this
    have hdiv : (n : ℤ) ∣ (((k + n - i) % n : ℕ) : ℤ) - j :=
      ⟨t + 1 - ((k + n - i) / n : ℕ), by rw [mul_sub, mul_add]; omega⟩
    have := Int.eq_zero_of_abs_lt_dvd hdiv (by rw [abs_lt]; omega)
    omega
  · intro h
    exact absurd (mem_range.2 (Nat.mod_lt _ (by omega))) h

theorem pipelineComplex_circular (a b : List ℂ) (h : a.length = b.length) (h0 : a ≠ []) :
    olaPipelineComplex a b = .ok (reg a.length
      (fun k => ∑ i ∈ range a.length, sig a i * sig b ((k + a.length - i) % a.length))) := by
  have hn : a.length ≠ 0 := by simpa using h0
  unfold olaPipelineComplex fftComplex ifftComplex
  simp only [Out.pure_def, Out.ok_bind, c2cForward_reg, ← h]
  rw [require_true (by simp), Out.ok_bind, zipWith_reg]
  unfold c2cBackward
  rw [reg_length]
  congr 1
  apply List.map_congr_left
  intro k hk
  rw [← dft_product a b a.length hn rfl h.symm k (by simpa using hk)]
  congr 1
  apply sum_congr rfl
  intro m hm
  rw [sig_reg, if_pos (mem_range.1 hm)]

theorem sig_reverse {R : Type u} [Zero R] (l : List R) {i : ℕ} (h : i < l.length) :
    sig l.reverse i = sig l (l.length - 1 - i) := by
  unfold sig
  simp only [List.getD_eq_getElem?_getD]
  rw [List.getElem?_reverse h]

/-! ### real spectra -/

theorem sig_map_ofReal (x : List ℝ) (j : ℕ) : sig (x.map ofReal) j = ((sig x j : ℝ) : ℂ) := by
  unfold sig
  by_cases h : j < x.length <;> simp [h]

theorem dft_real_conj (x : List ℝ) (k : ℤ) :
    (starRingEnd ℂ) (dftAt (x.map ofReal) k) = dftAt (x.map ofReal) (-k) := by
  unfold dftAt
  rw [map_sum]
  apply sum_congr rfl
  intro j _
  rw [map_mul, ru_conj, sig_map_ofReal, Complex.conj_ofReal]
  congr 2
  ring

theorem dft_period (x : List ℂ) (hn : x.length ≠ 0) (k t : ℤ) :
    dftAt x (k + x.length * t) = dftAt x k := by
  unfold dftAt
  apply sum_congr rfl
  intro j _
  congr 1
  have : -((j : ℤ) * (k + x.length * t)) = -((j : ℤ) * k) + x.length * (-(j * t)) := by ring
  rw [this, ru_period _ hn]

theorem fftReal_half (x : List ℝ) (h : x ≠ []) :
    fftHalf x = .ok (reg (x.length / 2 + 1) (fun k => dftAt (x.map ofReal) k)) := by
  have hn : x.length ≠ 0 := by simpa using h
  unfold fftHalf fftReal
  dsimp only
  rw [cassert_true (by simp), Out.ok_bind]
  have hr : r2c x = reg (x.length / 2 + 1) (fun k => dftAt (x.map ofReal) k) := rfl
  obtain ⟨o, e1, e2, e3⟩ := storeV_sig (mem := List.replicate (x.length / 2 + 1) (0 : ℂ)) (p := 0)
    (v := r2c x) (by simp [hr])
  have ho : o = r2c x := by
    apply list_ext_sig (by rw [e2, hr]; simp)
    intro i hi
    rw [e3, if_pos (by rw [e2] at hi; simp [hr] at hi ⊢; omega)]
    simp
  rw [if_neg hn, e1, Out.ok_bind, if_neg (by rw [ho, hr, reg_length]; omega), ho, hr]
  rfl

theorem fftFull_eq (x : List ℝ) (h : x ≠ []) :
    fftFull x = .ok (reg x.length (fun k => dftAt (x.map ofReal) k)) := by
  have hn : x.length ≠ 0 := by simpa using h
  unfold fftFull fftReal
  dsimp only
  rw [cassert_true (by simp), Out.ok_bind]
  have hr : r2c x = reg (x.length / 2 + 1) (fun k => dftAt (x.map ofReal) k) := rfl
  obtain ⟨o, e1, e2, e3⟩ := storeV_sig (mem := List.replicate x.length (0 : ℂ)) (p := 0)
    (v := r2c x) (by simp [hr]; omega)
  rw [if_neg hn, e1, Out.ok_bind]
  have hol : o.length = x.length := by rw [e2]; simp
  have ho : ∀ i, i < x.length / 2 + 1 → sig o i = dftAt (x.map ofReal) i := by
    intro i hi
    rw [e3, if_pos (by rw [hr, reg_length]; omega), hr, sig_reg, if_pos (by omega)]
    simp
  split
  · rename_i hc
    have h2 : x.length > 2 := hc.2
    rw [loadV_reg (by omega), Out.ok_bind]
    obtain ⟨p, f1, f2, f3⟩ := storeV_sig (mem := o) (p := x.length / 2 + 1)
      (v := (reg ((x.length + 1) / 2 - 1) (fun i => sig o (1 + i))).reverse) (by simp; omega)
    rw [f1, Out.ok_bind, loadV_reg (by omega), Out.ok_bind, map_reg]
    obtain ⟨q, g1, g2, g3⟩ := storeV_sig (mem := p) (p := x.length / 2 + 1)
      (v := reg (p.length - (x.length / 2 + 1))
        (fun i => (starRingEnd ℂ) (sig p (x.length / 2 + 1 + i)))) (by simp; omega)
    rw [g1]
    congr 1
    apply list_ext_sig (by simp; omega)
    intro i hi
    have hi' : i < x.length := by omega
    rw [sig_reg, if_pos hi', g3, reg_length]
    by_cases c : x.length / 2 + 1 ≤ i
    · rw [if_pos (by omega), sig_reg, if_pos (by omega)]
      have ei : x.length / 2 + 1 + (i - (x.length / 2 + 1)) = i := by omega
      rw [ei, f3, if_pos (by simp; omega)]
      have hrev : sig (reg ((x.length + 1) / 2 - 1) (fun i => sig o (1 + i))).reverse
          (i - (x.length / 2 + 1)) = sig o (x.length - i) := by
        rw [sig_reverse _ (by simp; omega), sig_reg, reg_length, if_pos (by omega)]
        congr 1
        omega
      rw [hrev, ho _ (by omega), dft_real_conj]
      have hp := dft_period (x.map ofReal) (by simpa using hn) (i : ℤ) (-1)
      rw [← hp]
      congr 1
      simp
      omega
    · rw [if_neg (by omega), f3, if_neg (by simp; omega), ho i (by omega)]
  · rename_i hc
    simp only [Out.pure_def]
    congr 1
    have h2 : x.length = 1 ∨ x.length = 2 := by omega
    apply list_ext_sig (by simp; omega)
    intro i hi
    rw [sig_reg, if_pos (by omega), ho i (by omega)]

/-- folding a sum over a mirrored sequence -/
theorem sum_mirror (n : ℕ) (hn : n ≠ 0) (r : ℕ → ℝ) (hr : ∀ k, 0 < k → k < n → r (n - k) = r k) :
    ∑ k ∈ range n, r k = r 0 + 2 * ∑ k ∈ range ((n - 1) / 2), r (k + 1) +
      if n % 2 = 0 then r (n / 2) else 0 := by
  have hrefl : ∀ (m s : ℕ), m + s + 1 = n → ∑ k ∈ range m, r (s + 1 + k) = ∑ k ∈ range m, r (k + 1) := by
    intro m s hms
    rw [← sum_range_reflect]
    apply sum_congr rfl
    intro k hk
    have hk' := mem_range.1 hk
    rw [← hr (k + 1) (by omega) (by omega)]
    congr 1
    omega
  rcases Nat.even_or_odd' n with ⟨m, rfl | rfl⟩
  · have hm : 0 < m := by omega
    have e : 2 * m = (1 + (m - 1)) + 1 + (m - 1) := by omega
    have e1 : (2 * m - 1) / 2 = m - 1 := by omega
    rw [if_pos (by omega), e1, show 2 * m / 2 = m by omega]
    have := hrefl (m - 1) m (by omega)
    conv_lhs => rw [e]
    rw [sum_range_add, sum_range_add, sum_range_add]
    simp only [sum_range_one, add_zero]
    have e3 : 1 + (m - 1) = m := by omega
    rw [e3]
    have e4 : ∑ x ∈ range (m - 1), r (m + 1 + x) = ∑ x ∈ range (m - 1), r (x + 1) := this
    rw [e4]
    have e5 : ∑ x ∈ range (m - 1), r (1 + x) = ∑ x ∈ range (m - 1), r (x + 1) :=
      sum_congr rfl fun x _ => by rw [add_comm]
    rw [e5]
    ring
  · have e : 2 * m + 1 = (1 + m) + m := by omega
    have e1 : (2 * m + 1 - 1) / 2 = m := by omega
    rw [if_neg (by omega), e1]
    have := hrefl m m (by omega)
    conv_lhs => rw [e]
    rw [sum_range_add, sum_range_add]
    simp only [sum_range_one, add_zero]
    have e4 : ∑ x ∈ range m, r (1 + m + x) = ∑ x ∈ range m, r (x + 1) := by
      rw [← this]; apply sum_congr rfl; intro x _; congr 1; omega
    rw [e4]
    have e5 : ∑ x ∈ range m, r (1 + x) = ∑ x ∈ range m, r (x + 1) :=
      sum_congr rfl fun x _ => by rw [add_comm]
    rw [e5]
    ring

theorem ru_half (n : ℕ) (hn : n ≠ 0) (h : n % 2 = 0) (j : ℕ) :
    rootOfUnity n ((j : ℤ) * (n / 2 : ℕ)) = (-1) ^ j := by
  rw [mul_comm, ru_eq_pow]
  congr 1
  unfold rootOfUnity
  rw [← Complex.exp_pi_mul_I]
  congr 1
  have hn' : (n : ℂ) ≠ 0 := by exact_mod_cast hn
  have e : ((n / 2 : ℕ) : ℂ) * 2 = n := by
    have : n / 2 * 2 = n := by omega
    exact_mod_cast this
  rw [div_eq_iff hn', Int.cast_natCast]
  linear_combination (Real.pi * I : ℂ) * e

theorem c2r_eq (n : ℕ) (hn : n ≠ 0) (X : ℤ → ℂ) (hX : ∀ k : ℤ, (starRingEnd ℂ) (X k) = X (-k))
    (hper : ∀ k : ℤ, X (k + n) = X k) (l : List ℂ) (hl : ∀ k, k < n / 2 + 1 → sig l k = X k) :
    c2r n l = reg n (fun j => ((1 / (n : ℂ)) * ∑ k ∈ range n, X k * rootOfUnity n ((j : ℤ) * k)).re) := by
  unfold c2r
  apply reg_congr
  intro j _
  have hre : ((1 / (n : ℂ)) * ∑ k ∈ range n, X k * rootOfUnity n ((j : ℤ) * k)).re =
      (1 / (n : ℝ)) * ∑ k ∈ range n, (X k * rootOfUnity n ((j : ℤ) * k)).re := by
    have : (1 / (n : ℂ)) = ((1 / (n : ℝ) : ℝ) : ℂ) := by push_cast; ring
    rw [this, Complex.re_ofReal_mul, Complex.re_sum]
  rw [hre]
  congr 1
  rw [sum_mirror n hn (fun k => (X k * rootOfUnity n ((j : ℤ) * k)).re)]
  · congr 1
    · congr 1
      · simp [hl 0 (by omega)]
      · congr 1
        apply sum_congr rfl
        intro k hk
        have := mem_range.1 hk
        rw [hl (k + 1) (by omega)]
    · split
      · rename_i h
        rw [hl _ (by omega), ru_half n hn h]
        rcases neg_one_pow_eq_or ℂ j with h1 | h1 <;> rcases neg_one_pow_eq_or ℝ j with h2 | h2 <;>
          simp [h1, h2]
        all_goals
          exfalso
          have : ((-1 : ℝ) ^ j : ℂ) = (-1) ^ j := by norm_num
          have h3 : (((-1 : ℝ) ^ j : ℝ) : ℂ) = (-1) ^ j := by push_cast; ring
          rw [h1, h2] at h3
          norm_num at h3
      · rfl
  · intro k hk0 hk
    have h1 : (X ((n - k : ℕ) : ℤ) * rootOfUnity n ((j : ℤ) * ((n - k : ℕ) : ℤ))) =
        (starRingEnd ℂ) (X k * rootOfUnity n ((j : ℤ) * k)) := by
      rw [map_mul, hX, ru_conj]
      have e1 : X ((n - k : ℕ) : ℤ) = X (-(k : ℤ)) := by
        rw [← hper (-(k : ℤ))]; congr 1; omega
      have e2 : rootOfUnity n ((j : ℤ) * ((n - k : ℕ) : ℤ)) = rootOfUnity n (-((j : ℤ) * k)) := by
        rw [← ru_period n hn (-((j : ℤ) * k)) j]
        congr 1
        push_cast [Nat.cast_sub hk.le]
        ring
      rw [e1, e2]
    rw [h1, Complex.conj_re]

theorem pipelineReal_circular (a b : List ℝ) (h : a.length = b.length) (h0 : a ≠ []) :
    olaPipelineReal a b = .ok (reg a.length
      (fun k => ∑ i ∈ range a.length, sig a i * sig b ((k + a.length - i) % a.length))) := by
  have hn : a.length ≠ 0 := by simpa using h0
  have hb0 : b ≠ [] := by intro e; subst e; simp at h; exact h0 h
  unfold olaPipelineReal
  rw [fftReal_half b hb0, Out.ok_bind, fftReal_half a h0, Out.ok_bind, require_true (by simp [h]),
    Out.ok_bind, ← h, zipWith_reg]
  unfold ifftHalf ifftReal
  simp only [reg_length]
  have hsize : (if decide (a.length % 2 = 0) = true then usub ((a.length / 2 + 1) * 2) 2
      else usub ((a.length / 2 + 1) * 2) 1) = a.length := by
    unfold usub
    split
    · rename_i hh
      have := of_decide_eq_true hh
      rw [if_pos (by omega)]; omega
    · rename_i hh
      have : ¬ a.length % 2 = 0 := fun e => hh (decide_eq_true e)
      rw [if_pos (by omega)]; omega
  rw [hsize, cassert_true (Or.inl rfl), Out.ok_bind]
  simp only [Out.pure_def]
  congr 1
  rw [c2r_eq a.length hn (fun k => dftAt (a.map ofReal) k * dftAt (b.map ofReal) k)]
  · apply reg_congr
    intro k hk
    have := dft_product (a.map ofReal) (b.map ofReal) a.length hn (by simp) (by simp [h]) k hk
    rw [this]
    have e : ∑ i ∈ range a.length, sig (a.map ofReal) i * sig (b.map ofReal) ((k + a.length - i) % a.length) =
        ((∑ i ∈ range a.length, sig a i * sig b ((k + a.length - i) % a.length) : ℝ) : ℂ) := by
      push_cast
      apply sum_congr rfl
      intro i _
      rw [sig_map_ofReal, sig_map_ofReal]
    rw [e, Complex.ofReal_re]
  · intro k
    rw [map_mul, dft_real_conj, dft_real_conj]
  · intro k
    have e1 := dft_period (a.map ofReal) (by simpa using hn) k 1
    have e2 := dft_period (b.map ofReal) (by simpa [h] using hn) k 1
    simp only [List.length_map, mul_one] at e1 e2
    rw [← h] at e2
    rw [e1, e2]
  · intro k hk
    rw [sig_reg, if_pos hk]

theorem pipelineMixed_eq (a : List ℝ) (b : List ℂ) (h0 : a ≠ []) :
    olaPipelineMixed a b = olaPipelineComplex (a.map ofReal) b := by
  unfold olaPipelineMixed olaPipelineComplex
  rw [fftFull_eq a h0]
  simp only [fftComplex, Out.pure_def, Out.ok_bind, c2cForward_reg, List.length_map]

end Verif
