import Verif.Lemmas.FFT
import Mathlib.Tactic.Linarith

/-!
# Properties C35–C37: spectra and FFT utilities
-/

namespace Verif
open Complex

/-- **C35**: the full spectrum of a real signal consists of the bins of the discrete Fourier transform. -/
theorem C35_full_bins (x : List ℝ) (h : x ≠ []) :
    ∃ X, fftFull x = .ok X ∧ X.length = x.length ∧
      ∀ k, k < x.length → sig X k = dftAt (x.map ofReal) k := by
  refine ⟨_, fftFull_eq x h, by simp, fun k hk => ?_⟩
  rw [sig_reg, if_pos hk]

/-- **C35**: the full spectrum is conjugate symmetric. -/
theorem C35_conjugate_symmetric (x : List ℝ) (h : x ≠ []) :
    ∃ X, fftFull x = .ok X ∧ X.length = x.length ∧ (sig X 0).im = 0 ∧
      ∀ k, 0 < k → k < x.length → sig X (x.length - k) = (starRingEnd ℂ) (sig X k) := by
  have hn : 0 < x.length := List.length_pos_iff.2 h
  obtain ⟨X, h1, h2, h3⟩ := C35_full_bins x h
  refine ⟨X, h1, h2, ?_, fun k h0 hk => ?_⟩
  · rw [h3 0 hn]
    have := dft_real_conj x 0
    simp only [neg_zero] at this
    exact Complex.conj_eq_iff_im.1 this
  · rw [h3 k hk, h3 _ (by omega), dft_real_conj]
    have hp := dft_period (x.map ofReal) (by simpa using (by omega : x.length ≠ 0)) (-(k : ℤ)) 1
    rw [← hp]
    congr 1
    simp
    omega

/-- **C35**: the half spectrum is the first `n/2 + 1` bins of the full spectrum. -/
theorem C35_half_agrees (x : List ℝ) (h : x ≠ []) :
    ∃ X, fftFull x = .ok X ∧ fftHalf x = .ok (X.take (x.length / 2 + 1)) ∧
      (X.take (x.length / 2 + 1)).length = x.length / 2 + 1 := by
  have hn : 0 < x.length := List.length_pos_iff.2 h
  refine ⟨_, fftFull_eq x h, ?_, by simp; omega⟩
  rw [fftReal_half x h]
  congr 1
  apply List.ext_getElem
  · simp; omega
  · intro i h1 h2
    simp [reg]

/-- the inverse transform of a complex spectrum undoes the transform -/
theorem C35_complex_roundtrip (x : List ℂ) (h : x ≠ []) :
    (fftComplex x >>= ifftComplex) = .ok x := by
  have hn : x.length ≠ 0 := by simpa using h
  have hn' : (x.length : ℂ) ≠ 0 := by exact_mod_cast hn
  simp only [fftComplex, ifftComplex, Out.pure_def, Out.ok_bind]
  congr 1
  have hl : (c2cForward x).length = x.length := by simp [c2cForward]
  have hb : c2cBackward (c2cForward x) = reg (c2cForward x).length (fun j =>
    (1 / ((c2cForward x).length : ℂ)) * ∑ k ∈ Finset.range (c2cForward x).length,
      sig (c2cForward x) k * rootOfUnity (c2cForward x).length ((j : ℤ) * k)) := rfl
  rw [hb, hl]
  apply list_ext_sig (by simp)
  intro j hj
  rw [sig_reg, if_pos (by simpa using hj)]
  have hj' : j < x.length := by simpa using hj
  have e : ∀ k ∈ Finset.range x.length, sig (c2cForward x) k * rootOfUnity x.length ((j : ℤ) * k) =
      ∑ i ∈ Finset.range x.length, sig x i * rootOfUnity x.length (((j : ℤ) - i) * k) := by
    intro k hk
    rw [c2cForward_reg, sig_reg, if_pos (Finset.mem_range.1 hk), dftAt, Finset.sum_mul]
    apply Finset.sum_congr rfl
    intro i _
    rw [mul_assoc, ← ru_add]
    congr 2
    ring
  rw [Finset.sum_congr rfl e, Finset.sum_comm]
  simp only [← Finset.mul_sum]
  rw [Finset.sum_eq_single j]
  · rw [ru_sum _ hn, if_pos (by simp)]
    field_simp
  · intro i hi hne
    rw [ru_sum _ hn, if_neg, mul_zero]
    intro hd
    have hi' := Finset.mem_range.1 hi
    have := Int.eq_zero_of_abs_lt_dvd hd (by rw [abs_lt]; omega)
    omega
  · intro hh
    exact absurd (Finset.mem_range.2 hj') hh

/-- **C35** inverse: the inverse real transform restores the signal from the half spectrum (told the parity of
the original length) and from the full one. -/
theorem C35_real_roundtrip (x : List ℝ) (h : x ≠ []) :
    (fftHalf x >>= fun X => ifftHalf X (decide (x.length % 2 = 0))) = .ok x ∧
    (fftFull x >>= ifftFull) = .ok x := by
  have hn : x.length ≠ 0 := by simpa using h
  have hcore : ∀ l : List ℂ, (∀ k, k < x.length / 2 + 1 → sig l k = dftAt (x.map ofReal) k) →
      c2r x.length l = x := by
    intro l hl
    rw [c2r_eq x.length hn (fun k => dftAt (x.map ofReal) k) (dft_real_conj x)
      (fun k => by simpa using dft_period (x.map ofReal) (by simpa using hn) k 1) l hl]
    have hx : reg x.length (fun j => sig x j) = x := by
      apply list_ext_sig (by simp)
      intro i hi
      rw [sig_reg, if_pos (by simpa using hi)]
    conv_rhs => rw [← hx]
    apply reg_congr
    intro j hj
    have hc := C35_complex_roundtrip (x.map ofReal) (by simpa using h)
    simp only [fftComplex, ifftComplex, Out.pure_def, Out.ok_bind, Out.ok.injEq] at hc
    have h1 := congrArg (fun l => sig l j) hc
    rw [sig_map_ofReal] at h1
    have hb : c2cBackward (c2cForward (x.map ofReal)) = reg (c2cForward (x.map ofReal)).length (fun j =>
      (1 / ((c2cForward (x.map ofReal)).length : ℂ)) * ∑ k ∈ Finset.range (c2cForward (x.map ofReal)).length,
      sig (c2cForward (x.map ofReal)) k * rootOfUnity (c2cForward (x.map ofReal)).length ((j : ℤ) * k)) := rfl
    have hl : (c2cForward (x.map ofReal)).length = x.length := by simp [c2cForward]
    rw [hb, hl, sig_reg, if_pos hj] at h1
    rw [← Complex.ofReal_re (sig x j), ← h1]
    congr 2
    apply Finset.sum_congr rfl
    intro k hk
    rw [c2cForward_reg, sig_reg, if_pos (by simpa using hk)]
  constructor
  · rw [fftReal_half x h, Out.ok_bind]
    unfold ifftHalf ifftReal
    simp only [reg_length]
    have hsize : (if decide (x.length % 2 = 0) = true then usub ((x.length / 2 + 1) * 2) 2
        else usub ((x.length / 2 + 1) * 2) 1) = x.length := by
      unfold usub
      split
      · rename_i hh
        have := of_decide_eq_true hh
        rw [if_pos (by omega)]; omega
      · rename_i hh
        have : ¬ x.length % 2 = 0 := fun e => hh (decide_eq_true e)
        rw [if_pos (by omega)]; omega
    rw [hsize, cassert_true (Or.inl rfl), Out.ok_bind, Out.pure_def, hcore]
    intro k hk
    rw [sig_reg, if_pos hk]
  · rw [fftFull_eq x h, Out.ok_bind]
    unfold ifftFull ifftReal
    rw [cassert_true (Or.inr rfl), Out.ok_bind, Out.pure_def, reg_length, hcore]
    intro k hk
    rw [sig_reg, if_pos (by omega)]

/-- **C36**: `FftShift` is the rotation that brings element `k` to `(k + n/2) mod n`; in particular bin 0 to
index `n/2`. -/
theorem C36_fftShift {α : Type u} (x : List α) :
    ∃ y, fftShift x = .ok y ∧ y.Perm x ∧
      ∀ k, k < x.length → y[(k + x.length / 2) % x.length]? = x[k]? := by
  unfold fftShift basicShift
  rw [cassert_true rfl, Out.ok_bind]
  rcases Nat.eq_zero_or_pos x.length with h0 | h0
  · have : x = [] := List.length_eq_zero_iff.1 h0
    subst this
    exact ⟨[], by simp, List.Perm.refl _, fun k hk => absurd hk (by simp)⟩
  rw [if_pos (by omega)]
  refine ⟨_, rfl, ?_, fun k hk => ?_⟩
  · have := List.perm_append_comm (l₁ := x.drop ((1 + x.length) / 2)) (l₂ := x.take ((1 + x.length) / 2))
    rwa [List.take_append_drop] at this
  · by_cases c : k + x.length / 2 < x.length
    · rw [Nat.mod_eq_of_lt c, List.getElem?_append_right (by simp; omega), List.getElem?_take_of_lt
        (by simp; omega)]
      congr 1
      simp; omega
    · rw [Nat.mod_eq_sub_mod (by omega), Nat.mod_eq_of_lt (by omega),
        List.getElem?_append_left (by simp; omega), List.getElem?_drop]
      congr 1
      omega

/-- **C36**: the zero bin lands in the middle. -/
theorem C36_zero_bin {α : Type u} (x : List α) (h : x ≠ []) :
    ∃ y, fftShift x = .ok y ∧ y[x.length / 2]? = x[0]? := by
  have h0 : 0 < x.length := List.length_pos_iff.2 h
  obtain ⟨y, h1, _, h3⟩ := C36_fftShift x
  refine ⟨y, h1, ?_⟩
  have := h3 0 h0
  rwa [Nat.zero_add, Nat.mod_eq_of_lt (by omega)] at this

/-- **C36**: the two shifts undo each other, for odd and even lengths, in both orders. -/
theorem C36_inverse {α : Type u} (x : List α) :
    (fftShift x >>= ifftShift) = .ok x ∧ (ifftShift x >>= fftShift) = .ok x := by
  have h1 : ∀ s t : ℕ, s + t = x.length → ∀ y, y = x.drop s ++ x.take s →
      y.drop t ++ y.take t = x := by
    rintro s t hst y rfl
    have : (x.drop s).length = t := by simp; omega
    rw [← this, List.drop_left, List.take_left, List.take_append_drop]
  constructor
  · unfold fftShift ifftShift basicShift
    rw [cassert_true rfl, Out.ok_bind, if_pos (by omega), Out.pure_def, Out.ok_bind, cassert_true rfl,
      Out.ok_bind, if_pos (by simp; omega), Out.pure_def]
    congr 1
    apply h1 ((1 + x.length) / 2) _ _ _ rfl
    simp
    omega
  · unfold fftShift ifftShift basicShift
    rw [cassert_true rfl, Out.ok_bind, if_pos (by omega), Out.pure_def, Out.ok_bind, cassert_true rfl,
      Out.ok_bind, if_pos (by simp; omega), Out.pure_def]
    congr 1
    apply h1 (x.length / 2) _ _ _ rfl
    simp
    omega

example : fftShift [0, 1, 2, 3, 4] = .ok [3, 4, 0, 1, 2] := by decide
example : ifftShift [3, 4, 0, 1, 2] = .ok [0, 1, 2, 3, 4] := by decide

/-- **C37**: bin → frequency → bin is the identity. -/
theorem C37_roundtrip (bin numBins sampleRate : ℕ) (h1 : numBins ≠ 0) (h2 : sampleRate ≠ 0) :
    fourierFrequency2Bin (fourierBin2Frequency bin numBins sampleRate) numBins sampleRate = bin := by
  unfold fourierFrequency2Bin fourierBin2Frequency
  have a : (numBins : ℝ) ≠ 0 := by exact_mod_cast h1
  have b : (sampleRate : ℝ) ≠ 0 := by exact_mod_cast h2
  have e : (bin : ℝ) / numBins * sampleRate / sampleRate * numBins + 0.5 = bin + 0.5 := by
    field_simp
  rw [e, Nat.floor_eq_iff (by positivity)]
  constructor <;> norm_num

/-- **C37**, robustness: any frequency less than half a bin away is mapped to the same bin, so the round
trip survives rounding of the frequency. -/
theorem C37_nearest (f : ℝ) (bin numBins sampleRate : ℕ) (h1 : numBins ≠ 0) (h2 : sampleRate ≠ 0)
    (h : |f - fourierBin2Frequency bin numBins sampleRate| < sampleRate / numBins / 2) :
    fourierFrequency2Bin f numBins sampleRate = bin := by
  unfold fourierFrequency2Bin
  unfold fourierBin2Frequency at h
  have a : (0 : ℝ) < numBins := by positivity
  have b : (0 : ℝ) < sampleRate := by positivity
  rw [abs_lt] at h
  have c : (0 : ℝ) < numBins / sampleRate := by positivity
  have e1 : f / sampleRate * numBins - bin = (f - (bin : ℝ) / numBins * sampleRate) * (numBins / sampleRate) := by
    field_simp
  have e2 : (sampleRate : ℝ) / numBins / 2 * (numBins / sampleRate) = 1 / 2 := by field_simp
  have l1 := mul_lt_mul_of_pos_right h.1 c
  have l2 := mul_lt_mul_of_pos_right h.2 c
  rw [← e1, e2] at l2
  rw [← e1, neg_mul, e2] at l1
  rw [Nat.floor_eq_iff (by linarith [show (0 : ℝ) ≤ bin by positivity])]
  constructor <;> linarith

example : fourierFrequency2Bin (fourierBin2Frequency 37 100 44100) 100 44100 = 37 :=
  C37_roundtrip 37 100 44100 (by norm_num) (by norm_num)

end Verif
