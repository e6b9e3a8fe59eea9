import Verif.Lemmas.FFT
import Mathlib.Tactic.LinearCombination

/-! # The spectrum of an inverse real transform -/

set_option linter.unusedSimpArgs false

namespace Verif
open Complex Finset

/-- The conjugate symmetric, periodic spectrum whose first bins are `l`: the bins that must be real lose their imaginary parts. -/
noncomputable def hermitian (n : ℕ) (l : ℕ → ℂ) (k : ℤ) : ℂ :=
  let r := (k % (n : ℤ)).toNat
  if r = 0 then ((l 0).re : ℂ)
  else if 2 * r < n then l r
  else if 2 * r = n then ((l r).re : ℂ)
  else (starRingEnd ℂ) (l (n - r))

theorem hermitian_period (n : ℕ) (l : ℕ → ℂ) (k : ℤ) : hermitian n l (k + n) = hermitian n l k := by
  unfold hermitian
  rw [Int.add_emod_right]

theorem hermitian_conj (n : ℕ) (hn : n ≠ 0) (l : ℕ → ℂ) (k : ℤ) :
    (starRingEnd ℂ) (hermitian n l k) = hermitian n l (-k) := by
  have hn' : (n : ℤ) ≠ 0 := by exact_mod_cast hn
  obtain ⟨r, hr⟩ : ∃ r : ℕ, k % (n : ℤ) = r := ⟨(k % n).toNat, by
    rw [Int.toNat_of_nonneg (Int.emod_nonneg _ hn')]⟩
  have hlt : (r : ℤ) < n := by rw [← hr]; exact Int.emod_lt_of_pos _ (by omega)
  have hneg : (-k) % (n : ℤ) = if r = 0 then 0 else ((n - r : ℕ) : ℤ) := by
    have hd : k = r + n * (k / n) := by rw [← hr]; exact (Int.emod_add_mul_ediv k n).symm
    split
    · rename_i h0
      subst h0
      have : (-k) = n * (-(k / n)) := by linear_combination -hd
      rw [this, Int.mul_emod_right]
    · have e : (-k) = ((n - r : ℕ) : ℤ) + n * (-(k / n) - 1) := by
        have h1 : ((n - r : ℕ) : ℤ) = n - r := by omega
        rw [h1]
        linear_combination -hd
      rw [e, Int.add_mul_emod_self_left, Int.emod_eq_of_lt (by omega) (by omega)]
  unfold hermitian
  simp only [hr, hneg, Int.toNat_natCast]
  by_cases h0 : r = 0
  · simp [h0]
  · simp only [h0, if_false, Int.toNat_natCast]
    by_cases h1 : 2 * r < n
    · rw [if_pos h1, if_neg (by omega), if_neg (by omega), if_neg (by omega)]
      congr 2
      omega
    · rw [if_neg h1]
      by_cases h2 : 2 * r = n
      · have e : n - r = r := by omega
        rw [if_pos h2, e, if_neg h0, if_neg h1, if_pos h2, conj_ofReal]
      · rw [if_neg h2, conj_conj, if_neg (by omega), if_pos (by omega)]

theorem hermitian_of_lt (n : ℕ) (l : ℕ → ℂ) (k : ℕ) (h0 : k ≠ 0) (h : 2 * k < n) : hermitian n l k = l k := by
  have hk : ((k : ℤ) % (n : ℤ)).toNat = k := by
    rw [Int.emod_eq_of_lt (by omega) (by omega)]; simp
  simp only [hermitian, hk, if_neg h0, if_pos h]

theorem hermitian_zero (n : ℕ) (l : ℕ → ℂ) : hermitian n l 0 = ((l 0).re : ℂ) := by
  simp [hermitian]

theorem hermitian_half (n : ℕ) (l : ℕ → ℂ) (k : ℕ) (h0 : k ≠ 0) (h : 2 * k = n) : hermitian n l k = ((l k).re : ℂ) := by
  have hk : ((k : ℤ) % (n : ℤ)).toNat = k := by
    rw [Int.emod_eq_of_lt (by omega) (by omega)]; simp
  simp only [hermitian, hk, if_neg h0, if_neg (show ¬ 2 * k < n by omega), if_pos h]

/-- the inverse real transform only reads the first half of the spectrum, and only the real parts of the real bins -/
theorem c2r_hermitian (n : ℕ) (_hn : n ≠ 0) (l : List ℂ) :
    c2r n l = c2r n (reg (n / 2 + 1) (fun k => hermitian n (sig l) k)) := by
  unfold c2r
  apply reg_congr
  intro j _
  congr 1
  have hs : ∀ k, k < n / 2 + 1 → sig (reg (n / 2 + 1) (fun k => hermitian n (sig l) k)) k = hermitian n (sig l) k := by
    intro k hk
    rw [sig_reg, if_pos hk]
  congr 1
  · congr 1
    · rw [hs 0 (by omega)]
      have := hermitian_zero n (sig l)
      simp only [Nat.cast_zero] at *
      rw [this, ofReal_re]
    · congr 1
      apply sum_congr rfl
      intro k hk
      have := mem_range.1 hk
      rw [hs _ (by omega), hermitian_of_lt n _ (k + 1) (by omega) (by omega)]
  · split
    · rw [hs _ (by omega), hermitian_half n _ (n / 2) (by omega) (by omega), ofReal_re]
    · rfl

/-- transforming what the inverse transform yields gives the spectrum back -/
theorem dft_inverse (n : ℕ) (hn : n ≠ 0) (X : ℤ → ℂ) (hper : ∀ k : ℤ, X (k + n) = X k) (m : ℤ) :
    ∑ j ∈ range n, ((1 / (n : ℂ)) * ∑ k ∈ range n, X k * rootOfUnity n ((j : ℤ) * k)) * rootOfUnity n (-((j : ℤ) * m)) = X m := by
  have hn' : (n : ℂ) ≠ 0 := by exact_mod_cast hn
  have hnz : (n : ℤ) ≠ 0 := by exact_mod_cast hn
  have hperk : ∀ t : ℕ, ∀ k : ℤ, X (k + n * t) = X k := by
    intro t
    induction t with
    | zero => simp
    | succ t ih =>
      intro k
      have : k + (n : ℤ) * ((t + 1 : ℕ) : ℤ) = (k + n * t) + n := by push_cast; ring
      rw [this, hper, ih]
  have hperz : ∀ t : ℤ, ∀ k : ℤ, X (k + n * t) = X k := by
    intro t k
    obtain ⟨s, rfl | rfl⟩ := Int.eq_nat_or_neg t
    · exact hperk s k
    · rw [← hperk s (k + n * (-(s : ℤ)))]
      congr 1
      ring
  obtain ⟨r, hr⟩ : ∃ r : ℕ, m % (n : ℤ) = r := ⟨(m % n).toNat, by
    rw [Int.toNat_of_nonneg (Int.emod_nonneg _ hnz)]⟩
  have hlt : r < n := by
    have : (r : ℤ) < n := by rw [← hr]; exact Int.emod_lt_of_pos _ (by omega)
    omega
  have hd : m = r + n * (m / n) := by rw [← hr]; exact (Int.emod_add_mul_ediv m n).symm
  have e : ∀ j ∈ range n, ((1 / (n : ℂ)) * ∑ k ∈ range n, X k * rootOfUnity n ((j : ℤ) * k)) * rootOfUnity n (-((j : ℤ) * m)) =
      ∑ k ∈ range n, (1 / (n : ℂ)) * X k * rootOfUnity n (((k : ℤ) - m) * j) := by
    intro j _
    rw [mul_sum, sum_mul]
    apply sum_congr rfl
    intro k _
    have : ((k : ℤ) - m) * j = (j : ℤ) * k + -((j : ℤ) * m) := by ring
    rw [this, ru_add]
    ring
  rw [sum_congr rfl e, sum_comm]
  simp only [← mul_sum]
  rw [sum_eq_single r]
  · rw [ru_sum _ hn, if_pos ⟨-(m / n), by linear_combination -hd⟩]
    have : X m = X r := by
      conv_lhs => rw [hd]
      exact hperz _ _
    rw [this]
    field_simp
  · intro k hk hne
    rw [ru_sum _ hn, if_neg, mul_zero]
    intro hdv
    have hk' := mem_range.1 hk
    have h2 : (n : ℤ) ∣ (k : ℤ) - r := by
      obtain ⟨t, ht⟩ := hdv
      exact ⟨t + m / n, by linear_combination ht + hd⟩
    have := Int.eq_zero_of_abs_lt_dvd h2 (by rw [abs_lt]; omega)
    omega
  · intro hh
    exact absurd (mem_range.2 hlt) hh

/-- **The spectrum of an inverse real transform** is the given half spectrum, completed. -/
theorem c2r_spectrum (n : ℕ) (hn : n ≠ 0) (X : ℤ → ℂ) (hX : ∀ k : ℤ, (starRingEnd ℂ) (X k) = X (-k))
    (hper : ∀ k : ℤ, X (k + n) = X k) (l : List ℂ) (hl : ∀ k, k < n / 2 + 1 → sig l k = X k) (m : ℤ) :
    ∑ j ∈ range n, ((sig (c2r n l) j : ℝ) : ℂ) * rootOfUnity n (-((j : ℤ) * m)) = X m := by
  rw [← dft_inverse n hn X hper m]
  apply sum_congr rfl
  intro j hj
  rw [c2r_eq n hn X hX hper l hl, sig_reg, if_pos (mem_range.1 hj)]
  congr 1
  apply Complex.conj_eq_iff_re.1
  have h1 : (starRingEnd ℂ) (1 / (n : ℂ)) = 1 / (n : ℂ) := by simp
  rw [map_mul, map_sum, h1]
  congr 1
  -- reflect the summation index
  have hr : ∀ k ∈ range n, (starRingEnd ℂ) (X k * rootOfUnity n ((j : ℤ) * k)) =
      X (-(k : ℤ)) * rootOfUnity n ((j : ℤ) * (-(k : ℤ))) := by
    intro k _
    rw [map_mul, hX, ru_conj]
    congr 2
    ring
  rw [sum_congr rfl hr]
  obtain ⟨n, rfl⟩ := Nat.exists_eq_succ_of_ne_zero hn
  rw [sum_range_succ', sum_range_succ']
  congr 1
  rw [← sum_range_reflect]
  apply sum_congr rfl
  intro k hk
  have hk' := mem_range.1 hk
  have e1 : (((n - 1 - k + 1 : ℕ)) : ℤ) = n - k := by omega
  have e2 : (-(((n - 1 - k + 1 : ℕ)) : ℤ)) = ((k + 1 : ℕ) : ℤ) + ((n + 1 : ℕ) : ℤ) * (-1) := by rw [e1]; push_cast; ring
  have hX2 : X (-(((n - 1 - k + 1 : ℕ)) : ℤ)) = X ((k + 1 : ℕ) : ℤ) := by
    rw [← hper, e2]
    congr 1
    push_cast
    ring
  rw [hX2, e2]
  congr 1
  rw [← ru_period (n + 1) (by omega) ((j : ℤ) * ((k + 1 : ℕ) : ℤ)) (-j)]
  congr 1
  ring

end Verif
