import Verif.Lemmas.PocketConst
import Verif.Lemmas.PocketBlue
import Verif.Props.FFT

/-!
# Properties C76 and C77: the bundled complex FFT
-/

namespace Verif.Pocket
open Complex

theorem sig_tab {n : ℕ} (A : ℕ → ℂ) {k : ℕ} (hk : k < n) : sig (tab n A) k = A k := by
  simp [sig, tab, hk]

theorem list_tab (x : List ℂ) : x = tab x.length (fun m => sig x m) := by
  apply List.ext_getElem
  · simp [tab]
  · intro i h1 h2
    simp [tab, sig, h1]

theorem dft_w (x : List ℂ) (k : ℕ) :
    ∑ m ∈ Finset.range x.length, sig x m * w true x.length (m * k) = dftAt x k := by
  unfold dftAt
  apply Finset.sum_congr rfl
  intro m _
  rw [w_true_ru]

/-! ### C76 -/

/-- **C76**: the forward transform of an array of any length is its discrete Fourier transform, bin by bin; no
access leaves a buffer, and neither the previous contents of the output nor uninitialised memory matters. -/
theorem C76_forward (x out : List ℂ) (junk : ℕ → ℂ) (hx : x ≠ []) (ho : out.length = x.length) :
    ∃ X, c2c true 1 x out junk = .ok X ∧ X.length = x.length ∧ ∀ k, k < x.length → sig X k = dftAt x k := by
  have hn := List.length_pos_iff.2 hx
  have h := c2c_ok hn true 1 (fun m => sig x m) ho junk
  rw [← list_tab] at h
  refine ⟨_, h, by simp [tab], fun k hk => ?_⟩
  rw [sig_tab _ hk, dft_w]
  simp

/-- **C76**: the backward transform evaluates the inverse sums. -/
theorem C76_backward (X out : List ℂ) (junk : ℕ → ℂ) (hx : X ≠ []) (ho : out.length = X.length) (fct : ℝ) :
    ∃ x, c2c false fct X out junk = .ok x ∧ x.length = X.length ∧ ∀ j, j < X.length →
      sig x j = fct * ∑ k ∈ Finset.range X.length, sig X k * rootOfUnity X.length ((j : ℤ) * k) := by
  have hn := List.length_pos_iff.2 hx
  have h := c2c_ok hn false fct (fun m => sig X m) ho junk
  rw [← list_tab] at h
  refine ⟨_, h, by simp [tab], fun k hk => ?_⟩
  rw [sig_tab _ hk, mul_comm]
  congr 1
  apply Finset.sum_congr rfl
  intro m _
  rw [w_ru]
  congr 2
  simp [sgn, mul_comm]

/-- **C76**: what the FFT front end takes the forward transform to be (C35-C37) is what the code computes. -/
theorem C76_front_end_forward (x out : List ℂ) (junk : ℕ → ℂ) (hx : x ≠ []) (ho : out.length = x.length) :
    c2c true 1 x out junk = .ok (c2cForward x) := by
  obtain ⟨X, e, h1, h2⟩ := C76_forward x out junk hx ho
  rw [e]
  congr 1
  apply List.ext_getElem
  · simp [c2cForward, h1]
  · intro i g1 g2
    have := h2 i (by omega)
    simp only [c2cForward, List.getElem_map, List.getElem_range]
    rw [← this]
    simp [sig, g1]

/-- **C76**: likewise for the inverse transform. -/
theorem C76_front_end_backward (X out : List ℂ) (junk : ℕ → ℂ) (hx : X ≠ []) (ho : out.length = X.length) :
    c2c false (1 / (X.length : ℝ)) X out junk = .ok (c2cBackward X) := by
  obtain ⟨x, e, h1, h2⟩ := C76_backward X out junk hx ho (1 / (X.length : ℝ))
  rw [e]
  congr 1
  apply List.ext_getElem
  · simp [c2cBackward, h1]
  · intro i g1 g2
    have := h2 i (by omega)
    have e : x[i] = sig x i := by simp [sig, g1]
    simp only [c2cBackward, List.getElem_map, List.getElem_range]
    rw [e, this]
    push_cast
    rfl

/-- **C76**: a forward and a scaled backward transform give the signal back. -/
theorem C76_roundtrip (x out out' : List ℂ) (junk junk' : ℕ → ℂ) (hx : x ≠ []) (ho : out.length = x.length)
    (ho' : out'.length = x.length) :
    ∃ X, c2c true 1 x out junk = .ok X ∧ c2c false (1 / (x.length : ℝ)) X out' junk' = .ok x := by
  have hn := List.length_pos_iff.2 hx
  have hl : (c2cForward x).length = x.length := by simp [c2cForward]
  refine ⟨_, C76_front_end_forward x out junk hx ho, ?_⟩
  have h := C76_front_end_backward (c2cForward x) out' junk' (List.ne_nil_of_length_pos (by omega)) (by omega)
  rw [hl] at h
  rw [h]
  have hr := C35_complex_roundtrip x hx
  simpa [fftComplex, ifftComplex] using hr

/-- **C76**: the mixed-radix plan of every length. -/
theorem C76_mixed_radix (n : ℕ) (hn : 0 < n) :
    ∃ p, cfftp n = .ok p ∧ ∀ (x scratch : List ℂ) (fct : ℝ) (fwd : Bool), x.length = n → scratch.length = n →
      ∃ X, p.exec x scratch fct fwd = .ok X ∧ X.length = n ∧ ∀ k, k < n →
        sig X k = fct * ∑ j ∈ Finset.range n, sig x j * rootOfUnity n ((if fwd then -1 else 1) * ((j : ℤ) * k)) := by
  obtain ⟨p, e1, e2⟩ := cfftp_ok hn
  refine ⟨p, e1, fun x scratch fct fwd hx hs => ?_⟩
  have h := exec_ok hn e2 fwd fct (fun m => sig x m) hs
  subst hx
  rw [← list_tab] at h
  refine ⟨_, h, by simp [tab], fun k hk => ?_⟩
  rw [sig_tab _ hk, mul_comm]
  congr 1
  apply Finset.sum_congr rfl
  intro m _
  rw [w_ru]
  simp only [sgn, Nat.cast_mul]

/-- **C76**: the Bluestein plan of every length computes the same transform. -/
theorem C76_bluestein (n : ℕ) (hn : 0 < n) (junk : ℕ → ℂ) :
    ∃ p, fftblue n junk = .ok p ∧ ∀ (x : List ℂ) (fct : ℝ) (fwd : Bool) (junk' : ℕ → ℂ), x.length = n →
      ∃ X, p.exec x fct fwd junk' = .ok X ∧ X.length = n ∧ ∀ k, k < n →
        sig X k = fct * ∑ j ∈ Finset.range n, sig x j * rootOfUnity n ((if fwd then -1 else 1) * ((j : ℤ) * k)) := by
  obtain ⟨p, e1, e2⟩ := fftblue_ok hn junk
  refine ⟨p, e1, fun x fct fwd junk' hx => ?_⟩
  have h := blue_exec_ok hn e2 fwd fct (fun m => sig x m) junk'
  subst hx
  rw [← list_tab] at h
  refine ⟨_, h, by simp [tab], fun k hk => ?_⟩
  rw [sig_tab _ hk, mul_comm]
  congr 1
  apply Finset.sum_congr rfl
  intro m _
  rw [w_ru]
  simp only [sgn, Nat.cast_mul]

/-- **C76**: there is no plan of length zero, and a transform of nothing touches nothing. -/
theorem C76_empty (out : List ℂ) (junk : ℕ → ℂ) (fct : ℝ) (fwd : Bool) :
    cfftp 0 = .throws ∧ pocketfftC 0 junk = .throws ∧ c2c fwd fct [] out junk = .ok out := by
  refine ⟨rfl, ?_, rfl⟩
  unfold pocketfftC
  rfl

/-- a case where the hypotheses hold: 3 samples, an output full of other numbers -/
example : ∃ X, c2c true 1 [1, Complex.I, 2] [7, 8, 9] (fun i => (i : ℂ)) = .ok X ∧ X.length = 3 ∧
    sig X 0 = 3 + Complex.I := by
  obtain ⟨X, e, h1, h2⟩ := C76_forward [1, Complex.I, 2] [7, 8, 9] (fun i => (i : ℂ)) (by simp) rfl
  refine ⟨X, e, h1, ?_⟩
  have := h2 0 (by simp)
  rw [this]
  simp [dftAt, Finset.sum_range_succ, sig, rootOfUnity]
  ring

/-! ### C77 -/

/-- **C77**: the twiddle table of every length holds the roots of unity. -/
theorem C77_twiddle_table (n : ℕ) (hn : 0 < n) :
    ∃ t, sincos n = .ok t ∧ ∀ idx, idx ≤ n → t.get idx = .ok (rootOfUnity n idx) := by
  obtain ⟨t, e1, e2⟩ := sincos_ok hn
  refine ⟨t, e1, fun idx h => ?_⟩
  rw [e2 idx h, w_ru]
  simp [sgn]

/-- **C77**: the table is short: both halves together have at most about `3 √n` entries, not `n`. -/
theorem C77_twiddle_table_memory (n : ℕ) (hn : 0 < n) :
    ∃ t, sincos n = .ok t ∧ t.v1.length = 2 ^ t.shift ∧ t.v2.length ≤ 2 ^ t.shift ∧
      (t.shift = 1 ∨ 2 ^ t.shift * 2 ^ t.shift < 4 * ((n + 2) / 2)) := by
  have key := whileN_measure (cond := fun s : ℕ => decide (2 ^ s * 2 ^ s < (n + 2) / 2))
    (body := fun s => (.ok (s + 1) : Out ℕ))
    (fun s => 1 ≤ s ∧ (s = 1 ∨ 2 ^ s * 2 ^ s < 4 * ((n + 2) / 2))) (fun s => (n + 2) / 2 - s)
  replace key := key (by
    intro s h hc
    simp only [decide_eq_true_eq] at hc
    refine ⟨s + 1, rfl, ⟨by omega, Or.inr ?_⟩, ?_⟩
    · have : 2 ^ (s + 1) * 2 ^ (s + 1) = 4 * (2 ^ s * 2 ^ s) := by ring
      omega
    · have h1 : s < 2 ^ s := Nat.lt_two_pow_self
      have h2 : 2 ^ s * 1 ≤ 2 ^ s * 2 ^ s := Nat.mul_le_mul_left _ Nat.one_le_two_pow
      omega) ((n + 2) / 2 + 1) 1 (by omega) ⟨le_rfl, Or.inl rfl⟩
  obtain ⟨s, e, ⟨h1, h2⟩, hc⟩ := key
  simp only [decide_eq_false_iff_not, not_lt] at hc
  unfold sincos
  simp only [e, Out.ok_bind]
  refine ⟨_, rfl, ?_, ?_, h2⟩
  · simp only [List.length_map, List.length_range]
    have : 0 < 2 ^ s := by positivity
    omega
  · simp only [List.length_map, List.length_range]
    have h0 : 0 < 2 ^ s := by positivity
    rw [show 2 ^ s - 1 + 1 = 2 ^ s by omega]
    apply Nat.le_of_lt_succ
    rw [Nat.div_lt_iff_lt_mul h0, Nat.succ_mul]
    omega

/-- **C77**: the factors of a plan multiply to the length; each is 4, 8 or a prime, for which there is a pass. -/
theorem C77_factorize (n : ℕ) (hn : 0 < n) :
    ∃ fs, cfactorize n = .ok fs ∧ fs.prod = n ∧ ∀ f ∈ fs, f = 4 ∨ f = 8 ∨ f.Prime := by
  obtain ⟨fs, e1, e2, e3⟩ := cfactorize_ok hn
  exact ⟨fs, e1, e2, e3⟩

/-- **C77**: `good_size_cmplx` finds the smallest length that is at least `n` and has no prime factor above 11. -/
theorem C77_good_size_cmplx (n : ℕ) (hn : 0 < n) :
    ∃ m, goodSizeCmplx n = .ok m ∧ IsLeast {v | n ≤ v ∧ ∀ p, p.Prime → p ∣ v → p ≤ 11} m := by
  obtain ⟨m, e, h1, h2, h3⟩ := goodSizeCmplx_ok hn
  exact ⟨m, e, ⟨h1, h2⟩, fun v hv => h3 v hv.1 hv.2⟩

/-- **C77**: `good_size_real` finds the smallest length that is at least `n` and has no prime factor above 5. -/
theorem C77_good_size_real (n : ℕ) (hn : 0 < n) :
    ∃ m, goodSizeReal n = .ok m ∧ IsLeast {v | n ≤ v ∧ ∀ p, p.Prime → p ∣ v → p ≤ 5} m := by
  obtain ⟨m, e, h1, h2, h3⟩ := goodSizeReal_ok hn
  exact ⟨m, e, ⟨h1, h2⟩, fun v hv => h3 v hv.1 hv.2⟩

/-- **C77**: the largest prime factor, on which the choice of the plan depends. -/
theorem C77_largest_prime_factor (n : ℕ) (hn : 1 < n) :
    ∃ m, largestPrimeFactor n = .ok m ∧ IsGreatest {p | p.Prime ∧ p ∣ n} m := by
  obtain ⟨m, e, h1, h2, h3⟩ := largestPrimeFactor_ok (n := n) (by omega)
  exact ⟨m, e, h2 hn, fun p hp => h3 p hp.1 hp.2⟩

/-- **C77**: every trigonometric literal of the passes is within `10^-33` of the sine or cosine it stands for, far below
the resolution of any floating point type the transforms are instantiated with. -/
theorem C77_literals (n j : ℕ)
    (h : (n = 3 ∧ j = 1) ∨ (n = 5 ∧ 1 ≤ j ∧ j ≤ 2) ∨ (n = 7 ∧ 1 ≤ j ∧ j ≤ 3) ∨ (n = 11 ∧ 1 ≤ j ∧ j ≤ 5)) :
    |litR n j - Real.cos (2 * Real.pi * j / n)| ≤ 1 / 10 ^ 33 ∧ |litI n j - Real.sin (2 * Real.pi * j / n)| ≤ 1 / 10 ^ 33 := by
  rcases h with ⟨rfl, rfl⟩ | h
  · obtain ⟨h1, h2⟩ := lit_three
    unfold cI at h1
    unfold cR at h2
    refine ⟨?_, by simpa using h1⟩
    rw [h2, sub_self, abs_zero]; positivity
  · have := lit_near h
    refine ⟨le_trans ?_ this, le_trans ?_ this⟩
    · exact Complex.abs_re_le_norm (lit n j - exact n j)
    · have h1 := Complex.abs_im_le_norm (lit n j - exact n j)
      simpa [lit, exact, cI] using h1

/-- **C77**: likewise the square roots in the passes of radix 4 and 8. -/
theorem C77_literal_square_roots : |litHsqt2 - Real.sqrt (1 / 2)| ≤ 1 / 10 ^ 33 ∧ |litSqrt2 - Real.sqrt 2| ≤ 1 / 10 ^ 33 := by
  refine ⟨?_, lit_sqrt2⟩
  have h := lit_hsqt2
  unfold hsqt2 at h
  rw [Real.sqrt_div zero_le_one, Real.sqrt_one]
  exact h

/-- 1001 = 7 · 11 · 13 has the factors 13 and below, and the padded length of its Bluestein transform would be 2016 -/
example : ∃ m, goodSizeCmplx (2 * 1001 - 1) = .ok m ∧ 2001 ≤ m ∧ m ≤ 2016 := by
  obtain ⟨m, e, h1, h2⟩ := C77_good_size_cmplx 2001 (by norm_num)
  refine ⟨m, e, h1.1, h2 ⟨by norm_num, fun p hp hd => ?_⟩⟩
  have h2016 : (2016 : ℕ) = 11 ^ 0 * 7 ^ 1 * 5 ^ 0 * 2 ^ 5 * 3 ^ 2 := by norm_num
  rw [h2016] at hd
  exact smooth11_conv hp hd

end Verif.Pocket
