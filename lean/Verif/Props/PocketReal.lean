import Verif.Lemmas.PocketRExec
import Verif.Props.PocketFFT

/-!
# Property C78: the bundled FFT of real data
-/

namespace Verif.Pocket
open Complex

theorem sig_tabR {n : ℕ} (A : ℕ → ℝ) {k : ℕ} (hk : k < n) : sig (tab n A) k = A k := by
  simp [sig, tab, hk]

theorem list_tabR (x : List ℝ) : x = tab x.length (fun m => sig x m) := by
  apply List.ext_getElem
  · simp [tab]
  · intro i h1 h2
    simp [tab, sig, h1]

theorem rdft_dft (x : List ℝ) (k : ℕ) : rdft x.length (fun m => sig x m) k = dftAt (x.map ofReal) k := by
  unfold rdft
  rw [← dft_w]
  simp only [List.length_map]
  apply Finset.sum_congr rfl
  intro m hm
  congr 1
  simp [sig, Finset.mem_range.1 hm]

theorem idft_ru {n : ℕ} (hn : 0 < n) (Z : ℕ → ℂ) (j : ℕ) :
    (idft n (hx n Z) j).re = (Z 0).re
      + 2 * ∑ k ∈ Finset.range ((n - 1) / 2), (Z (k + 1) * rootOfUnity n ((j : ℤ) * (k + 1 : ℕ))).re
      + if n % 2 = 0 then (Z (n / 2)).re * (-1) ^ j else 0 := by
  rw [idft_hx hn]
  congr 3
  apply Finset.sum_congr rfl
  intro k _
  rw [w_ru]
  simp [sgn]

/-! ### C78 -/

/-- **C78**: the forward transform of any number of real samples stores the first `n/2 + 1` bins of the discrete
Fourier transform and leaves the rest of the output alone; no access leaves a buffer and uninitialised memory does
not matter. -/
theorem C78_forward (x : List ℝ) (out : List ℂ) (junkR : ℕ → ℝ) (junk : ℕ → ℂ) (fct : ℝ) (hx : x ≠ [])
    (ho : x.length / 2 + 1 ≤ out.length) :
    ∃ X, pr2c fct x out junkR junk = .ok X ∧ X.length = out.length ∧
      (∀ k, k ≤ x.length / 2 → sig X k = fct * dftAt (x.map ofReal) k) ∧
      ∀ k, x.length / 2 < k → sig X k = sig out k := by
  have hn := List.length_pos_iff.2 hx
  have h := pr2c_ok hn fct (fun m => sig x m) (fun m => sig out m) ho junkR junk
  rw [← list_tabR, ← list_tab] at h
  refine ⟨_, h, by simp [tab], fun k hk => ?_, fun k hk => ?_⟩
  · rw [sig_tab _ (by omega), if_pos (by omega), rdft_dft]
  · by_cases hl : k < out.length
    · rw [sig_tab _ hl, if_neg (by omega)]
    · simp [sig, tab, hl]

/-- **C78**: the backward transform evaluates the inverse sums of the conjugate symmetric spectrum whose first
`n/2 + 1` bins are given; it reads no other bins, and of the bins that must be real only the real parts. -/
theorem C78_backward (X : List ℂ) (out : List ℝ) (junkR : ℕ → ℝ) (junk : ℕ → ℂ) (fct : ℝ) (ho : out ≠ [])
    (hX : out.length / 2 + 1 ≤ X.length) :
    ∃ x, pc2r fct X out junkR junk = .ok x ∧ x.length = out.length ∧ ∀ j, j < out.length →
      sig x j = fct * ((sig X 0).re
        + 2 * ∑ k ∈ Finset.range ((out.length - 1) / 2),
            (sig X (k + 1) * rootOfUnity out.length ((j : ℤ) * (k + 1 : ℕ))).re
        + if out.length % 2 = 0 then (sig X (out.length / 2)).re * (-1) ^ j else 0) := by
  have hn := List.length_pos_iff.2 ho
  have h := pc2r_ok hn fct (fun m => sig X m) hX (out := out) rfl junkR junk
  rw [← list_tab] at h
  refine ⟨_, h, by simp [tab], fun j hj => ?_⟩
  rw [sig_tabR _ hj, idft_ru hn]

/-- **C78**: what the FFT front end takes the forward transform of real data to be (C35-C37) is what the code
computes: it stores the half spectrum at the beginning of the output. -/
theorem C78_front_end_forward (x : List ℝ) (out : List ℂ) (junkR : ℕ → ℝ) (junk : ℕ → ℂ) (hx : x ≠ [])
    (ho : x.length / 2 + 1 ≤ out.length) :
    pr2c 1 x out junkR junk = storeV out 0 (r2c x) := by
  obtain ⟨X, e, h1, h2, h3⟩ := C78_forward x out junkR junk 1 hx ho
  have hl : (r2c x).length = x.length / 2 + 1 := by simp [r2c]
  unfold storeV
  rw [e, if_pos (by omega)]
  congr 1
  apply List.ext_getElem
  · simp [hl]; omega
  · intro i g1 g2
    have es : X[i] = sig X i := by simp [sig, g1]
    rw [es]
    by_cases hi : i ≤ x.length / 2
    · rw [h2 i hi]
      simp [r2c, List.getElem_append_left, show i < x.length / 2 + 1 by omega]
    · rw [h3 i (by omega)]
      simp only [List.take_zero, List.nil_append]
      rw [List.getElem_append_right (by omega)]
      simp only [List.getElem_drop, hl]
      simp [sig, show x.length / 2 + 1 + (i - (x.length / 2 + 1)) = i by omega, show i < out.length by omega]

/-- **C78**: likewise for the inverse transform. -/
theorem C78_front_end_backward (X : List ℂ) (out : List ℝ) (junkR : ℕ → ℝ) (junk : ℕ → ℂ) (ho : out ≠ [])
    (hX : out.length / 2 + 1 ≤ X.length) :
    pc2r (1 / (out.length : ℝ)) X out junkR junk = .ok (c2r out.length X) := by
  obtain ⟨x, e, h1, h2⟩ := C78_backward X out junkR junk (1 / (out.length : ℝ)) ho hX
  rw [e]
  congr 1
  apply List.ext_getElem
  · simp [c2r, h1]
  · intro i g1 g2
    have es : x[i] = sig x i := by simp [sig, g1]
    rw [es, h2 i (by omega)]
    simp [c2r]

/-- **C78**: a forward and a scaled backward transform give the samples back, for even and odd lengths alike. -/
theorem C78_roundtrip (x out' : List ℝ) (out : List ℂ) (junkR junkR' : ℕ → ℝ) (junk junk' : ℕ → ℂ) (hx : x ≠ [])
    (ho : out.length = x.length / 2 + 1) (ho' : out'.length = x.length) :
    ∃ X, pr2c 1 x out junkR junk = .ok X ∧ pc2r (1 / (x.length : ℝ)) X out' junkR' junk' = .ok x := by
  have hn := List.length_pos_iff.2 hx
  have hl : (r2c x).length = x.length / 2 + 1 := by simp [r2c]
  have hf := C78_front_end_forward x out junkR junk hx (by omega)
  have hs : storeV out 0 (r2c x) = .ok (r2c x) := by
    unfold storeV
    rw [if_pos (by omega)]
    simp [hl, ← ho]
  refine ⟨_, hf.trans hs, ?_⟩
  have hb := C78_front_end_backward (r2c x) out' junkR' junk' (List.ne_nil_of_length_pos (by omega)) (by omega)
  rw [ho'] at hb
  rw [hb]
  have hr := (C35_real_roundtrip x hx).1
  have h1 : fftHalf x = .ok (r2c x) := by
    unfold fftHalf fftReal
    simp only [List.length_replicate]
    rw [cassert_true (by simp), Out.ok_bind]
    have : storeV (List.replicate (x.length / 2 + 1) (0 : ℂ)) 0 (r2c x) = .ok (r2c x) := by
      unfold storeV
      rw [if_pos (by simp [hl])]
      simp [hl]
    rw [if_neg (by omega), this, Out.ok_bind, if_neg (by omega), Out.pure_def]
  rw [h1, Out.ok_bind] at hr
  unfold ifftHalf ifftReal at hr
  have hlen : (if decide (x.length % 2 = 0) = true then usub ((r2c x).length * 2) 2 else usub ((r2c x).length * 2) 1) = x.length := by
    rw [hl]
    split <;> rename_i h <;> simp only [decide_eq_true_eq] at h <;> simp only [usub] <;> split <;> omega
  rw [hlen, cassert_true (by left; exact hl), Out.ok_bind] at hr
  exact hr

/-- **C78**: the mixed-radix plan of every length, forward: the spectrum in the order `r0 r1 i1 r2 i2 …`. -/
theorem C78_mixed_radix_forward (n : ℕ) (hn : 0 < n) (junk : ℕ → ℝ) :
    ∃ p, rfftp n junk = .ok p ∧ ∀ (x scratch : List ℝ) (fct : ℝ), x.length = n → scratch.length = n →
      ∃ y, p.exec x scratch fct true = .ok y ∧ y.length = n ∧ sig y 0 = fct * (dftAt (x.map ofReal) 0).re ∧
        ∀ k : ℕ, 0 < k → (2 * k - 1 < n → sig y (2 * k - 1) = fct * (dftAt (x.map ofReal) k).re) ∧
          (2 * k < n → sig y (2 * k) = fct * (dftAt (x.map ofReal) k).im) := by
  obtain ⟨p, e1, e2⟩ := rfftp_ok hn junk
  refine ⟨p, e1, fun x scratch fct hx hs => ?_⟩
  have h := rexec_fwd hn e2 fct (fun m => sig x m) hs
  subst hx
  rw [← list_tabR] at h
  refine ⟨_, h, by simp [tab], ?_, fun k h0 => ⟨fun hk => ?_, fun hk => ?_⟩⟩
  · rw [sig_tabR _ hn, enc_zero, rdft_dft]; rfl
  · rw [sig_tabR _ hk, enc_re h0 rfl, rdft_dft]
  · rw [sig_tabR _ hk, enc_im h0 rfl, rdft_dft]

theorem enc_hx {n : ℕ} (c : List ℝ) (hc : c.length = n) :
    c = tab n (enc (hx n (fun k => ⟨sig c (2 * k - 1), sig c (2 * k)⟩))) := by
  conv_lhs => rw [list_tabR c, hc]
  apply tab_congr
  intro p hp
  by_cases h0 : p = 0
  · subst h0
    rw [enc_zero, hx_zero]
    simp
  by_cases h1 : p % 2 = 1
  · rw [enc_re (c := (p + 1) / 2) (by omega) (by omega)]
    by_cases h2 : 2 * ((p + 1) / 2) < n
    · rw [hx_low (by omega) h2]
      simp only []
      congr 1; omega
    · rw [hx_mid (by omega) (by omega)]
      simp only [ofReal_re]
      congr 1; omega
  · rw [enc_im (c := p / 2) (by omega) (by omega), hx_low (by omega) (by omega)]
    simp only []
    congr 1; omega

/-- **C78**: the mixed-radix plan of every length, backward: the inverse sums of the spectrum given in that order. -/
theorem C78_mixed_radix_backward (n : ℕ) (hn : 0 < n) (junk : ℕ → ℝ) :
    ∃ p, rfftp n junk = .ok p ∧ ∀ (y scratch : List ℝ) (fct : ℝ), y.length = n → scratch.length = n →
      ∃ x, p.exec y scratch fct false = .ok x ∧ x.length = n ∧ ∀ j : ℕ, j < n →
        sig x j = fct * (sig y 0
          + 2 * ∑ k ∈ Finset.range ((n - 1) / 2),
              ((⟨sig y (2 * k + 1), sig y (2 * k + 2)⟩ : ℂ) * rootOfUnity n ((j : ℤ) * (k + 1 : ℕ))).re
          + if n % 2 = 0 then sig y (n - 1) * (-1) ^ j else 0) := by
  obtain ⟨p, e1, e2⟩ := rfftp_ok hn junk
  refine ⟨p, e1, fun y scratch fct hy hs => ?_⟩
  have h := rexec_bwd hn e2 fct (hx_herm hn (fun k => ⟨sig y (2 * k - 1), sig y (2 * k)⟩)) hs
  rw [← enc_hx y hy] at h
  refine ⟨_, h, by simp [tab], fun j hj => ?_⟩
  rw [sig_tabR _ hj, idft_ru hn]
  simp only [Nat.mul_zero, Nat.zero_sub]
  congr 2
  by_cases he : n % 2 = 0
  · rw [if_pos he, if_pos he, show 2 * (n / 2) - 1 = n - 1 by omega]
  · rw [if_neg he, if_neg he]

/-- **C78**: the Bluestein plan of every length computes the same transform of real data, … -/
theorem C78_bluestein_forward (n : ℕ) (hn : 0 < n) (junk : ℕ → ℂ) :
    ∃ p, fftblue n junk = .ok p ∧ ∀ (x : List ℝ) (fct : ℝ) (junk' : ℕ → ℂ), x.length = n →
      ∃ y, p.execRF x fct junk' = .ok y ∧ y.length = n ∧ sig y 0 = fct * (dftAt (x.map ofReal) 0).re ∧
        ∀ k : ℕ, 0 < k → (2 * k - 1 < n → sig y (2 * k - 1) = fct * (dftAt (x.map ofReal) k).re) ∧
          (2 * k < n → sig y (2 * k) = fct * (dftAt (x.map ofReal) k).im) := by
  obtain ⟨p, e1, e2⟩ := fftblue_ok hn junk
  refine ⟨p, e1, fun x fct junk' hx => ?_⟩
  have h := execRF_ok hn e2 fct (fun m => sig x m) junk'
  subst hx
  rw [← list_tabR] at h
  refine ⟨_, h, by simp [tab], ?_, fun k h0 => ⟨fun hk => ?_, fun hk => ?_⟩⟩
  · rw [sig_tabR _ hn, enc_zero, rdft_dft]; rfl
  · rw [sig_tabR _ hk, enc_re h0 rfl, rdft_dft]
  · rw [sig_tabR _ hk, enc_im h0 rfl, rdft_dft]

/-- **C78**: … and the same inverse. -/
theorem C78_bluestein_backward (n : ℕ) (hn : 0 < n) (junk : ℕ → ℂ) :
    ∃ p, fftblue n junk = .ok p ∧ ∀ (y : List ℝ) (fct : ℝ) (junk' : ℕ → ℂ), y.length = n →
      ∃ x, p.execRB y fct junk' = .ok x ∧ x.length = n ∧ ∀ j : ℕ, j < n →
        sig x j = fct * (sig y 0
          + 2 * ∑ k ∈ Finset.range ((n - 1) / 2),
              ((⟨sig y (2 * k + 1), sig y (2 * k + 2)⟩ : ℂ) * rootOfUnity n ((j : ℤ) * (k + 1 : ℕ))).re
          + if n % 2 = 0 then sig y (n - 1) * (-1) ^ j else 0) := by
  obtain ⟨p, e1, e2⟩ := fftblue_ok hn junk
  refine ⟨p, e1, fun y fct junk' hy => ?_⟩
  have h := execRB_ok hn e2 fct (hx_herm hn (fun k => ⟨sig y (2 * k - 1), sig y (2 * k)⟩)) junk'
  rw [← enc_hx y hy] at h
  refine ⟨_, h, by simp [tab], fun j hj => ?_⟩
  rw [sig_tabR _ hj, idft_ru hn]
  simp only [Nat.mul_zero, Nat.zero_sub]
  congr 2
  by_cases he : n % 2 = 0
  · rw [if_pos he, if_pos he, show 2 * (n / 2) - 1 = n - 1 by omega]
  · rw [if_neg he, if_neg he]

/-- **C78**: the factors of a plan for real data multiply to the length and each has a pass; an odd factor is never
followed by an even one, which the passes for odd factors rely on. -/
theorem C78_factorize (n : ℕ) (hn : 0 < n) :
    ∃ fs, rfactorize n = .ok fs ∧ fs.prod = n ∧ (∀ f ∈ fs, f = 2 ∨ f = 4 ∨ (f.Prime ∧ f % 2 = 1)) ∧
      fs.Pairwise (fun a b => a % 2 = 1 → b % 2 = 1) := by
  obtain ⟨fs, e1, e2, e3⟩ := rfactorize_ok hn
  refine ⟨fs, e1, e2, ?_⟩
  clear e1 e2
  induction fs with
  | nil => simp
  | cons f fs ih =>
    obtain ⟨a, b, c⟩ := e3
    obtain ⟨i1, i2⟩ := ih c
    refine ⟨?_, List.pairwise_cons.2 ⟨fun g hg ha => ?_, i2⟩⟩
    · intro g hg
      rcases List.mem_cons.1 hg with h | h
      · exact h ▸ a
      · exact i1 g h
    · have h1 := b ha
      have h2 : g ∣ fs.prod := List.dvd_prod hg
      by_contra h3
      have : 2 ∣ g := by omega
      have := this.trans h2
      omega

/-- **C78**: there is no plan of length zero, and transforms of nothing touch nothing. -/
theorem C78_empty (out X : List ℂ) (junkR : ℕ → ℝ) (junk : ℕ → ℂ) (fct : ℝ) :
    rfftp 0 junkR = .throws ∧ pocketfftR 0 junkR junk = .throws ∧ pr2c fct [] out junkR junk = .ok out ∧
      pc2r fct X [] junkR junk = .ok [] := by
  refine ⟨rfl, ?_, rfl, rfl⟩
  unfold pocketfftR
  rfl

/-- a case where the hypotheses hold: 3 samples, 2 bins in an output of 3 -/
example : ∃ X, pr2c 1 [1, 4, 2] [7, 8, 9] (fun i => (i : ℝ)) (fun i => (i : ℂ)) = .ok X ∧ X.length = 3 ∧
    sig X 0 = 7 ∧ sig X 2 = 9 := by
  obtain ⟨X, e, h1, h2, h3⟩ := C78_forward [1, 4, 2] [7, 8, 9] (fun i => (i : ℝ)) (fun i => (i : ℂ)) 1 (by simp) (by simp)
  refine ⟨X, e, h1, ?_, ?_⟩
  · rw [h2 0 (by simp)]
    simp [dftAt, Finset.sum_range_succ, sig, rootOfUnity]
    norm_num
  · rw [h3 2 (by simp)]
    simp [sig]

/-- a case where the hypotheses hold: 4 samples from 3 bins -/
example : ∃ x, pc2r 1 [1, Complex.I, 5] [7, 8, 9, 10] (fun i => (i : ℝ)) (fun i => (i : ℂ)) = .ok x ∧ x.length = 4 ∧
    sig x 0 = 6 := by
  obtain ⟨x, e, h1, h2⟩ := C78_backward [1, Complex.I, 5] [7, 8, 9, 10] (fun i => (i : ℝ)) (fun i => (i : ℂ)) 1 (by simp) (by simp)
  refine ⟨x, e, h1, ?_⟩
  rw [h2 0 (by simp)]
  simp [sig, rootOfUnity]
  norm_num

end Verif.Pocket
