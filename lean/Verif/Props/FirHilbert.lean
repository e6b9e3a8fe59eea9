import Verif.Props.FirDesign
import Verif.Lemmas.Hilbert
import Verif.Lemmas.WindowedFir
import Mathlib.Algebra.BigOperators.Field

/-!
# C50: window method, C49: Hilbert transformers
-/

namespace Verif
open Complex
set_option linter.unusedSimpArgs false

theorem Writes.trans {K : Type} {a b c : List K} {out : Span} {g g' : ℕ → K} (h : Writes a b out g) (h' : Writes b c out g') :
    Writes a c out g' :=
  ⟨h'.length.trans h.length, h'.written, fun j hj => (h'.rest j hj).trans (h.rest j hj)⟩

/-! ### linear phase -/

theorem centredResponse_eq (n : ℕ) (h : ℕ → ℝ) (w : ℝ) :
    centredResponse n h w = ∑ i ∈ Finset.range n, (h i : ℂ) * Complex.exp (-(w * (i - ((n : ℝ) - 1) / 2) : ℝ) * I) := by
  unfold centredResponse firResponse
  rw [Finset.mul_sum]
  refine Finset.sum_congr rfl fun i _ => ?_
  rw [mul_left_comm, ← Complex.exp_add]
  congr 2
  push_cast
  ring

theorem centredResponse_reverse (n : ℕ) (h : ℕ → ℝ) (w : ℝ) :
    centredResponse n (fun i => h (n - 1 - i)) w = (starRingEnd ℂ) (centredResponse n h w) := by
  rw [centredResponse_eq, centredResponse_eq, map_sum, ← Finset.sum_range_reflect]
  refine Finset.sum_congr rfl fun i hi => ?_
  have hi := Finset.mem_range.1 hi
  rw [map_mul, Complex.conj_ofReal, ← Complex.exp_conj]
  have e1 : n - 1 - (n - 1 - i) = i := by omega
  have e2 : ((n - 1 - i : ℕ) : ℝ) = (n : ℝ) - 1 - i := by
    rw [Nat.cast_sub (by omega), Nat.cast_sub (by omega), Nat.cast_one]
  rw [e1, e2]
  congr 2
  rw [map_mul, map_neg, Complex.conj_ofReal, Complex.conj_I]
  push_cast
  ring

/-- A symmetric filter of any length has linear phase: without its delay the response is real. -/
theorem Palindrome.linear_phase {n : ℕ} {h : ℕ → ℝ} (hp : Palindrome n h) (w : ℝ) : (centredResponse n h w).im = 0 := by
  have h1 := centredResponse_reverse n h w
  have h2 : centredResponse n (fun i => h (n - 1 - i)) w = centredResponse n h w := by
    unfold centredResponse
    rw [firResponse_congr hp]
  rw [h2] at h1
  have := congrArg Complex.im h1
  simp at this
  linarith

/-- An antisymmetric filter of any length shifts every frequency by a quarter period: without its delay the response is imaginary. -/
theorem Antisymmetric.quarter_phase {n : ℕ} {h : ℕ → ℝ} (hp : Antisymmetric n h) (w : ℝ) : (centredResponse n h w).re = 0 := by
  have h1 := centredResponse_reverse n h w
  have h2 : centredResponse n (fun i => h (n - 1 - i)) w = -centredResponse n h w := by
    unfold centredResponse
    rw [firResponse_congr hp]
    unfold firResponse
    rw [← mul_neg, ← Finset.sum_neg_distrib]
    congr 1
    refine Finset.sum_congr rfl fun i _ => ?_
    push_cast
    ring
  rw [h2] at h1
  have := congrArg Complex.re h1
  simp at this
  linarith

theorem windowedSinc_palindrome {n : ℕ} (hodd : n % 2 = 1) (fc : ℝ) {w : ℕ → ℝ} (hp : Palindrome n w) :
    Palindrome n (windowedSinc n fc w) := by
  intro i hi
  unfold windowedSinc
  rw [hp i hi]
  have : ((n - 1 - i : ℕ) : ℝ) - (n / 2 : ℕ) = -((i : ℝ) - (n / 2 : ℕ)) := by
    have h' : n - 1 - i + i = 2 * (n / 2) := by omega
    have := congrArg (fun x : ℕ => (x : ℝ)) h'
    push_cast at this ⊢
    linarith
  rw [this, mul_neg, Real.sinc_neg]

theorem Palindrome.div {n : ℕ} {w : ℕ → ℝ} (hp : Palindrome n w) (s : ℝ) : Palindrome n (fun i => w i / s) :=
  fun i hi => by simp only []; rw [hp i hi]

/-! ### C50 -/

section
variable (e : Exec) (c : Kern) (hck : c.Ok) (mem : List ℝ) (out : Span) (hodd : out.size % 2 = 1) (hm : out.Within mem)
  (window : List ℝ → Span → Out (List ℝ)) (w : ℕ → ℕ → ℝ) (hwin : FillsWindow window w)
include hck hodd hm hwin

/-- **C50** (low pass): every tap is the window times the ideal low pass, over the sum of these products (if there is one, that is
if the sum is not zero); so the taps sum to one (unit gain at zero frequency); and the filter is symmetric (has linear phase) if
the window is. -/
theorem C50_lowpass_partial (fc : ℝ) (hfc : fc ≠ 0) (S : ℝ)
    (hS : S = ∑ i ∈ Finset.range out.size, w out.size i * Real.sinc (Real.pi * fc * (i - (out.size / 2 : ℕ)))) (hS0 : S ≠ 0) :
    ∃ m g, designWindowedLowpass e c mem out fc window = .ok m ∧ Writes mem m out g ∧
      (∀ i, i < out.size → g i = w out.size i * Real.sinc (Real.pi * fc * (i - (out.size / 2 : ℕ))) / S) ∧
      ∑ i ∈ Finset.range out.size, g i = 1 ∧ firResponse out.size g 0 = 1 ∧
      (Palindrome out.size (w out.size) → Palindrome out.size g ∧ ∀ v, (centredResponse out.size g v).im = 0) := by
  obtain ⟨m0, e0, hw0⟩ := hwin mem out hm
  obtain ⟨m, e1, h1⟩ := (kernelWindowedLowpass_writes e c hck mem out hodd hm fc hfc window e0 hw0 hS).1 hS0
  have hsum : ∑ i ∈ Finset.range out.size, windowedSinc out.size fc (w out.size) i / S = 1 := by
    rw [← Finset.sum_div, div_eq_one_iff_eq hS0]
    exact hS.symm
  refine ⟨m, _, e1, h1, fun i _ => rfl, hsum, ?_, fun hp => ?_⟩
  · unfold firResponse
    have := congrArg (fun x : ℝ => (x : ℂ)) hsum
    simp only [Complex.ofReal_sum, Complex.ofReal_one] at this
    rw [← this]
    refine Finset.sum_congr rfl fun i _ => ?_
    simp
  · have := (windowedSinc_palindrome hodd fc hp).div S
    exact ⟨this, fun v => this.linear_phase v⟩

/-- **C50** (low pass), what happens otherwise: the products sum to zero: the taps are not numbers. -/
theorem C50_lowpass_zero_sum (fc : ℝ) (hfc : fc ≠ 0)
    (hS : ∑ i ∈ Finset.range out.size, w out.size i * Real.sinc (Real.pi * fc * (i - (out.size / 2 : ℕ))) = 0) :
    designWindowedLowpass e c mem out fc window = .ub := by
  obtain ⟨m0, e0, hw0⟩ := hwin mem out hm
  exact (kernelWindowedLowpass_writes e c hck mem out hodd hm fc hfc window e0 hw0 rfl).2 hS

omit hck in
/-- **C50** (low pass), what the library does with cutoff zero, which the filter description accepts: `0 / 0`. -/
theorem C50_lowpass_cutoff_zero_wrong (hn : 2 ≤ out.size) : designWindowedLowpass e c mem out 0 window = .ub := by
  obtain ⟨m0, e0, hw0⟩ := hwin mem out hm
  have hub : ∀ {σ : Type} {body : ℕ → σ → Out σ} {s : σ} (n : ℕ), 0 < n → body 0 s = .ub → forN n body s = .ub := by
    intro σ body s n
    induction n with
    | zero => intro h; omega
    | succ n ih =>
      intro _ h
      show (forN n body s >>= body n) = _
      by_cases hn : n = 0
      · subst hn; exact h
      · rw [ih (by omega) h]; rfl
  unfold designWindowedLowpass kernelWindowedLowpass
  simp only []
  rw [cassert_true hodd, Out.ok_bind, e0, Out.ok_bind, hub _ (by omega)]
  · rfl
  · rw [fdiv_zero (by simp)]; rfl

/-- **C50** (high pass): complement of the low pass; no gain at zero frequency. -/
theorem C50_highpass_partial (fc : ℝ) (hfc : fc ≠ 0) (S : ℝ)
    (hS : S = ∑ i ∈ Finset.range out.size, w out.size i * Real.sinc (Real.pi * fc * (i - (out.size / 2 : ℕ)))) (hS0 : S ≠ 0) :
    ∃ m g, designWindowedHighpass e c mem out fc window = .ok m ∧ Writes mem m out g ∧
      (∀ i, i < out.size → g i = (if i = out.size / 2 then 1 else 0) -
        w out.size i * Real.sinc (Real.pi * fc * (i - (out.size / 2 : ℕ))) / S) ∧
      firResponse out.size g 0 = 0 ∧
      (Palindrome out.size (w out.size) → Palindrome out.size g ∧ ∀ v, (centredResponse out.size g v).im = 0) := by
  obtain ⟨m1, g, e1, h1, hg, -, h0, hp⟩ := C50_lowpass_partial e c hck mem out hodd hm window w hwin fc hfc S hS hS0
  have hm1 := h1.within hm
  obtain ⟨m2, e2, h2⟩ := complementaryResponse_writes e m1 out out hodd rfl hm1 hm1 (Or.inl le_rfl) g h1.reads
  refine ⟨m2, _, ?_, h1.trans h2, fun i hi => by rw [hg i hi], ?_, fun hpw => ?_⟩
  · unfold designWindowedHighpass
    rw [e1, Out.ok_bind, e2]
  · rw [firResponse_complement _ (by omega), h0]
    simp
  · have := (C48_symmetric _ hodd g (hp hpw).1 0).2.1
    exact ⟨this, fun v => this.linear_phase v⟩

/-- **C50** (band pass): the low pass of half the band width, moved to the centre of the band: without the delay, the response is
the sum of the low pass response moved up and moved down by the centre frequency. -/
theorem C50_bandpass_partial (lo hi : ℝ) (hne : lo ≠ hi) (S : ℝ)
    (hS : S = ∑ i ∈ Finset.range out.size, w out.size i * Real.sinc (Real.pi * ((hi - lo) / 2) * (i - (out.size / 2 : ℕ)))) (hS0 : S ≠ 0) :
    ∃ m g low, designWindowedBandpass e c mem out lo hi window = .ok m ∧ Writes mem m out g ∧
      (∀ i, i < out.size → low i = w out.size i * Real.sinc (Real.pi * ((hi - lo) / 2) * (i - (out.size / 2 : ℕ))) / S) ∧
      (∀ i, i < out.size → g i = 2 * Real.cos (Real.pi * ((hi + lo) / 2) * (i - (out.size / 2 : ℕ))) * low i) ∧
      (∀ v, centredResponse out.size g v = centredResponse out.size low (v - Real.pi * ((hi + lo) / 2)) +
        centredResponse out.size low (v + Real.pi * ((hi + lo) / 2))) ∧
      (Palindrome out.size (w out.size) → Palindrome out.size g ∧ ∀ v, (centredResponse out.size g v).im = 0) := by
  obtain ⟨m1, low, e1, h1, hg, -, h0, hp⟩ := C50_lowpass_partial e c hck mem out hodd hm window w hwin ((hi - lo) / 2)
    (by intro h; apply hne; linarith) S hS hS0
  have hm1 := h1.within hm
  obtain ⟨m2, g, e2, h2, hg2, hresp⟩ := C48_shift_inplace_partial m1 out out rfl hm1 hm1 low h1.reads e rfl hodd ((hi + lo) / 2)
  have hc : (((out.size / 2 : ℕ) : ℝ)) = ((out.size : ℝ) - 1) / 2 := by
    have h' : 2 * (out.size / 2) + 1 = out.size := by omega
    have := congrArg (fun x : ℕ => (x : ℝ)) h'
    push_cast at this ⊢
    linarith
  refine ⟨m2, g, low, ?_, h1.trans h2, hg, hg2, fun v => ?_, fun hpw => ?_⟩
  · unfold designWindowedBandpass
    simp only []
    rw [e1, Out.ok_bind, e2]
  · have := hresp v
    rw [hc] at this
    exact this
  · have h3 := (C48_symmetric _ hodd low (hp hpw).1 ((hi + lo) / 2)).2.2
    have h4 : Palindrome out.size g := fun i hi' => by rw [hg2 i hi', hg2 _ (by omega)]; exact h3 i hi'
    exact ⟨h4, fun v => h4.linear_phase v⟩

/-- **C50** (band stop): the band pass and the band stop add up to a pure delay. -/
theorem C50_bandstop_partial (lo hi : ℝ) (hne : lo ≠ hi) (S : ℝ)
    (hS : S = ∑ i ∈ Finset.range out.size, w out.size i * Real.sinc (Real.pi * ((hi - lo) / 2) * (i - (out.size / 2 : ℕ)))) (hS0 : S ≠ 0) :
    ∃ m g mp pass, designWindowedBandstop e c mem out lo hi window = .ok m ∧ Writes mem m out g ∧
      designWindowedBandpass e c mem out lo hi window = .ok mp ∧ Writes mem mp out pass ∧
      (∀ i, i < out.size → g i + pass i = if i = out.size / 2 then 1 else 0) ∧
      (∀ v, centredResponse out.size g v + centredResponse out.size pass v = 1) ∧
      (Palindrome out.size (w out.size) → Palindrome out.size g ∧ ∀ v, (centredResponse out.size g v).im = 0) := by
  obtain ⟨m1, pass, low, e1, h1, -, -, -, hp⟩ := C50_bandpass_partial e c hck mem out hodd hm window w hwin lo hi hne S hS hS0
  have hm1 := h1.within hm
  obtain ⟨m2, e2, h2⟩ := complementaryResponse_writes e m1 out out hodd rfl hm1 hm1 (Or.inl le_rfl) pass h1.reads
  have hc : (((out.size / 2 : ℕ) : ℝ)) = ((out.size : ℝ) - 1) / 2 := by
    have h' : 2 * (out.size / 2) + 1 = out.size := by omega
    have := congrArg (fun x : ℕ => (x : ℝ)) h'
    push_cast at this ⊢
    linarith
  refine ⟨m2, _, m1, pass, ?_, h1.trans h2, e1, h1, fun i _ => by ring, fun v => ?_, fun hpw => ?_⟩
  · unfold designWindowedBandstop
    rw [e1, Out.ok_bind, e2]
  · unfold centredResponse
    rw [firResponse_complement _ (by omega), ← mul_add, sub_add_cancel, ← Complex.exp_add, hc]
    rw [show ((v * (((out.size : ℝ) - 1) / 2) : ℝ) : ℂ) * I + -((v * (((out.size : ℝ) - 1) / 2) : ℝ) : ℂ) * I = 0 by ring,
      Complex.exp_zero]
  · have := (C48_symmetric _ hodd pass (hp hpw).1 0).2.1
    exact ⟨this, fun v => this.linear_phase v⟩

omit hck hodd hm hwin in
/-- **C50**: windowed designs of even length are refused. -/
theorem C50_even_refused (heven : out.size % 2 = 0) (fc : ℝ) (lo hi : ℝ) :
    designWindowedLowpass e c mem out fc window = .assertFail ∧ designWindowedHighpass e c mem out fc window = .assertFail ∧
    designWindowedBandpass e c mem out lo hi window = .assertFail ∧ designWindowedBandstop e c mem out lo hi window = .assertFail := by
  have h : ∀ fc, designWindowedLowpass e c mem out fc window = .assertFail := by
    intro fc
    unfold designWindowedLowpass kernelWindowedLowpass
    rw [cassert, if_neg (by omega)]
    rfl
  refine ⟨h fc, ?_, ?_, ?_⟩
  · unfold designWindowedHighpass; rw [h]; rfl
  · unfold designWindowedBandpass; simp only []; rw [h]; rfl
  · unfold designWindowedBandstop designWindowedBandpass; simp only []; rw [h]; rfl

omit hwin in
/-- **C50**: the overload that takes the window as a signal computes the same filter. -/
theorem C50_given_window (win : Span) (hs : out.size = win.size) (hwi : win.Within mem)
    (hdis : out.pos + out.size ≤ win.pos ∨ win.pos + win.size ≤ out.pos) (v : ℕ → ℝ) (hr : Reads mem win v)
    (fc : ℝ) (hfc : fc ≠ 0) (S : ℝ)
    (hS : S = ∑ i ∈ Finset.range out.size, v i * Real.sinc (Real.pi * fc * (i - (out.size / 2 : ℕ)))) (hS0 : S ≠ 0) :
    ∃ m, kernelWindowedLowpassGiven e c mem out fc win = .ok m ∧
      Writes mem m out (fun i => v i * Real.sinc (Real.pi * fc * (i - (out.size / 2 : ℕ))) / S) :=
  (kernelWindowedLowpassGiven_writes e c hck mem out win hodd hs hm hwi hdis fc hfc hr hS).1 hS0

end

/-- **C50**: when the sum of the products is certainly not zero: a nonnegative window, positive in the middle, and the main lobe of
the ideal low pass at least as wide as the filter. -/
theorem C50_sum_pos (n : ℕ) (hodd : n % 2 = 1) (w : ℕ → ℝ) (h0 : ∀ i, i < n → 0 ≤ w i) (hmid : 0 < w (n / 2)) (fc : ℝ)
    (hf0 : 0 < fc) (hf1 : fc * (n / 2 : ℕ) ≤ 1) :
    0 < ∑ i ∈ Finset.range n, w i * Real.sinc (Real.pi * fc * (i - (n / 2 : ℕ))) := by
  have hpos : ∀ i ∈ Finset.range n, 0 ≤ w i * Real.sinc (Real.pi * fc * (i - (n / 2 : ℕ))) := by
    intro i hi
    have hi := Finset.mem_range.1 hi
    apply mul_nonneg (h0 i hi)
    have hle : |Real.pi * fc * ((i : ℝ) - (n / 2 : ℕ))| ≤ Real.pi := by
      have h1 : |(i : ℝ) - (n / 2 : ℕ)| ≤ (n / 2 : ℕ) := by
        rw [abs_le]
        have h2 : i ≤ 2 * (n / 2) := by omega
        have h3 : (i : ℝ) ≤ 2 * ((n / 2 : ℕ) : ℝ) := by exact_mod_cast h2
        have h4 : (0 : ℝ) ≤ i := Nat.cast_nonneg i
        constructor <;> linarith
      rw [abs_mul, abs_of_pos (mul_pos Real.pi_pos hf0)]
      calc Real.pi * fc * |(i : ℝ) - (n / 2 : ℕ)| ≤ Real.pi * fc * (n / 2 : ℕ) :=
            mul_le_mul_of_nonneg_left h1 (mul_pos Real.pi_pos hf0).le
        _ = Real.pi * (fc * (n / 2 : ℕ)) := by ring
        _ ≤ Real.pi * 1 := mul_le_mul_of_nonneg_left hf1 Real.pi_pos.le
        _ = Real.pi := mul_one _
    generalize Real.pi * fc * ((i : ℝ) - (n / 2 : ℕ)) = x at hle
    by_cases hx : x = 0
    · rw [hx, Real.sinc_zero]; norm_num
    · rw [Real.sinc_of_ne_zero hx]
      rcases lt_or_gt_of_ne hx with h | h
      · have := Real.sin_nonneg_of_nonneg_of_le_pi (x := -x) (by linarith) (by rw [abs_of_neg h] at hle; exact hle)
        rw [Real.sin_neg] at this
        exact div_nonneg_of_nonpos (by linarith) h.le
      · exact div_nonneg (Real.sin_nonneg_of_nonneg_of_le_pi h.le (by rw [abs_of_pos h] at hle; exact hle)) h.le
  have hmem : n / 2 ∈ Finset.range n := Finset.mem_range.2 (by omega)
  refine lt_of_lt_of_le ?_ (Finset.single_le_sum hpos hmem)
  rw [sub_self, mul_zero, Real.sinc_zero, mul_one]
  exact hmid

-- The hypotheses are met: a low pass of 21 taps, cutoff 0.05, designed with the rectangular window, in the middle of a memory.
example (e : Exec) (mem : List ℝ) (hl : mem.length = 100) (c : Kern) (hc : c.Ok) :
    ∃ m g, designWindowedLowpass e c mem ⟨30, 21⟩ 0.05 rectangularWindow = .ok m ∧ Writes mem m ⟨30, 21⟩ g ∧
      ∑ i ∈ Finset.range 21, g i = 1 ∧ Palindrome 21 g := by
  have hpos := C50_sum_pos 21 rfl (fun _ => 1) (fun _ _ => by norm_num) (by norm_num) 0.05 (by norm_num) (by norm_num)
  obtain ⟨m, g, e1, h1, -, h2, -, h3⟩ := C50_lowpass_partial e c hc mem ⟨30, 21⟩ rfl (by simp [Span.Within, hl]) rectangularWindow
    (fun _ _ => 1) (fun mem out hw => C46_rectangular mem out hw) 0.05 (by norm_num) _ rfl hpos.ne'
  exact ⟨m, g, e1, h1, h2, (h3 (fun _ _ => rfl)).1⟩

/-! ### C49 -/

theorem quadrature_neg (k : ℤ) : quadrature (-k) = -quadrature k := by
  unfold quadrature
  have h : k % 4 = 0 ∨ k % 4 = 1 ∨ k % 4 = 2 ∨ k % 4 = 3 := by omega
  rcases h with h | h | h | h
  · rw [if_neg (by omega), if_neg (by omega), if_neg (by omega), if_neg (by omega), neg_zero]
  · rw [if_neg (by omega), if_pos (by omega), if_pos (by omega)]
  · rw [if_neg (by omega), if_neg (by omega), if_neg (by omega), if_neg (by omega), neg_zero]
  · rw [if_pos (by omega), if_neg (by omega), if_pos (by omega), neg_neg]

/-- `quadrature k` is twice the sine of `π k / 2`: 0, 2, 0, -2 and so on. -/
theorem quadrature_eq_sin (k : ℤ) : quadrature k = 2 * Real.sin (Real.pi * k / 2) := by
  obtain ⟨q, r, hk, hr0, hr4⟩ : ∃ q r : ℤ, k = 4 * q + r ∧ 0 ≤ r ∧ r < 4 := ⟨k / 4, k % 4, by omega, by omega, by omega⟩
  have hsin : Real.sin (Real.pi * k / 2) = Real.sin (Real.pi * r / 2) := by
    rw [hk, ← Real.sin_add_int_mul_two_pi (Real.pi * r / 2) q]
    congr 1
    push_cast
    ring
  have hq : quadrature k = quadrature r := quadrature_congr (by omega)
  rw [hsin, hq]
  have h : r = 0 ∨ r = 1 ∨ r = 2 ∨ r = 3 := by omega
  rcases h with rfl | rfl | rfl | rfl
  · simp [quadrature]
  · simp [quadrature]
  · simp [quadrature]
  · have : Real.pi * ((3 : ℤ) : ℝ) / 2 = Real.pi / 2 + Real.pi := by push_cast; ring
    rw [this, Real.sin_add_pi, Real.sin_pi_div_two]
    norm_num [quadrature]

/-- **C49** (odd lengths), in place or into a separate signal: every tap is the half-band tap times twice the sine of a quarter
turn per tap from the centre, whatever the length (the blocks of the implementation are invisible); a symmetric half-band filter
gives an antisymmetric one, which turns all frequencies by exactly a quarter period. -/
theorem C49_odd (e : Exec) (mem : List ℝ) (out hb : Span) (hodd : hb.size % 2 = 1)
    (hs : out.size = hb.size) (hm : out.Within mem) (hf : hb.Within mem) (hc : out.Compatible hb) (h : ℕ → ℝ) (hr : Reads mem hb h) :
    ∃ m g, halfbandToHilbertOdd e mem out hb = .ok m ∧ Writes mem m out g ∧
      (∀ i, i < out.size → g i = h i * (2 * Real.sin (Real.pi * ((i : ℤ) - (out.size / 2 : ℕ) : ℤ) / 2))) ∧
      (Palindrome hb.size h → Antisymmetric out.size g ∧ ∀ v, (centredResponse out.size g v).re = 0) := by
  obtain ⟨m, e1, h1⟩ := halfbandToHilbertOdd_writes e mem out hb hodd hs hm hf hc h hr
  refine ⟨m, _, e1, h1, fun i _ => by rw [quadrature_eq_sin, hs], fun hp => ?_⟩
  have ha : Antisymmetric out.size (fun i => h i * quadrature ((i : ℤ) - (hb.size / 2 : ℕ))) := by
    intro i hi
    simp only []
    rw [hs] at hi ⊢
    rw [hp i hi, ← mul_neg, ← quadrature_neg]
    congr 2
    omega
  exact ⟨ha, fun v => ha.quarter_phase v⟩

/-- **C49** (even lengths): `out` gets every second tap of the half-band filter of length `2 n - 1`, times the same sine. -/
theorem C49_even (e : Exec) (garbage mem : List ℝ) (hg : garbage.length = 32) (out hb : Span)
    (heven : out.size % 2 = 0) (hpos : 0 < out.size)
    (hs : out.size * 2 - 1 = hb.size) (hm : out.Within mem) (hf : hb.Within mem)
    (hc : out.pos + out.size ≤ hb.pos ∨ hb.pos + hb.size ≤ out.pos) (h : ℕ → ℝ) (hr : Reads mem hb h) :
    ∃ m g, halfbandToHilbertEven e garbage mem out hb = .ok m ∧ Writes mem m out g ∧
      (∀ i, i < out.size → g i = h (2 * i) * (2 * Real.sin (Real.pi * (2 * (i : ℤ) - (out.size - 1) : ℤ) / 2))) ∧
      (Palindrome hb.size h → Antisymmetric out.size g ∧ ∀ v, (centredResponse out.size g v).re = 0) := by
  obtain ⟨m, e1, h1⟩ := halfbandToHilbertEven_writes e garbage mem hg out hb heven hpos hs hm hf hc h hr
  refine ⟨m, _, e1, h1, fun i _ => ?_, fun hp => ?_⟩
  · rw [quadrature_eq_sin]
    have : ((2 * i : ℕ) : ℤ) - (hb.size / 2 : ℕ) = 2 * (i : ℤ) - (out.size - 1) := by omega
    rw [this]
  have ha : Antisymmetric out.size (fun i => h (2 * i) * quadrature (((2 * i : ℕ) : ℤ) - (hb.size / 2 : ℕ))) := by
    intro i hi
    simp only []
    have := hp (2 * i) (by omega)
    rw [show hb.size - 1 - 2 * i = 2 * (out.size - 1 - i) by omega] at this
    rw [this, ← mul_neg, ← quadrature_neg]
    congr 2
    push_cast
    omega
  exact ⟨ha, fun v => ha.quarter_phase v⟩

/-- **C49**: lengths that do not fit are refused. -/
theorem C49_refused (e : Exec) (garbage mem : List ℝ) (out hb : Span) :
    (hb.size % 2 = 0 ∨ out.size ≠ hb.size → halfbandToHilbertOdd e mem out hb = .assertFail) ∧
    (out.size % 2 = 1 ∨ (0 < out.size ∧ out.size * 2 - 1 ≠ hb.size) → halfbandToHilbertEven e garbage mem out hb = .assertFail) := by
  constructor
  · intro h
    unfold halfbandToHilbertOdd
    by_cases h1 : hb.size % 2 = 1
    · rw [cassert_true h1, Out.ok_bind, cassert, if_neg (by omega)]; rfl
    · rw [cassert, if_neg h1]; rfl
  · intro h
    unfold halfbandToHilbertEven
    by_cases h1 : out.size % 2 = 0
    · rw [cassert_true h1, Out.ok_bind, cassert, if_neg]
      · rfl
      · rw [usub, if_pos (by omega)]; omega
    · rw [cassert, if_neg h1]; rfl

/-- **C49**: the complete design by the window method: with any symmetric window, any positive length, even or odd, the Hilbert
transformer is antisymmetric and turns all frequencies by exactly a quarter period (`H`: length of the half-band filter). -/
theorem C49_windowed_hilbert (e : Exec) (c : Kern) (hck : c.Ok) (garbage mem : List ℝ) (hg : garbage.length = 32) (out : Span)
    (hpos : 0 < out.size) (hm : out.Within mem) (window : List ℝ → Span → Out (List ℝ)) (w : ℕ → ℕ → ℝ) (hwin : FillsWindow window w)
    (hsym : ∀ n, Palindrome n (w n)) (H : ℕ) (hH : H = if out.size % 2 = 0 then out.size * 2 - 1 else out.size)
    (hS0 : ∑ i ∈ Finset.range H, w H i * Real.sinc (Real.pi * 0.5 * (i - (H / 2 : ℕ))) ≠ 0) :
    ∃ m g, designWindowedHilbert e c garbage mem out window = .ok m ∧ Writes mem m out g ∧
      Antisymmetric out.size g ∧ ∀ v, (centredResponse out.size g v).re = 0 := by
  unfold designWindowedHilbert firFilterHilbert
  by_cases heven : out.size % 2 = 0
  · rw [if_pos heven] at hH ⊢
    have hu : usub (out.size * 2) 1 = H := by rw [usub, if_pos (by omega), hH]
    simp only [hu]
    have hmH : (⟨mem.length, H⟩ : Span).Within (mem ++ List.replicate H 0) := by simp [Span.Within]
    obtain ⟨m1, g1, e1, h1, -, -, -, hp1⟩ := C50_lowpass_partial e c hck (mem ++ List.replicate H 0) ⟨mem.length, H⟩ (by simp only []; omega) hmH
      window w hwin 0.5 (by norm_num) _ rfl hS0
    have hl1 : m1.length = mem.length + H := by rw [h1.length]; simp
    unfold Span.Within at hm
    obtain ⟨m2, g, e2, h2, -, ha⟩ := C49_even e garbage m1 hg out ⟨mem.length, H⟩ heven hpos (by simp only []; omega)
      (by unfold Span.Within; omega) (h1.within hmH) (Or.inl hm) g1 h1.reads
    have hA := ha (hp1 (hsym H)).1
    refine ⟨m2.take mem.length, g, by rw [e1, Out.ok_bind, e2, Out.ok_bind, Out.pure_def], ⟨?_, fun i hi => ?_, fun j hj => ?_⟩, hA⟩
    · rw [List.length_take, h2.length]; omega
    · rw [List.getElem?_take, if_pos (by omega), h2.written i hi]
    · rw [List.getElem?_take]
      split_ifs with hjl
      · rw [h2.rest j hj, h1.rest j (Or.inl hjl), List.getElem?_append_left hjl]
      · rw [List.getElem?_eq_none (by omega)]
  · rw [if_neg heven] at hH ⊢
    subst hH
    obtain ⟨m1, g1, e1, h1, -, -, -, hp1⟩ := C50_lowpass_partial e c hck mem out (by omega) hm window w hwin 0.5 (by norm_num) _ rfl hS0
    have hm1 := h1.within hm
    obtain ⟨m2, g, e2, h2, -, ha⟩ := C49_odd e m1 out out (by omega) rfl hm1 hm1 (Or.inl rfl) g1 h1.reads
    exact ⟨m2, g, by simp only []; rw [e1, Out.ok_bind, e2], h1.trans h2, ha (hp1 (hsym _)).1⟩

-- The hypotheses are met: 101 taps (several blocks of the implementation), symmetric half-band filter
example (e : Exec) : ∃ m g, halfbandToHilbertOdd e (List.replicate 101 1) ⟨0, 101⟩ ⟨0, 101⟩ = .ok m ∧
    Writes (List.replicate 101 1) m ⟨0, 101⟩ g ∧ Antisymmetric 101 g ∧ g 51 = 2 := by
  obtain ⟨m, g, e1, h1, hg, h2⟩ := C49_odd e (List.replicate 101 1) ⟨0, 101⟩ ⟨0, 101⟩ rfl rfl (by simp [Span.Within])
    (by simp [Span.Within]) (Or.inl rfl) (fun _ => 1) (fun i hi => by
      have hi' : i < 101 := hi
      show (List.replicate 101 (1 : ℝ))[0 + i]? = some 1
      rw [List.getElem?_replicate, if_pos (by omega)])
  refine ⟨m, g, e1, h1, (h2 fun _ _ => rfl).1, ?_⟩
  rw [hg 51 (by norm_num)]
  norm_num

-- and a complete design of even length
example (e : Exec) (c : Kern) (hc : c.Ok) : ∃ m g, designWindowedHilbert e c (List.replicate 32 7) [5, 5] ⟨0, 2⟩ rectangularWindow = .ok m ∧
    Writes [5, 5] m ⟨0, 2⟩ g ∧ Antisymmetric 2 g := by
  have hpos := C50_sum_pos 3 rfl (fun _ => 1) (fun _ _ => by norm_num) (by norm_num) 0.5 (by norm_num) (by norm_num)
  obtain ⟨m, g, e1, h1, h2, -⟩ := C49_windowed_hilbert e c hc (List.replicate 32 7) [5, 5] (by simp) ⟨0, 2⟩ (by norm_num)
    (by simp [Span.Within]) rectangularWindow (fun _ _ => 1) (fun mem out hw => C46_rectangular mem out hw) (fun _ _ _ => rfl) 3
    (by norm_num) hpos.ne'
  exact ⟨m, g, e1, h1, h2⟩

end Verif
