import Verif.Lemmas.RateChange
import Verif.Props.Resample2
import Verif.Spec.FirDesign

/-!
# Property C85: what changing the sample rate does to the spectrum
-/

set_option linter.unusedSectionVars false
set_option linter.unusedSimpArgs false
set_option linter.unusedVariables false
set_option linter.style.longLine false

namespace Verif
open Complex Finset Rational

theorem decimateAlloc_eq (x : List ℂ) (r : ℕ) (hr : 0 < r) (K : ℕ) (h1 : K * r < x.length + r) (h2 : x.length ≤ K * r) :
    decimateAlloc x r = .ok ((List.range K).map fun k => sig x (k * r)) := by
  have hK : (x.length + r - 1) / r = K := by
    rw [Nat.div_eq_iff hr]
    constructor <;> omega
  unfold decimateAlloc
  rw [if_neg hr.ne', hK, (C30_decimate (List.replicate K 0) x r hr).1 (by simpa using h1) (by simpa using h2)]
  simp

/-- **C85**: expansion repeats the spectrum `P` times: the spectrum at every frequency is that of the input at `P` times the frequency, and
bin `k` of the longer transform is bin `k` of the input (whose bins repeat with its length). -/
theorem C85_expand (x : List ℂ) (P : ℕ) (hP : 0 < P) :
    ∃ y, expandAlloc x P = .ok y ∧ y.length = x.length * P ∧ (∀ w, spectrum y w = spectrum x (w * P)) ∧ ∀ k, dftAt y k = dftAt x k := by
  refine ⟨zeroStuffed x P, ?_, zeroStuffed_length _ _, spectrum_zeroStuffed x P hP, dft_zeroStuffed x P hP⟩
  unfold expandAlloc
  exact expand_spec _ _ _ hP (by simp)

/-- **C85**: decimation folds the spectrum: at every frequency it is the average of the input's spectrum over the `r` frequencies that alias
to it; if the length is a multiple of the rate, the same holds bin by bin. -/
theorem C85_decimate (x : List ℂ) (r : ℕ) (hr : 0 < r) :
    ∃ y, decimateAlloc x r = .ok y ∧ (∀ w, (r : ℂ) * spectrum y w = ∑ l ∈ range r, spectrum x (imageOf r w l)) ∧
      ∀ M, 0 < M → x.length = M * r → ∀ k : ℤ, (r : ℂ) * dftAt y k = ∑ l ∈ range r, dftAt x (k + l * M) := by
  obtain ⟨K, hK⟩ : ∃ K, K = (x.length + r - 1) / r := ⟨_, rfl⟩
  have e := Nat.div_add_mod (x.length + r - 1) r
  have hm := Nat.mod_lt (x.length + r - 1) hr
  rw [← hK, mul_comm] at e
  have h1 : K * r < x.length + r := by omega
  have h2 : x.length ≤ K * r := by omega
  refine ⟨_, decimateAlloc_eq x r hr K h1 h2, spectrum_decimated x r K hr h1 h2, fun M hM hl k => ?_⟩
  have : K = M := by
    have a1 : K * r < (M + 1) * r := by rw [add_mul, one_mul, ← hl]; exact h1
    have a2 : M * r ≤ K * r := by rw [← hl]; exact h2
    have := Nat.lt_of_mul_lt_mul_right a1
    have := Nat.le_of_mul_le_mul_right a2 hr
    omega
  rw [this]
  exact dft_decimated x r M hr hM hl k

/-- A signal of `M * r` samples is band limited for a decimation by `r` when only `M` successive bins, from bin `a` on, are occupied. -/
def BandLimited (x : List ℂ) (M r : ℕ) (a : ℤ) : Prop := x.length = M * r ∧ ∀ k : ℤ, a + M ≤ k → k < a + M * r → dftAt x k = 0

/-- **C85**: decimating a band limited signal loses nothing: the occupied bins are those of the input, divided by the rate. -/
theorem C85_alias_free (x : List ℂ) (M r : ℕ) (hM : 0 < M) (hr : 0 < r) (a : ℤ) (hx : BandLimited x M r a) :
    ∃ y, decimateAlloc x r = .ok y ∧ y.length = M ∧ ∀ k : ℤ, a ≤ k → k < a + M → (r : ℂ) * dftAt y k = dftAt x k := by
  have hl := hx.1
  refine ⟨_, decimateAlloc_eq x r hr M (by omega) (by omega), by simp, fun k h1 h2 => ?_⟩
  rw [dft_decimated x r M hr hM hl k, sum_eq_single 0]
  · simp
  · intro l hl' h0
    have hl' := mem_range.1 hl'
    have a1 : (M : ℤ) ≤ l * M := le_mul_of_one_le_left (by omega) (by omega)
    have a2 : (l : ℤ) * M + M ≤ M * r := by
      have : ((l : ℤ) + 1) * M ≤ r * M := mul_le_mul_of_nonneg_right (by omega) (by omega)
      linarith [mul_comm (M : ℤ) r]
    exact hx.2 _ (by linarith) (by linarith)
  · intro h
    exact absurd (mem_range.2 hr) h

/-- **C85**, the sampling theorem: of two signals band limited to the same bins, decimated to the same samples, both are equal. -/
theorem C85_sampling (x x' : List ℂ) (M r : ℕ) (hM : 0 < M) (hr : 0 < r) (a : ℤ) (hx : BandLimited x M r a) (hx' : BandLimited x' M r a)
    (h : decimateAlloc x r = decimateAlloc x' r) : x = x' := by
  obtain ⟨y, e1, -, e3⟩ := C85_alias_free x M r hM hr a hx
  obtain ⟨y', f1, -, f3⟩ := C85_alias_free x' M r hM hr a hx'
  rw [e1, f1] at h
  have hy : y = y' := by injection h
  subst hy
  have hl := hx.1
  have hl' := hx'.1
  have hN : 0 < M * r := Nat.mul_pos hM hr
  have hNz : (0 : ℤ) < (M * r : ℕ) := by exact_mod_cast hN
  apply dft_inj _ _ (by omega)
  intro k _
  obtain ⟨q, hq⟩ : ∃ q, q = ((k : ℤ) - a) % (M * r : ℕ) := ⟨_, rfl⟩
  obtain ⟨t, ht⟩ : ∃ t, t = ((k : ℤ) - a) / (M * r : ℕ) := ⟨_, rfl⟩
  have q0 := Int.emod_nonneg ((k : ℤ) - a) hNz.ne'
  have q1 := Int.emod_lt_of_pos ((k : ℤ) - a) hNz
  have e := Int.emod_add_mul_ediv ((k : ℤ) - a) (M * r : ℕ)
  rw [← hq] at q0 q1 e
  rw [← ht] at e
  have hk : (k : ℤ) = (a + q) + (M * r : ℕ) * t := by linarith
  have g1 : dftAt x k = dftAt x (a + q) := by rw [hk, ← hl]; exact dft_period x (by omega) _ _
  have g2 : dftAt x' k = dftAt x' (a + q) := by rw [hk, ← hl']; exact dft_period x' (by omega) _ _
  rw [g1, g2]
  push_cast at q1
  by_cases hqM : q < M
  · rw [← e3 _ (by linarith) (by linarith), ← f3 _ (by linarith) (by linarith)]
  · rw [hx.2 _ (by linarith) (by linarith), hx'.2 _ (by linarith) (by linarith)]

/-- **C85**, interpolation: a sinusoid comes out as the sum of the sinusoids at its `P` images, each changed by the filter's response at its
frequency, at every output sample for which the filter overlaps only the input. -/
theorem C85_interpolate {dot : List ℝ → List ℝ → Out ℝ} (hd : IsDot dot) (h : List ℝ) (P : ℕ) (hP : 0 < P) (hF : 0 < h.length) :
    ∃ v, polyphaseDecomposeAlloc h P = .ok v ∧ ∀ (A w φ : ℝ) (L off len : ℕ), h.length ≤ off + 1 → off + len ≤ L * P →
      ∃ y, interpolateAlloc dot (sinusoid A w φ L) v off len = .ok y ∧ y.length = len ∧ ∀ k, k < len →
        sig y k = (∑ l ∈ range P, tapsResponse h (imageOf P w l) * (A * exp ((imageOf P w l * (off + k : ℕ) + φ) * I))).re := by
  obtain ⟨v, e1, -⟩ := C31_interpolateAlloc hd [] h P hP 0 0
  refine ⟨v, e1, fun A w φ L off len h1 h2 => ?_⟩
  obtain ⟨v', e2, e3, -⟩ := C31_interpolateAlloc hd (sinusoid A w φ L) h P hP off len
  have hv : v = v' := by rw [e1] at e2; injection e2
  subst hv
  have hfin : off + len ≤ interpolLengthFull (sinusoid A w φ L).length h.length P := by
    have hl : (sinusoid A w φ L).length = L := by simp [sinusoid]
    unfold interpolLengthFull convLengthFull
    rw [hl]
    split <;> omega
  refine ⟨_, e3 hfin, by simp, fun k hk => ?_⟩
  rw [← conv_stuffed_sinusoid h A w φ L P (off + k) hP (by omega) (by omega)]
  change sig (reg len _) k = _
  rw [sig_reg, if_pos hk]

/-- **C85**, the quality of interpolation: with a filter of delay `d` the output is the sinusoid at the higher rate, `d` samples late, up to
the filter's deviation from a pure delay at the sinusoid's frequency and what it lets through at the images. -/
theorem C85_interpolate_error {dot : List ℝ → List ℝ → Out ℝ} (hd : IsDot dot) (h : List ℝ) (P : ℕ) (hP : 0 < P) (hF : 0 < h.length) (d : ℝ) :
    ∃ v, polyphaseDecomposeAlloc h P = .ok v ∧ ∀ (A w φ : ℝ) (L off len : ℕ), h.length ≤ off + 1 → off + len ≤ L * P →
      ∃ y, interpolateAlloc dot (sinusoid A w φ L) v off len = .ok y ∧ y.length = len ∧ ∀ k, k < len →
        |sig y k - A * Real.cos (w / P * (((off + k : ℕ) : ℝ) - d) + φ)| ≤
          |A| * (‖tapsResponse h (w / P) * exp (w / P * d * I) - 1‖ + ∑ l ∈ Ico 1 P, ‖tapsResponse h (imageOf P w l)‖) := by
  obtain ⟨v, e1, e2⟩ := C85_interpolate hd h P hP hF
  refine ⟨v, e1, fun A w φ L off len h1 h2 => ?_⟩
  obtain ⟨y, f1, f2, f3⟩ := e2 A w φ L off len h1 h2
  refine ⟨y, f1, f2, fun k hk => ?_⟩
  rw [f3 k hk]
  have := images_error h A w φ d P hP ((off + k : ℕ) : ℝ)
  push_cast at this ⊢
  exact this

/-- **C85**, the quality of resampling: output sample `k` is the sinusoid at the input position `(start + k) · rate`, `d` oversampled samples
late, up to the filter's deviation from a pure delay at the sinusoid's frequency, what it lets through at the images, and one eighth of the
squared phase step between samples of the oversampled grid (the error of linear interpolation) — wherever the filter overlaps only the input. -/
theorem C85_resample_error {dot : List ℝ → List ℝ → Out ℝ} (hd : IsDot dot) (h : List ℝ) (P : ℕ) (hP : 0 < P) (hF : 0 < h.length) (d : ℝ) :
    ∃ v, polyphaseDecomposeAlloc h P = .ok v ∧ ∀ (A w φ : ℝ) (L : ℕ) (out : List ℝ) (rates start : Rational), Canon rates → Canon start →
      0 < rates.num → 0 ≤ start.num →
      (L * P + h.length + P : ℤ) * (start.den * rates.den * rates.num * P) ≤ 2 ^ 62 →
      start.val + out.length ≤ (convLengthFull (L * P) h.length : ℚ) / (rates.val * P) →
      ∃ y sp, resample dot out (sinusoid A w φ L) v rates start = .ok (y, sp) ∧ y.length = out.length ∧
        ∀ k, k < out.length → (h.length : ℚ) - 1 ≤ (start.val + k) * rates.val * P → (start.val + k) * rates.val * P + 1 < L * P →
        |sig y k - A * Real.cos (w * ((((start.val + k) * rates.val : ℚ) : ℝ) - d / P) + φ)| ≤
          |A| * (‖tapsResponse h (w / P) * exp (w / P * d * I) - 1‖ + ∑ l ∈ Ico 1 P, ‖tapsResponse h (imageOf P w l)‖ + (w / P) ^ 2 / 8) := by
  obtain ⟨v, e1, e2⟩ := decompose_represents (output := List.replicate h.length 0) (h := h) (P := P) (by simp)
  refine ⟨v, e1, fun A w φ L out rates start hrc hsc hr0 hs0 hfit hmax => ?_⟩
  have hlS : (sinusoid A w φ L).length = L := by simp [sinusoid]
  obtain ⟨y, sp, f1, f2, f3⟩ := C32_resample hd out (sinusoid A w φ L) (h.map fun a => (P : ℝ) * a) v P e2 hP (by simpa using hF) rates start
    hrc hsc hr0 hs0 (by rw [hlS, List.length_map]; exact hfit) (by rw [hlS, List.length_map]; exact hmax)
  refine ⟨y, sp, f1, f2, fun k hk c1 c2 => ?_⟩
  rw [f3 k hk]
  obtain ⟨pos, hpos⟩ : ∃ pos, pos = (start.val + k) * rates.val * P := ⟨_, rfl⟩
  rw [← hpos] at c1 c2 ⊢
  have hPR : (P : ℝ) ≠ 0 := by exact_mod_cast hP.ne'
  have e4 : w * ((((start.val + k) * rates.val : ℚ) : ℝ) - d / P) + φ = w / P * ((pos : ℝ) - d) + φ := by
    rw [hpos]
    push_cast
    field_simp
  rw [e4]
  have hp0 : 0 ≤ pos := by
    have : (1 : ℚ) ≤ h.length := by exact_mod_cast hF
    linarith
  obtain ⟨n, hn⟩ : ∃ n, n = ⌊pos⌋.toNat := ⟨_, rfl⟩
  have hfl : (n : ℤ) = ⌊pos⌋ := by rw [hn]; exact Int.toNat_of_nonneg (Int.floor_nonneg.2 hp0)
  have hn1 : (n : ℚ) ≤ pos := by
    have := Int.floor_le pos
    rw [← hfl] at this
    exact_mod_cast this
  have hn2 : h.length ≤ n + 1 := by
    have : ((h.length : ℤ) - 1) ≤ ⌊pos⌋ := by
      rw [Int.le_floor]
      push_cast
      exact c1
    omega
  have hn3 : n + 1 < L * P := by
    have : ((n + 1 : ℕ) : ℚ) < (L * P : ℕ) := by push_cast; linarith
    exact_mod_cast this
  obtain ⟨s, hs⟩ : ∃ s, s = Int.fract pos := ⟨_, rfl⟩
  have hs0' : (0 : ℝ) ≤ s := by rw [hs]; exact_mod_cast Int.fract_nonneg pos
  have hs1' : (s : ℝ) ≤ 1 := by rw [hs]; exact_mod_cast (Int.fract_lt_one pos).le
  have hps : (pos : ℝ) = n + s := by
    have := Int.floor_add_fract pos
    rw [← hfl, ← hs] at this
    exact_mod_cast this.symm
  have hc : ∀ m, convAt (zeroStuffed (sinusoid A w φ L) P) (h.map fun a => (P : ℝ) * a) m =
      (P : ℝ) * convAt (zeroStuffed (sinusoid A w φ L) P) h m := by
    intro m
    rw [← upsampleAt_eq_conv _ _ _ _ hP, ← upsampleAt_eq_conv _ _ _ _ hP, upsampleAt_map]
  unfold lerpAt
  simp only [hc]
  rw [← hn, ← hs, conv_stuffed_sinusoid h A w φ L P n hP hn2 (by omega), conv_stuffed_sinusoid h A w φ L P (n + 1) hP (by omega) hn3]
  have b1 := images_error h A w φ d P hP (n : ℝ)
  have b2 := images_error h A w φ d P hP ((n + 1 : ℕ) : ℝ)
  have b3 := lerp_sinusoid A (w / P) (φ - w / P * d) n s hs0' hs1'
  push_cast at b1 b2 b3 ⊢
  rw [hps]
  rw [show w / P * (n : ℝ) + (φ - w / P * d) = w / P * (n - d) + φ by ring,
    show w / P * ((n : ℝ) + 1) + (φ - w / P * d) = w / P * (n + 1 - d) + φ by ring,
    show w / P * ((n : ℝ) + s) + (φ - w / P * d) = w / P * (n + s - d) + φ by ring] at b3
  generalize (∑ k ∈ range P, tapsResponse h (imageOf P w k) * (A * exp ((imageOf P w k * n + φ) * I))).re = u0 at b1 ⊢
  generalize (∑ k ∈ range P, tapsResponse h (imageOf P w k) * (A * exp ((imageOf P w k * (n + 1) + φ) * I))).re = u1 at b2 ⊢
  generalize A * Real.cos (w / P * (n - d) + φ) = v0 at b1 b3
  generalize A * Real.cos (w / P * (n + 1 - d) + φ) = v1 at b2 b3
  generalize A * Real.cos (w / P * (n + s - d) + φ) = vt at b3 ⊢
  rw [mul_add |A|]
  generalize |A| * (‖tapsResponse h (w / P) * exp (w / P * d * I) - 1‖ + ∑ l ∈ Ico 1 P, ‖tapsResponse h (imageOf P w l)‖) = E at b1 b2 ⊢
  have : u0 + s * (u1 - u0) - vt = (1 - s) * (u0 - v0) + s * (u1 - v1) + ((1 - s) * v0 + s * v1 - vt) := by ring
  rw [this]
  refine (abs_add_le _ _).trans (add_le_add ((abs_add_le _ _).trans ?_) b3)
  rw [abs_mul, abs_mul, abs_of_nonneg hs0', abs_of_nonneg (by linarith : (0 : ℝ) ≤ 1 - s)]
  nlinarith [mul_le_mul_of_nonneg_left b1 (by linarith : (0 : ℝ) ≤ 1 - s), mul_le_mul_of_nonneg_left b2 hs0']

theorem tapsResponse_eq (h : List ℝ) (w : ℝ) : tapsResponse h w = firResponse h.length (sig h) w := by
  unfold tapsResponse firResponse
  refine sum_congr rfl fun j _ => ?_
  push_cast
  rfl

/-- **C85**, the delay the library reports: output sample `k` is the sinusoid at the input position `(start + k - delay) · rate`, where
`delay` is what `ResampleDelay` returns; how well, depends only on the filter's response with half its length taken out as delay (a real
number for symmetric taps), at the sinusoid's frequency, and on the response at the images. -/
theorem C85_resample_delay {dot : List ℝ → List ℝ → Out ℝ} (hd : IsDot dot) (h : List ℝ) (P : ℕ) (hP : 0 < P) (hF : 0 < h.length)
    (rates : Rational) (hrc : Canon rates) (hr0 : 0 < rates.num)
    (hfitD : (h.length : ℤ) * rates.den ≤ 2 ^ 62 ∧ 2 * (P : ℤ) * rates.num ≤ 2 ^ 62 ∧ rates.num ≤ 2 ^ 62) :
    ∃ v delay, polyphaseDecomposeAlloc h P = .ok v ∧ resampleDelay h.length P rates = .ok delay ∧
      ∀ (A w φ : ℝ) (L : ℕ) (out : List ℝ) (start : Rational), Canon start → 0 ≤ start.num →
      (L * P + h.length + P : ℤ) * (start.den * rates.den * rates.num * P) ≤ 2 ^ 62 →
      start.val + out.length ≤ (convLengthFull (L * P) h.length : ℚ) / (rates.val * P) →
      ∃ y sp, resample dot out (sinusoid A w φ L) v rates start = .ok (y, sp) ∧ y.length = out.length ∧
        ∀ k, k < out.length → (h.length : ℚ) - 1 ≤ (start.val + k) * rates.val * P → (start.val + k) * rates.val * P + 1 < L * P →
        |sig y k - A * Real.cos (w * (((start.val + k - delay.val) * rates.val : ℚ) : ℝ) + φ)| ≤
          |A| * (‖centredResponse h.length (sig h) (w / P) - 1‖ + ∑ l ∈ Ico 1 P, ‖firResponse h.length (sig h) (imageOf P w l)‖ +
            (w / P) ^ 2 / 8) := by
  obtain ⟨D, d1, d2⟩ := C34_delay h.length P hP hF rates hrc hr0 hfitD
  obtain ⟨v, e1, e2⟩ := C85_resample_error hd h P hP hF (((h.length : ℝ) - 1) / 2)
  refine ⟨v, D, e1, d1, fun A w φ L out start hsc hs0 hfit hmax => ?_⟩
  obtain ⟨y, sp, f1, f2, f3⟩ := e2 A w φ L out rates start hrc hsc hr0 hs0 hfit hmax
  refine ⟨y, sp, f1, f2, fun k hk c1 c2 => ?_⟩
  have := f3 k hk c1 c2
  simp only [tapsResponse_eq] at this
  have hval : rates.val ≠ 0 := (div_pos (by exact_mod_cast hr0) (by exact_mod_cast hrc.1) : (0 : ℚ) < rates.val).ne'
  have hval' : (rates.val : ℝ) ≠ 0 := by exact_mod_cast hval
  have hP' : (P : ℝ) ≠ 0 := by exact_mod_cast hP.ne'
  have g1 : (((start.val + k - D.val) * rates.val : ℚ) : ℝ) = (((start.val + k) * rates.val : ℚ) : ℝ) - ((h.length : ℝ) - 1) / 2 / P := by
    rw [d2]
    push_cast
    field_simp
  have g2 : centredResponse h.length (sig h) (w / P) =
      firResponse h.length (sig h) (w / P) * exp (w / P * ((((h.length : ℝ) - 1) / 2 : ℝ) : ℂ) * I) := by
    unfold centredResponse
    push_cast
    ring
  rw [g1, g2]
  exact this

/-! ### constant signals -/

theorem sum_taps (h : List ℝ) (P p : ℕ) : (tapsOfPhase h P p).sum = ∑ j ∈ range h.length, if j % P = p then sig h j else 0 := by
  unfold tapsOfPhase
  have key : ∀ n, (((List.range n).filter (fun j => j % P = p)).map (sig h)).sum = ∑ j ∈ range n, if j % P = p then sig h j else 0 := by
    intro n
    induction n with
    | zero => simp
    | succ n ih =>
      rw [List.range_succ, List.filter_append, List.map_append, List.sum_append, ih, sum_range_succ]
      congr 1
      by_cases hp : n % P = p <;> simp [hp]
  exact key _

theorem conv_stuffed_const (h : List ℝ) (c : ℝ) (L P m : ℕ) (hP : 0 < P) (h1 : h.length ≤ m + 1) (h2 : m < L * P) :
    convAt (zeroStuffed (List.replicate L c) P) h m = c * (tapsOfPhase h P (m % P)).sum := by
  rw [convAt_taps _ _ _ h1, sum_taps, mul_sum]
  refine sum_congr rfl fun j hj => ?_
  have hj := mem_range.1 hj
  rw [sig_zeroStuffed _ _ _ hP]
  have hiff : (m - j) % P = 0 ↔ j % P = m % P := by
    rw [← Nat.dvd_iff_mod_eq_zero, ← Nat.modEq_iff_dvd' (by omega)]
    rfl
  have hlt : (m - j) / P < L := by rw [Nat.div_lt_iff_lt_mul hP]; omega
  have hs : sig (List.replicate L c) ((m - j) / P) = c := by
    rw [sig_of_lt (by simpa using hlt)]
    simp
  by_cases hd : j % P = m % P
  · rw [if_pos (hiff.2 hd), if_pos hd, hs]
    ring
  · rw [if_neg (fun e => hd (hiff.1 e)), if_neg hd]
    ring

/-- **C85**, constants: with a normalized polyphase filter (every phase sums to one, which is what `PolyphaseNormalize` establishes),
resampling a constant gives exactly that constant at every rate, wherever the filter overlaps only the input. -/
theorem C85_constant {dot : List ℝ → List ℝ → Out ℝ} (hd : IsDot dot) (v : PolyphaseView ℝ) (hP : 0 < v.numPhases) (hF : 0 < v.sizeOriginal)
    (hn : ∀ p < v.numPhases, ∃ ph, v.phase p = .ok ph ∧ ph.sum = 1) (c : ℝ) (L : ℕ) (out : List ℝ) (rates start : Rational)
    (hrc : Canon rates) (hsc : Canon start) (hr0 : 0 < rates.num) (hs0 : 0 ≤ start.num)
    (hfit : (L * v.numPhases + v.sizeOriginal + v.numPhases : ℤ) * (start.den * rates.den * rates.num * v.numPhases) ≤ 2 ^ 62)
    (hmax : start.val + out.length ≤ (convLengthFull (L * v.numPhases) v.sizeOriginal : ℚ) / (rates.val * v.numPhases)) :
    ∃ y sp, resample dot out (List.replicate L c) v rates start = .ok (y, sp) ∧ y.length = out.length ∧
      ∀ k, k < out.length → (v.sizeOriginal : ℚ) - 1 ≤ (start.val + k) * rates.val * v.numPhases →
        (start.val + k) * rates.val * v.numPhases + 1 < L * v.numPhases → sig y k = c := by
  obtain ⟨h, hr⟩ := represents_exists v hP
  obtain ⟨P, hPe⟩ : ∃ P, P = v.numPhases := ⟨_, rfl⟩
  have hr' : v.Represents P h := by rw [hPe]; exact hr
  have hl : v.sizeOriginal = h.length := hr.2.1
  rw [hl] at hF hfit hmax ⊢
  rw [← hPe] at hP hn hfit hmax ⊢
  obtain ⟨y, sp, f1, f2, f3⟩ := C32_resample hd out (List.replicate L c) h v P hr' hP hF rates start hrc hsc hr0 hs0
    (by rw [List.length_replicate]; exact hfit) (by rw [List.length_replicate]; exact hmax)
  refine ⟨y, sp, f1, f2, fun k hk c1 c2 => ?_⟩
  rw [f3 k hk]
  obtain ⟨pos, hpos⟩ : ∃ pos, pos = (start.val + k) * rates.val * P := ⟨_, rfl⟩
  rw [← hpos] at c1 c2 ⊢
  have hp0 : 0 ≤ pos := by
    have : (1 : ℚ) ≤ h.length := by exact_mod_cast hF
    linarith
  obtain ⟨n, hn'⟩ : ∃ n, n = ⌊pos⌋.toNat := ⟨_, rfl⟩
  have hfl : (n : ℤ) = ⌊pos⌋ := by rw [hn']; exact Int.toNat_of_nonneg (Int.floor_nonneg.2 hp0)
  have hn1 : (n : ℚ) ≤ pos := by
    have := Int.floor_le pos
    rw [← hfl] at this
    exact_mod_cast this
  have hn2 : h.length ≤ n + 1 := by
    have : ((h.length : ℤ) - 1) ≤ ⌊pos⌋ := by
      rw [Int.le_floor]
      push_cast
      exact c1
    omega
  have hn3 : n + 1 < L * P := by
    have : ((n + 1 : ℕ) : ℚ) < (L * P : ℕ) := by push_cast; linarith
    exact_mod_cast this
  have hphase : ∀ p < P, (tapsOfPhase h P p).sum = 1 := by
    intro p hp
    obtain ⟨ph, g1, g2⟩ := hn p hp
    have := hr'.2.2 p hp
    rw [g1] at this
    have e : ph = (tapsOfPhase h P p).reverse := by injection this
    rw [e, List.sum_reverse] at g2
    exact g2
  unfold lerpAt
  beta_reduce
  rw [← hn', conv_stuffed_const h c L P n hP hn2 (by omega), conv_stuffed_const h c L P (n + 1) hP (by omega) hn3,
    hphase _ (Nat.mod_lt _ hP), hphase _ (Nat.mod_lt _ hP)]
  ring

/-- The alternating signal is band limited for a decimation by two: of its four bins only bin 2 is occupied. -/
example : BandLimited [1, -1, 1, -1] 2 2 1 := by
  refine ⟨rfl, fun k h1 h2 => ?_⟩
  have hk : k = 3 ∨ k = 4 := by push_cast at h1 h2; omega
  have e2 : rootOfUnity 4 2 = -1 := by
    unfold rootOfUnity
    rw [show 2 * (Real.pi : ℂ) * I * ((2 : ℤ) : ℂ) / ((4 : ℕ) : ℂ) = Real.pi * I by push_cast; ring]
    exact exp_pi_mul_I
  unfold dftAt
  have p4 : ∀ m n t : ℤ, n = m + 4 * t → rootOfUnity 4 n = rootOfUnity 4 m := by
    rintro m n t rfl
    exact ru_period 4 (by norm_num) m t
  rcases hk with rfl | rfl
  · simp only [List.length_cons, List.length_nil, sum_range_succ, sum_range_zero]
    have a2 : rootOfUnity 4 (-6) = rootOfUnity 4 2 := p4 2 _ (-2) (by norm_num)
    have a3 : rootOfUnity 4 (-9) = rootOfUnity 4 (-3) * rootOfUnity 4 2 := by
      rw [← ru_add]
      exact p4 _ _ (-2) (by norm_num)
    norm_num [sig]
    rw [a2, a3, e2]
    ring
  · simp only [List.length_cons, List.length_nil, sum_range_succ, sum_range_zero]
    have a1 : rootOfUnity 4 (-4) = 1 := (p4 0 _ (-1) (by norm_num)).trans (ru_zero 4)
    have a2 : rootOfUnity 4 (-8) = 1 := (p4 0 _ (-2) (by norm_num)).trans (ru_zero 4)
    have a3 : rootOfUnity 4 (-12) = 1 := (p4 0 _ (-3) (by norm_num)).trans (ru_zero 4)
    norm_num [sig]
    rw [a1, a2, a3]
    ring

/-- The conditions on sizes and rates of `C85_resample_error`, `C85_resample_delay` and `C85_constant` for a resampling by 2/3 of ten samples
with a three-tap filter in two phases; output samples 2 to 12 are in the range the error bound covers. -/
example : Canon ⟨2, 3⟩ ∧ Canon ⟨0, 1⟩ ∧ (10 * 2 + 3 + 2 : ℤ) * (1 * 3 * 2 * 2) ≤ 2 ^ 62 ∧
    (0 : ℚ) + 13 ≤ (convLengthFull (10 * 2) 3 : ℚ) / ((2 / 3 : ℚ) * 2) ∧
    ∀ k : ℕ, 2 ≤ k → k ≤ 12 → ((3 : ℕ) : ℚ) - 1 ≤ (0 + k) * (2 / 3) * 2 ∧ ((0 : ℚ) + k) * (2 / 3) * 2 + 1 < 10 * 2 := by
  refine ⟨⟨by norm_num, by decide⟩, ⟨by norm_num, by decide⟩, by norm_num, by norm_num [convLengthFull], fun k h1 h2 => ?_⟩
  have a : (2 : ℚ) ≤ k := by exact_mod_cast h1
  have b : (k : ℚ) ≤ 12 := by exact_mod_cast h2
  constructor
  · push_cast
    linarith
  · linarith

/-- A normalized filter: the two phases of `[1/2, 1, 1/2]`, stored backwards. -/
example : ∀ p < 2, ∃ ph, (⟨[1 / 2, 1 / 2, 1], 2⟩ : PolyphaseView ℝ).phase p = .ok ph ∧ ph.sum = 1 := by
  intro p hp
  obtain ⟨q, hq⟩ : ∃ v : PolyphaseView ℝ, v = ⟨[1 / 2, 1 / 2, 1], 2⟩ := ⟨_, rfl⟩
  rw [← hq]
  refine ⟨_, phase_ok q (by rw [hq]; exact hp), ?_⟩
  rw [hq]
  interval_cases p
  · norm_num [PolyphaseView.phaseList, phaseOffset, phaseSize]
  · norm_num [PolyphaseView.phaseList, phaseOffset, phaseSize]

end Verif
