import Verif.Props.IirBands
import Verif.Props.FirArbitrary
import Verif.Props.FirDesign
import Verif.Props.LsResponse
import Verif.Props.LeastSquares
import Verif.Props.FrequencyResponse
import Verif.Props.Windowing
import Verif.Props.RateChange
import Verif.Props.Chebyshev
import Verif.Props.Stability

/-!
# Concrete instances

Instances of theorems whose hypotheses mention several objects at once, for parameters written out, in addition to the instances that stand
beside the theorems.
-/

namespace Verif
open Complex

/-! ### C56 -/

/-- C56: the Butterworth prototype of order two at 48 kHz, without prewarping -/
example : ∃ sys d, butterworth 2 = .ok sys ∧ bilinearTransform sys 48000 none = .ok d ∧ d.Stable ∧
    ∀ z : ℂ, z ≠ -1 → d.eval z = sys.eval (((2 * 48000 : ℝ) : ℂ) * (z - 1) / (z + 1)) := by
  obtain ⟨sys, h, hr, -, hz, -, hpn, -, hp⟩ := C55_poles 2
  have hk := (C56_factor 48000 (by norm_num)).1
  have hnum : sys.zeros.numRoots ≤ sys.poles.numRoots := by
    have : sys.zeros.roots.length = sys.zeros.numRoots := roots_length hr.1
    rw [hz] at this
    simp at this
    omega
  obtain ⟨d, hd, -, -, -, hv⟩ := C56_value sys hr 48000 none _ hk (by rw [hz]; simp)
    (fun p hpm hpe => by have := (hp p hpm).1; rw [hpe] at this; norm_num at this)
  obtain ⟨d', hd', hst⟩ := C56_stable sys hr hnum 48000 none _ hk (by norm_num) (fun p hpm => (hp p hpm).1)
  rw [hd] at hd'
  cases hd'
  exact ⟨sys, d, h, hd, hst, hv⟩

/-- C56: prewarping at 1000 radians per second -/
example : ∃ sys d, butterworth 2 = .ok sys ∧ bilinearTransform sys 48000 (some 1000) = .ok d ∧
    d.eval (exp (((1000 / 48000 : ℝ) : ℂ) * I)) = sys.eval (I * ((1000 : ℝ) : ℂ)) := by
  obtain ⟨sys, h, hr, -, hz, -, -, -, hp⟩ := C55_poles 2
  obtain ⟨k, hk, hk0⟩ := (C56_factor 48000 (by norm_num)).2 1000 (by norm_num) (by have := Real.pi_gt_three; linarith)
  obtain ⟨d, hd, -, hv⟩ := C56_frequency sys hr 48000 (some 1000) k hk (by rw [hz]; simp)
    (fun p hpm hpe => by have := (hp p hpm).1; rw [hpe, ofReal_re] at this; linarith)
  exact ⟨sys, d, h, hd, hv 1000 rfl⟩

/-! ### C61, C62, C63 -/

/-- C61: a bandpass of order four -/
example : ∃ f, designBandpass butterworth 4 (1 / 4) (1 / 2) = .ok f ∧ f.Stable ∧ ‖response f (1 / 4 * Real.pi)‖ ^ 2 = 1 / 2 := by
  obtain ⟨f, h, hs, h1, -⟩ := C61_butterworth_bandpass 2 (by norm_num) (1 / 4) (1 / 2) (by norm_num) (by norm_num) (by norm_num) (by norm_num)
  exact ⟨f, h, hs, h1⟩

/-- C62: order five, ten percent ripple, cutoff at a third of the Nyquist frequency -/
example : ∃ f, designLowpass (fun n => chebyshev1 n 0.1) 5 (1 / 3) = .ok f ∧ f.Stable ∧ ‖response f (1 / 3 * Real.pi)‖ = 1 - 0.1 := by
  obtain ⟨f, h, hs, -, -, -, h1, -⟩ := C62_lowpass 5 (by norm_num) (by norm_num) 0.1 (by norm_num) (by norm_num) (1 / 3) (by norm_num) (by norm_num)
  exact ⟨f, h, hs, h1⟩

/-- C63: order six, one percent ripple -/
example : ∃ f, designLowpass (fun n => chebyshev2 n 0.01) 6 (1 / 3) = .ok f ∧ f.Stable ∧ ‖response f (1 / 3 * Real.pi)‖ = 0.01 ∧ ‖response f 0‖ = 1 := by
  obtain ⟨f, h, hs, -, -, -, h1, h2, -⟩ := C63_lowpass 6 (by norm_num) 0.01 (by norm_num) (by norm_num) (1 / 3) (by norm_num) (by norm_num)
  exact ⟨f, h, hs, h1, h2⟩

/-! ### C66 -/

private theorem rect_fills : FillsWindow rectangularWindow (fun _ _ => 1) := fun mem out hm => by
  obtain ⟨m, h1, h2⟩ := C46_rectangular mem out hm
  exact ⟨m, h1, h2⟩

/-- C66: five taps with the response `f ↦ f`, rectangular window, into the middle of an array -/
example (e : Exec) : ∃ m h, designWindowedArbitrary e (List.replicate 9 7) ⟨2, 5⟩ (fun f => (f : ℂ)) rectangularWindow = .ok m ∧
    Writes (List.replicate 9 7) m ⟨2, 5⟩ h ∧ centredResponse 5 h (2 * Real.pi * (1 : ℕ) / 5) = 1 / 2 := by
  obtain ⟨m, h, h1, h2, h3, -⟩ := C66_arbitrary_partial e (List.replicate 9 7) ⟨2, 5⟩ (by norm_num) (by simp [Span.Within]) rectangularWindow _ rect_fills
    (fun f => (f : ℂ))
  refine ⟨m, h, h1, by simpa using h2, ?_⟩
  have := h3 1 (by norm_num) (by norm_num)
  norm_num at this ⊢
  exact this

/-- C66: the window given as samples in the same array -/
example (e : Exec) : ∃ m m' g, designWindowedArbitraryGiven e [7, 7, 7, 1, 1, 1] ⟨0, 3⟩ (fun f => (f : ℂ)) ⟨3, 3⟩ = .ok m ∧
    Writes [7, 7, 7, 1, 1, 1] m ⟨0, 3⟩ g ∧ designWindowedArbitrary e [7, 7, 7, 1, 1, 1] ⟨0, 3⟩ (fun f => (f : ℂ)) rectangularWindow = .ok m' ∧
    Writes [7, 7, 7, 1, 1, 1] m' ⟨0, 3⟩ g := by
  refine C66_given_window e [7, 7, 7, 1, 1, 1] ⟨0, 3⟩ (by norm_num) (by simp [Span.Within]) ⟨3, 3⟩ rfl (by simp [Span.Within]) (by simp) (fun _ => 1) ?_
    rectangularWindow _ rect_fills (by simp) _
  intro i hi
  have hi' : i < 3 := hi
  interval_cases i <;> rfl

/-! ### C48 -/

private theorem reads3 (a b c : ℝ) : Reads [a, b, c] ⟨0, 3⟩ (fun i => [a, b, c].getD i 0) := by
  intro i hi
  have hi' : i < 3 := hi
  interval_cases i <;> rfl

/-- C48: complement and shift of three taps in place -/
example (e : Exec) : (∃ m g, complementaryResponse e [1 / 4, 1 / 2, 1 / 4] ⟨0, 3⟩ ⟨0, 3⟩ = .ok m ∧ Writes [1 / 4, 1 / 2, 1 / 4] m ⟨0, 3⟩ g ∧
      g 0 = -1 / 4 ∧ g 1 = 1 / 2) ∧
    ∃ m g, shiftResponse e [1 / 4, 1 / 2, 1 / 4] ⟨0, 3⟩ ⟨0, 3⟩ 1 = .ok m ∧ Writes [1 / 4, 1 / 2, 1 / 4] m ⟨0, 3⟩ g ∧ g 0 = -1 / 2 ∧ g 1 = 1 := by
  constructor
  · obtain ⟨m, g, h1, h2, h3, -⟩ := C48_complement [1 / 4, 1 / 2, 1 / 4] ⟨0, 3⟩ ⟨0, 3⟩ rfl (by simp [Span.Within]) (by simp [Span.Within]) _ (reads3 _ _ _) e
      (Or.inl rfl) (by norm_num)
    refine ⟨m, g, h1, h2, ?_, ?_⟩
    · have := h3 0 (by norm_num)
      norm_num at this
      linarith
    · have := h3 1 (by norm_num)
      norm_num at this
      linarith
  · obtain ⟨m, g, h1, h2, h3, -⟩ := C48_shift_inplace_partial [1 / 4, 1 / 2, 1 / 4] ⟨0, 3⟩ ⟨0, 3⟩ rfl (by simp [Span.Within]) (by simp [Span.Within]) _
      (reads3 _ _ _) e rfl (by norm_num) 1
    refine ⟨m, g, h1, h2, ?_, ?_⟩
    · have := h3 0 (by norm_num)
      norm_num at this
      linarith
    · have := h3 1 (by norm_num)
      norm_num at this
      linarith

/-! ### C65 -/

/-- C65: the default highpass description with seven taps; a least squares solver exists -/
example : ∃ (solve : LsSolver) (m : List ℝ) (g : ℕ → ℝ), designLSHighpass solve (List.replicate 7 0) ⟨0, 7⟩ defaultSplitLS = .ok m ∧
    Writes (List.replicate 7 0) m ⟨0, 7⟩ g ∧ Palindrome 7 g := by
  obtain ⟨solve, hs⟩ := exists_leastSquares
  obtain ⟨D, -, ⟨m, g, h1, h2, h3, -⟩, -⟩ := C65_split_design_partial solve hs (List.replicate 7 0) ⟨0, 7⟩ (by simp [Span.Within]) (by norm_num)
    defaultSplitLS (by norm_num [defaultSplitLS]) _ rfl (by norm_num [lsGrid, defaultSplitLS])
  exact ⟨solve, m, g, h1, h2, h3⟩

/-! ### C67, C82, C21 -/

/-- C67: the three forms of `3 (z - 1) / (z² + 1)` on eight frequencies -/
example (e : Exec) : ∃ (s : Zpk) (tf : TransferFn ℝ) (secs : List (Biquad ℝ)) (A P : List ℝ), s.gain = 3 ∧ TransferFn.ofZpk s = .ok tf ∧
    cascadedBiquad id s = .ok secs ∧ frequencyResponseZpk e s 8 = .ok (A, P) ∧ frequencyResponseTf e tf 8 = .ok (A, P) ∧
    frequencyResponseBiquad e secs 8 = .ok (A, P) := by
  obtain ⟨s, hs, h1, h2, h3, h4, h5⟩ := example_zpk
  have hp' := complexPairs_length s.poles
  rw [h5] at hp'
  simp only [List.length_cons, List.length_nil] at hp'
  have h0 : s.order ≠ 0 := by unfold Zpk.order FactoredPoly.numRoots; omega
  obtain ⟨tf, secs, A, P, a1, a2, a3, a4, a5, -⟩ := C67_forms_agree e id (fun l => List.Perm.refl l) s hs h0 8 (by norm_num)
  exact ⟨s, tf, secs, A, P, h1, a1, a2, a3, a4, a5⟩

/-- C82: all realizations of a Butterworth lowpass of order three -/
example : ∃ f sys secs, designLowpass butterworth 3 (1 / 4) = .ok f ∧ TransferFn.ofZpk f = .ok sys ∧ cascadedBiquad id f = .ok secs ∧
    ∃ M r : ℝ, 0 < r ∧ r < 1 ∧ ∀ (w : ℝ) (x : List ℝ), x = ((List.range x.length).map fun n : ℕ => 1 * Real.cos (w * n + 0)) →
      ∃ y s, DirectFormII.feed sys x (DirectFormII.make sys.order) = .ok (y, s) ∧ ∀ n, n < x.length →
        |sig y n - 1 * ‖response f w‖ * Real.cos (w * n + 0 + arg (response f w))| ≤ M * |1| * r ^ n := by
  obtain ⟨sys0, h, hp⟩ := butterworth_isPrototype 3
  obtain ⟨f, hf, hr, hz, hpn, hst, -⟩ := C61_lowpass butterworth 3 sys0 h hp (1 / 4) (by norm_num) (by norm_num)
  obtain ⟨sys, secs, h1, h2, M, r, r0, r1, hM⟩ := C82_realizations id (fun l => List.Perm.refl l) f hr hst
    (by unfold Zpk.order; rw [hz, hpn]; norm_num) (by rw [hz, hpn])
  refine ⟨f, sys, secs, hf, h1, h2, M, r, r0, r1, fun w x hx => ?_⟩
  obtain ⟨y, s₁, s₂, s₃, -, a, -, -, b⟩ := hM 1 w 0 x hx
  exact ⟨y, s₂, a, b⟩

/-- C82: the moving average of three samples on a cosine -/
example (w : ℝ) : sig (firOutput [1 / 3, 1 / 3, 1 / 3] [0, 0] ((List.range 10).map fun n : ℕ => 1 * Real.cos (w * n + 0))) 5 =
    ((∑ j ∈ Finset.range 3, ((sig [1 / 3, 1 / 3, 1 / 3] j : ℝ) : ℂ) * exp (-(w * j) * I)) * ((1 : ℝ) * exp ((w * (5 : ℕ) + (0 : ℝ)) * I))).re := by
  have := C82_fir [1 / 3, 1 / 3, 1 / 3] [0, 0] ((List.range 10).map fun n : ℕ => 1 * Real.cos (w * n + 0)) rfl 1 w 0 (by simp) 5 (by simp) (by simp)
  simpa using this

/-- C21: direct form II runs every system made from zeros and poles -/
example (x : List ℝ) : ∃ (s : Zpk) (sys : TransferFn ℝ) (y : List ℝ) (s' : DirectFormII ℝ), s.gain = 3 ∧ TransferFn.ofZpk s = .ok sys ∧
    DirectFormII.feed sys x (DirectFormII.make sys.order) = .ok (y, s') ∧ IsResponse sys.num sys.den x y := by
  obtain ⟨s, hs, h1, -⟩ := example_zpk
  obtain ⟨sys, h2, -⟩ := C24_transferFunction s hs
  obtain ⟨y, s', h3, h4⟩ := C21_zpk s hs sys h2 sys.order le_rfl x
  exact ⟨s, sys, y, s', h1, h2, h3, h4⟩

/-! ### C46 -/

/-- C46: flat top, Gaussian and Kaiser windows of eight samples -/
example (e : Exec) : (∃ m w, flatTopWindow e (List.replicate 10 7) ⟨1, 8⟩ = .ok m ∧ Writes (List.replicate 10 7) m ⟨1, 8⟩ w) ∧
    (∃ m w, gaussianWindow e (List.replicate 10 7) ⟨1, 8⟩ 0.5 = .ok m ∧ Writes (List.replicate 10 7) m ⟨1, 8⟩ w ∧ w 0 = w 7) ∧
    ∃ m w, kaiserWindow e (List.replicate 10 7) ⟨1, 8⟩ 2 = .ok m ∧ Writes (List.replicate 10 7) m ⟨1, 8⟩ w ∧ w 0 = w 7 := by
  refine ⟨?_, ?_, ?_⟩
  · obtain ⟨m, w, h1, h2, -⟩ := C46_flatTop e (List.replicate 10 7) ⟨1, 8⟩ (by simp [Span.Within]) (by norm_num) (by norm_num)
    exact ⟨m, w, h1, h2⟩
  · obtain ⟨m, w, h1, h2, -, h3, -⟩ := C46_gaussian e (List.replicate 10 7) ⟨1, 8⟩ (by simp [Span.Within]) (by norm_num) 0.5 (by norm_num)
    exact ⟨m, w, h1, h2, (h3 0 (by norm_num)).symm⟩
  · obtain ⟨m, w, h1, h2, -, h3, -⟩ := C46_kaiser e (List.replicate 10 7) ⟨1, 8⟩ (by simp [Span.Within]) 2 (by norm_num)
    exact ⟨m, w, h1, h2, (h3 0 (by norm_num)).symm⟩

end Verif
