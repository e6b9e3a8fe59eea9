import Verif.Model.Waveforms
import Verif.Lemmas.Spaces
import Verif.Props.Spaces
import Mathlib.Algebra.Order.Floor.Ring
import Mathlib.Analysis.SpecialFunctions.Integrals.Basic

/-!
# C47: waveform generators
-/

namespace Verif
set_option linter.unusedSimpArgs false

/-- the phase of sample `i` of a tone -/
noncomputable def tonePhase (sampleRate : ℕ) (frequency phase : ℝ) (i : ℕ) : ℝ :=
  2 * Real.pi * frequency * (i / sampleRate) + phase

/-- the phase of sample `i` of a chirp of `n` samples: the integral of a frequency that rises linearly from `f₀` at time zero to
`f₁` at the end of the signal -/
noncomputable def chirpPhase (n sampleRate : ℕ) (f₀ f₁ phase : ℝ) (i : ℕ) : ℝ :=
  2 * Real.pi * (∫ t in (0 : ℝ)..(i / sampleRate : ℝ), f₀ + (f₁ - f₀) * (t / (n / sampleRate))) + phase

theorem wave_writes (mem : List ℝ) (out : Span) (hw : out.Within mem) (g : ℕ → ℝ) (val : ℕ → Out ℝ)
    (hv : ∀ i, i < out.size → val i = .ok (g i)) :
    ∃ m, forN out.size (fun idx mem => val idx >>= fun v => wr mem ((out.pos + idx : ℕ) : ℤ) v) mem = .ok m ∧
      Writes mem m out g := by
  obtain ⟨m, e1, h1⟩ := fill_writes mem out g hw
  refine ⟨m, ?_, h1⟩
  rw [← e1]
  have : ∀ n, n ≤ out.size → forN n (fun idx mem => val idx >>= fun v => wr mem ((out.pos + idx : ℕ) : ℤ) v) mem =
      forN n (fun idx mem => wr mem ((out.pos + idx : ℕ) : ℤ) (g idx)) mem := by
    intro n hn
    induction n with
    | zero => rfl
    | succ n ih =>
      show (forN n _ mem >>= fun s => _) = (forN n _ mem >>= fun s => _)
      rw [ih (by omega)]
      simp only [hv n (by omega), Out.ok_bind]
  exact this _ le_rfl

theorem genericWave_writes (mem : List ℝ) (out : Span) (hw : out.Within mem) (sr : ℕ) (hsr : 0 < sr) (f ph : ℝ)
    (wf : ℝ → Out ℝ) (g : ℕ → ℝ) (hg : ∀ i, i < out.size → wf (tonePhase sr f ph i) = .ok (g i)) :
    ∃ m, genericWave mem out sr f ph wf = .ok m ∧ Writes mem m out g := by
  have hs : (sr : ℝ) ≠ 0 := by exact_mod_cast hsr.ne'
  obtain ⟨m, e1, h1⟩ := wave_writes mem out hw g (fun i => wf (tonePhase sr f ph i)) hg
  refine ⟨m, ?_, h1⟩
  rw [← e1]
  unfold genericWave
  congr 1
  funext idx mem
  rw [fdiv_ok hs, Out.ok_bind]
  simp only []
  rw [tonePhase, show 2 * Real.pi * (↑idx / ↑sr) * f + ph = 2 * Real.pi * f * (↑idx / ↑sr) + ph by ring]

theorem chirpPhase_eq (n sr : ℕ) (hn : 0 < n) (hsr : 0 < sr) (f₀ f₁ ph : ℝ) (i : ℕ) :
    2 * Real.pi * ((i / sr : ℝ) * f₀ + (i / sr : ℝ) * (i / sr : ℝ) / 2 * (f₁ - f₀) / (n / sr : ℝ)) + ph =
      chirpPhase n sr f₀ f₁ ph i := by
  unfold chirpPhase
  congr 2
  rw [intervalIntegral.integral_add (by simp) (by
      apply Continuous.intervalIntegrable
      fun_prop)]
  rw [intervalIntegral.integral_const, intervalIntegral.integral_const_mul, intervalIntegral.integral_div, integral_id]
  simp only [sub_zero, smul_eq_mul]
  have hs : (sr : ℝ) ≠ 0 := by exact_mod_cast hsr.ne'
  have hn' : (n : ℝ) ≠ 0 := by exact_mod_cast hn.ne'
  field_simp
  ring

theorem genericChirp_writes (mem : List ℝ) (out : Span) (hw : out.Within mem) (sr : ℕ) (hsr : 0 < sr) (f₀ f₁ ph : ℝ)
    (wf : ℝ → Out ℝ) (g : ℕ → ℝ) (hg : ∀ i, i < out.size → wf (chirpPhase out.size sr f₀ f₁ ph i) = .ok (g i)) :
    ∃ m, genericChirp mem out sr f₀ f₁ ph wf = .ok m ∧ Writes mem m out g := by
  have hs : (sr : ℝ) ≠ 0 := by exact_mod_cast hsr.ne'
  obtain ⟨m, e1, h1⟩ := wave_writes mem out hw g (fun i => wf (chirpPhase out.size sr f₀ f₁ ph i)) hg
  refine ⟨m, ?_, h1⟩
  rw [← e1]
  unfold genericChirp
  simp only []
  rcases Nat.eq_zero_or_pos out.size with h0 | h0
  · rw [h0]
    rfl
  have hn : (out.size : ℝ) / (sr : ℝ) ≠ 0 := div_ne_zero (by exact_mod_cast h0.ne') hs
  congr 1
  funext idx mem
  rw [fdiv_ok hs, Out.ok_bind, fdiv_ok hn, Out.ok_bind, chirpPhase_eq out.size sr h0 hsr]

/-! ### fractional part -/

theorem modfFrac_nonneg {x : ℝ} (h : 0 ≤ x) : modfFrac x = Int.fract x := by
  rw [modfFrac, if_pos h]
  rfl

theorem modfFrac_neg {x : ℝ} (h : x < 0) : modfFrac x = -Int.fract (-x) := by
  rw [modfFrac, if_neg (not_le.2 h), Int.fract, Int.floor_neg]
  push_cast
  ring

theorem denormMin_pos : 0 < denormMin := by unfold denormMin; positivity

/-! ### single samples -/

/-- how far into its period a phase is, between zero and one -/
noncomputable def periodFraction (phase : ℝ) : ℝ := Int.fract (phase / (2 * Real.pi))

theorem periodFraction_range (p : ℝ) : 0 ≤ periodFraction p ∧ periodFraction p < 1 := ⟨Int.fract_nonneg _, Int.fract_lt_one _⟩

theorem periodFraction_periodic (p : ℝ) (k : ℤ) : periodFraction (p + k * (2 * Real.pi)) = periodFraction p := by
  unfold periodFraction
  have : (2 * Real.pi) ≠ 0 := by have := Real.pi_pos; positivity
  rw [add_div, mul_div_assoc, div_self this, mul_one, Int.fract_add_intCast]

theorem div_two_pi_nonneg {p : ℝ} (h : 0 ≤ p) : 0 ≤ p / (2 * Real.pi) := div_nonneg h (by have := Real.pi_pos; positivity)
theorem div_two_pi_neg {p : ℝ} (h : p < 0) : p / (2 * Real.pi) < 0 := div_neg_of_neg_of_pos h (by have := Real.pi_pos; positivity)

/-- the shape of the sawtooth: up to one over the part `tilt` of the period, down to minus one over the rest -/
noncomputable def sawtoothShape (tilt u : ℝ) : ℝ :=
  open Classical in if u ≤ tilt then 1 - 2 * (tilt - u) / (tilt + denormMin) else 1 - 2 * (u - tilt) / (1 - tilt)

theorem sawtoothShape_range {tilt u : ℝ} (h0 : 0 ≤ tilt) (hu0 : 0 ≤ u) (hu1 : u < 1) :
    -1 ≤ sawtoothShape tilt u ∧ sawtoothShape tilt u ≤ 1 := by
  have hd := denormMin_pos
  unfold sawtoothShape
  split_ifs with h
  · have hp : 0 < tilt + denormMin := by linarith
    have h1 : 2 * (tilt - u) / (tilt + denormMin) ≤ 2 := by rw [div_le_iff₀ hp]; linarith
    have h2 : 0 ≤ 2 * (tilt - u) / (tilt + denormMin) := div_nonneg (by linarith) hp.le
    constructor <;> linarith
  · have hp : 0 < 1 - tilt := by linarith [not_le.1 h]
    have h1 : 2 * (u - tilt) / (1 - tilt) ≤ 2 := by rw [div_le_iff₀ hp]; linarith
    have h2 : 0 ≤ 2 * (u - tilt) / (1 - tilt) := div_nonneg (by linarith [not_le.1 h]) hp.le
    constructor <;> linarith

theorem sawtooth_eq {tilt p : ℝ} (h0 : 0 ≤ tilt) (hp : 0 ≤ p) : sawtooth tilt p = .ok (sawtoothShape tilt (periodFraction p)) := by
  have hd := denormMin_pos
  obtain ⟨hu0, hu1⟩ := periodFraction_range p
  unfold sawtooth
  simp only []
  rw [modfFrac_nonneg (div_two_pi_nonneg hp), show Int.fract (p / (2 * Real.pi)) = periodFraction p from rfl]
  generalize periodFraction p = u at *
  unfold sawtoothShape
  by_cases h : u ≤ tilt
  · rw [if_neg (not_lt.2 h), if_pos h, fdiv_ok (by linarith), Out.ok_bind, Out.pure_def, abs_of_nonpos (by linarith)]
    congr 1
    ring
  · have h := not_le.1 h
    rw [if_pos h, if_neg (not_le.2 h), fdiv_ok (by linarith), Out.ok_bind, Out.pure_def, abs_of_pos (by linarith)]
    congr 1
    ring

theorem pwm_eq {fill p : ℝ} (hp : 0 ≤ p) :
    pwm fill p = .ok (open Classical in if periodFraction p < fill then 1 else 0) := by
  obtain ⟨hu0, hu1⟩ := periodFraction_range p
  unfold pwm
  simp only []
  rw [modfFrac_nonneg (div_two_pi_nonneg hp), show Int.fract (p / (2 * Real.pi)) = periodFraction p from rfl]
  by_cases h : periodFraction p < fill
  · rw [if_pos (Or.inl h), if_pos h]
  · rw [if_neg (by rintro (h' | h') <;> linarith), if_neg h]

/-! ### tones -/

variable (e : Exec) (mem : List ℝ) (out : Span) (hw : out.Within mem) (sr : ℕ) (hsr : 0 < sr)
include hw hsr

/-- **C47** SineWave: exactly the output is overwritten, with the sine of the phase; in range; a full turn of phase changes
nothing. -/
theorem C47_sineWave (f ph : ℝ) : ∃ (mem' : List ℝ) (w : ℕ → ℝ), sineWave mem out sr f ph = .ok mem' ∧ Writes mem mem' out w ∧
    (∀ i, i < out.size → w i = Real.sin (2 * Real.pi * f * (i / sr) + ph) ∧ -1 ≤ w i ∧ w i ≤ 1) ∧
    ∀ k : ℤ, sineWave mem out sr f (ph + k * (2 * Real.pi)) = .ok mem' := by
  obtain ⟨m, e1, h1⟩ := genericWave_writes mem out hw sr hsr f ph (fun x => pure (Real.sin x)) _ (fun i _ => rfl)
  refine ⟨m, _, e1, h1, fun i _ => ⟨rfl, Real.neg_one_le_sin _, Real.sin_le_one _⟩, fun k => ?_⟩
  rw [← e1]
  unfold sineWave genericWave
  congr 1
  funext idx mem
  rw [fdiv_ok (by exact_mod_cast hsr.ne'), Out.ok_bind, Out.ok_bind]
  simp only [Out.pure_def, Out.ok_bind]
  rw [← add_assoc, Real.sin_add_int_mul_two_pi]

/-- **C47 (part)** SawtoothWave while the phase is not negative: in range, shaped as documented, and a full turn of phase
changes nothing.  Missing: negative phases, for which it is false (`C47_sawtooth_negative_wrong`). -/
theorem C47_sawtoothWave_partial (f ph tilt : ℝ) (hf : 0 ≤ f) (hph : 0 ≤ ph) (h0 : 0 ≤ tilt) :
    ∃ (mem' : List ℝ) (w : ℕ → ℝ), sawtoothWave mem out sr f ph tilt = .ok mem' ∧ Writes mem mem' out w ∧
    (∀ i, i < out.size → w i = sawtoothShape tilt (periodFraction (2 * Real.pi * f * (i / sr) + ph)) ∧ -1 ≤ w i ∧ w i ≤ 1) ∧
    ∀ k : ℕ, ∃ mem'' w', sawtoothWave mem out sr f (ph + k * (2 * Real.pi)) tilt = .ok mem'' ∧ Writes mem mem'' out w' ∧
      ∀ i, i < out.size → w' i = w i := by
  have hp : ∀ ph, 0 ≤ ph → ∀ i : ℕ, 0 ≤ tonePhase sr f ph i := by
    intro ph hph i
    have := Real.pi_pos
    unfold tonePhase
    positivity
  obtain ⟨m, e1, h1⟩ := genericWave_writes mem out hw sr hsr f ph (sawtooth tilt) _ (fun i _ => sawtooth_eq h0 (hp ph hph i))
  refine ⟨m, _, e1, h1, fun i _ => ⟨rfl, sawtoothShape_range h0 (periodFraction_range _).1 (periodFraction_range _).2⟩, fun k => ?_⟩
  have hph' : 0 ≤ ph + k * (2 * Real.pi) := by
    have := Real.pi_pos
    positivity
  obtain ⟨m', e2, h2⟩ := genericWave_writes mem out hw sr hsr f _ (sawtooth tilt) _ (fun i _ => sawtooth_eq h0 (hp _ hph' i))
  refine ⟨m', _, e2, h2, fun i _ => ?_⟩
  have := periodFraction_periodic (tonePhase sr f ph i) k
  unfold tonePhase at *
  rw [← add_assoc]
  rw [Int.cast_natCast] at this
  simp only [this]

/-- **C47 (part)** PwmWave while the phase is not negative: one during the first `fill` of every period and zero after.
Missing: negative phases (`C47_pwm_negative_wrong`). -/
theorem C47_pwmWave_partial (f ph fill : ℝ) (hf : 0 ≤ f) (hph : 0 ≤ ph) :
    ∃ (mem' : List ℝ) (w : ℕ → ℝ), pwmWave mem out sr f ph fill = .ok mem' ∧ Writes mem mem' out w ∧
    ∀ i, i < out.size → (periodFraction (2 * Real.pi * f * (i / sr) + ph) < fill → w i = 1) ∧
      (fill ≤ periodFraction (2 * Real.pi * f * (i / sr) + ph) → w i = 0) := by
  have hp : ∀ i : ℕ, 0 ≤ tonePhase sr f ph i := by
    intro i
    have := Real.pi_pos
    unfold tonePhase
    positivity
  obtain ⟨m, e1, h1⟩ := genericWave_writes mem out hw sr hsr f ph (pwm fill) _ (fun i _ => pwm_eq (hp i))
  refine ⟨m, _, e1, h1, fun i _ => ⟨fun h => if_pos h, fun h => if_neg (not_lt.2 h)⟩⟩

/-- **C47 (part)** SquareWave while the phase is not negative: one during the first half of every period, minus one during the
second half. -/
theorem C47_squareWave_partial (f ph : ℝ) (hf : 0 ≤ f) (hph : 0 ≤ ph) :
    ∃ (mem' : List ℝ) (w : ℕ → ℝ), squareWave e mem out sr f ph = .ok mem' ∧ Writes mem mem' out w ∧
    ∀ i, i < out.size → (periodFraction (2 * Real.pi * f * (i / sr) + ph) < 1 / 2 → w i = 1) ∧
      (1 / 2 ≤ periodFraction (2 * Real.pi * f * (i / sr) + ph) → w i = -1) := by
  obtain ⟨m, w, e1, h1, h2⟩ := C47_pwmWave_partial mem out hw sr hsr f ph 0.5 hf hph
  obtain ⟨m2, e2, h2'⟩ := compoundVS_writes e .mul 2 hw h1
  obtain ⟨m3, e3, h3⟩ := compoundVS_writes e .sub 1 hw h2'
  refine ⟨m3, _, ?_, h3, fun i hi => ⟨fun h => ?_, fun h => ?_⟩⟩
  · unfold squareWave
    rw [show genericWave mem out sr f ph (pwm 0.5) = _ from e1, Out.ok_bind, e2, Out.ok_bind, e3]
  · simp only [ArithOp.apply]
    rw [(h2 i hi).1 (by norm_num at h ⊢; linarith)]
    norm_num
  · simp only [ArithOp.apply]
    rw [(h2 i hi).2 (by norm_num at h ⊢; linarith)]
    norm_num

/-! ### chirps -/

/-- **C47** SineChirp: the sine of the integral of the linearly changing frequency. -/
theorem C47_sineChirp (f₀ f₁ ph : ℝ) : ∃ (mem' : List ℝ) (w : ℕ → ℝ), sineChirp mem out sr f₀ f₁ ph = .ok mem' ∧
    Writes mem mem' out w ∧
    ∀ i, i < out.size → w i = Real.sin (chirpPhase out.size sr f₀ f₁ ph i) ∧ -1 ≤ w i ∧ w i ≤ 1 := by
  obtain ⟨m, e1, h1⟩ := genericChirp_writes mem out hw sr hsr f₀ f₁ ph (fun x => pure (Real.sin x)) _ (fun i _ => rfl)
  exact ⟨m, _, e1, h1, fun i _ => ⟨rfl, Real.neg_one_le_sin _, Real.sin_le_one _⟩⟩

omit hw in
theorem chirpPhase_nonneg (f₀ f₁ ph : ℝ) (h0 : 0 ≤ f₀) (h1 : 0 ≤ f₁) (hph : 0 ≤ ph) {i : ℕ} (hi : i < out.size) :
    0 ≤ chirpPhase out.size sr f₀ f₁ ph i := by
  rw [← chirpPhase_eq out.size sr (by omega) hsr]
  have hs : (0 : ℝ) < sr := by exact_mod_cast hsr
  have hn : (0 : ℝ) < out.size := by exact_mod_cast (by omega : 0 < out.size)
  have hin : (i : ℝ) ≤ out.size := by exact_mod_cast hi.le
  have e1 : (i / sr : ℝ) * f₀ + (i / sr : ℝ) * (i / sr : ℝ) / 2 * (f₁ - f₀) / (out.size / sr : ℝ) =
      (i / sr : ℝ) * ((1 - i / out.size / 2) * f₀ + i / out.size / 2 * f₁) := by
    field_simp
    ring
  rw [e1]
  have h2 : (i : ℝ) / out.size ≤ 1 := by rw [div_le_one hn]; exact hin
  have h3 : 0 ≤ 1 - (i : ℝ) / out.size / 2 := by linarith
  have := Real.pi_pos
  positivity

/-- **C47 (part)** SawtoothChirp for frequencies and phase that are not negative -/
theorem C47_sawtoothChirp_partial (f₀ f₁ ph tilt : ℝ) (h0 : 0 ≤ f₀) (h1 : 0 ≤ f₁) (hph : 0 ≤ ph) (ht : 0 ≤ tilt) :
    ∃ (mem' : List ℝ) (w : ℕ → ℝ), sawtoothChirp mem out sr f₀ f₁ ph tilt = .ok mem' ∧ Writes mem mem' out w ∧
    ∀ i, i < out.size → w i = sawtoothShape tilt (periodFraction (chirpPhase out.size sr f₀ f₁ ph i)) ∧ -1 ≤ w i ∧ w i ≤ 1 := by
  obtain ⟨m, e1, h1⟩ := genericChirp_writes mem out hw sr hsr f₀ f₁ ph (sawtooth tilt) _
    (fun i hi => sawtooth_eq ht (chirpPhase_nonneg out sr hsr f₀ f₁ ph h0 h1 hph hi))
  exact ⟨m, _, e1, h1, fun i _ => ⟨rfl, sawtoothShape_range ht (periodFraction_range _).1 (periodFraction_range _).2⟩⟩

/-- **C47 (part)** PwmChirp for frequencies and phase that are not negative -/
theorem C47_pwmChirp_partial (f₀ f₁ ph fill : ℝ) (h0 : 0 ≤ f₀) (h1 : 0 ≤ f₁) (hph : 0 ≤ ph) :
    ∃ (mem' : List ℝ) (w : ℕ → ℝ), pwmChirp mem out sr f₀ f₁ ph fill = .ok mem' ∧ Writes mem mem' out w ∧
    ∀ i, i < out.size → (periodFraction (chirpPhase out.size sr f₀ f₁ ph i) < fill → w i = 1) ∧
      (fill ≤ periodFraction (chirpPhase out.size sr f₀ f₁ ph i) → w i = 0) := by
  obtain ⟨m, e1, h1⟩ := genericChirp_writes mem out hw sr hsr f₀ f₁ ph (pwm fill) _
    (fun i hi => pwm_eq (chirpPhase_nonneg out sr hsr f₀ f₁ ph h0 h1 hph hi))
  exact ⟨m, _, e1, h1, fun i _ => ⟨fun h => if_pos h, fun h => if_neg (not_lt.2 h)⟩⟩

/-- **C47 (part)** SquareChirp for frequencies and phase that are not negative -/
theorem C47_squareChirp_partial (f₀ f₁ ph : ℝ) (h0 : 0 ≤ f₀) (h1 : 0 ≤ f₁) (hph : 0 ≤ ph) :
    ∃ (mem' : List ℝ) (w : ℕ → ℝ), squareChirp e mem out sr f₀ f₁ ph = .ok mem' ∧ Writes mem mem' out w ∧
    ∀ i, i < out.size → (periodFraction (chirpPhase out.size sr f₀ f₁ ph i) < 1 / 2 → w i = 1) ∧
      (1 / 2 ≤ periodFraction (chirpPhase out.size sr f₀ f₁ ph i) → w i = -1) := by
  obtain ⟨m, w, e1, h1, h2⟩ := C47_pwmChirp_partial mem out hw sr hsr f₀ f₁ ph 0.5 h0 h1 hph
  obtain ⟨m2, e2, h2'⟩ := compoundVS_writes e .mul 2 hw h1
  obtain ⟨m3, e3, h3⟩ := compoundVS_writes e .sub 1 hw h2'
  refine ⟨m3, _, ?_, h3, fun i hi => ⟨fun h => ?_, fun h => ?_⟩⟩
  · unfold squareChirp
    rw [show genericChirp mem out sr f₀ f₁ ph (pwm 0.5) = _ from e1, Out.ok_bind, e2, Out.ok_bind, e3]
  · simp only [ArithOp.apply]
    rw [(h2 i hi).1 (by norm_num at h ⊢; linarith)]
    norm_num
  · simp only [ArithOp.apply]
    rw [(h2 i hi).2 (by norm_num at h ⊢; linarith)]
    norm_num

/-! ### negative phases -/

omit hw hsr
/-- **C47** fails for negative phases: one period before zero the sawtooth leaves the range, so it is also not periodic. -/
theorem C47_sawtooth_negative_wrong (tilt u : ℝ) (h0 : 0 ≤ tilt) (h1 : -1 < u) (h2 : u < -denormMin) :
    ∃ v v', sawtooth tilt (2 * Real.pi * u) = .ok v ∧ v < -1 ∧ sawtooth tilt (2 * Real.pi * (u + 1)) = .ok v' ∧ -1 ≤ v' := by
  have hd := denormMin_pos
  have hpi := Real.pi_pos
  have hq : 2 * Real.pi * u / (2 * Real.pi) = u := by field_simp
  refine ⟨2 * (1 - (tilt - u) / (tilt + denormMin)) - 1, _, ?_, ?_, sawtooth_eq h0 (by apply mul_nonneg <;> linarith), ?_⟩
  · unfold sawtooth
    simp only [hq]
    rw [modfFrac_neg (by linarith), Int.fract_eq_self.2 ⟨by linarith, by linarith⟩, neg_neg, if_neg (by linarith), fdiv_ok (by linarith),
      Out.ok_bind, Out.pure_def, abs_of_neg (by linarith), neg_sub]
  · have : 1 < (tilt - u) / (tilt + denormMin) := by rw [lt_div_iff₀ (by linarith)]; linarith
    linarith
  · exact (sawtoothShape_range h0 (periodFraction_range _).1 (periodFraction_range _).2).1

/-- **C47** fails for negative phases: one period before zero the pulse wave is one all the time. -/
theorem C47_pwm_negative_wrong (fill u : ℝ) (h0 : 0 < fill) (h1 : -1 < u) (h2 : u < 0) (h3 : fill ≤ u + 1) :
    pwm fill (2 * Real.pi * u) = .ok 1 ∧ pwm fill (2 * Real.pi * (u + 1)) = .ok 0 := by
  have hpi := Real.pi_pos
  have hq : ∀ u : ℝ, 2 * Real.pi * u / (2 * Real.pi) = u := fun u => by field_simp
  constructor
  · unfold pwm
    simp only [hq]
    rw [modfFrac_neg h2, Int.fract_eq_self.2 ⟨by linarith, by linarith⟩, neg_neg, if_pos (Or.inl (by linarith))]
  · rw [pwm_eq (by apply mul_nonneg <;> linarith), periodFraction, hq, Int.fract_eq_self.2 ⟨by linarith, by linarith⟩,
      if_neg (not_lt.2 h3)]

/-- **C47** A sample rate of zero gives no numbers. -/
theorem C47_zero_rate (f ph : ℝ) (wf : ℝ → Out ℝ) (hn : 0 < out.size) : genericWave mem out 0 f ph wf = .ub := by
  obtain ⟨n, hn'⟩ : ∃ n, out.size = n + 1 := ⟨out.size - 1, by omega⟩
  unfold genericWave
  rw [hn']
  clear hn' hn
  induction n with
  | zero =>
    show (Out.ok mem >>= fun s => _) = _
    rw [Out.ok_bind]
    simp only [Nat.cast_zero]
    rw [fdiv_zero rfl]
    rfl
  | succ n ih =>
    show (forN (n + 1) _ mem >>= fun s => _) = _
    rw [ih]
    rfl

-- 100 samples of 50 Hz at 8 kHz, starting at a quarter turn
example : ∃ mem' w, sawtoothWave (List.replicate 100 0) ⟨0, 100⟩ 8000 50 (Real.pi / 2) 0.5 = .ok mem' ∧
    Writes (List.replicate 100 0) mem' ⟨0, 100⟩ w ∧ ∀ i, i < 100 → -1 ≤ w i := by
  obtain ⟨m, w, h1, h2, h3, -⟩ := C47_sawtoothWave_partial (List.replicate 100 0) ⟨0, 100⟩ (by simp [Span.Within]) 8000 (by norm_num)
    50 (Real.pi / 2) 0.5 (by norm_num) (by have := Real.pi_pos; positivity) (by norm_num)
  exact ⟨m, w, h1, h2, fun i hi => (h3 i hi).2.1⟩

end Verif
