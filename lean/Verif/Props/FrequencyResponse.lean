import Verif.Model.FrequencyResponse
import Verif.Lemmas.RealSpectrum
import Verif.Props.Systems
import Verif.Props.FirHilbert
import Verif.Props.Spaces

/-! # Property C67: measured frequency responses -/

set_option linter.unusedSimpArgs false

namespace Verif
open Complex

/-- `A` and `P` are amplitude and phase of the complex number `z`. -/
structure IsPolar (z : ℂ) (A P : ℝ) : Prop where
  amplitude : A = ‖z‖
  value : (A : ℂ) * exp (P * I) = z
  phase : -Real.pi < P ∧ P ≤ Real.pi
  zero : z = 0 → P = 0

theorem isPolar_arg (z : ℂ) : IsPolar z ‖z‖ (arg z) :=
  ⟨rfl, norm_mul_exp_arg_mul_I z, ⟨neg_pi_lt_arg z, arg_le_pi z⟩, fun h => by rw [h, arg_zero]⟩

/-- **C67** (filters given by their impulse response): the two results have `N/2 + 1` points, where `N` is the length of the impulse
response or, if that is larger, what is needed for the wanted number of points (ten times the length by default); so they have
exactly the wanted number of points if that is more than half the length.  Point `k` is amplitude and phase of the response
at `2πk/N` radians per sample. -/
theorem C67_impulse (impulse : List ℝ) (hint g N : ℕ) (hg : g = if hint > 0 then hint else impulse.length * 10) (hpos : 0 < g)
    (hN : N = max impulse.length (2 * g - 1)) (hsmall : N < 2 ^ 63) :
    ∃ A P : List ℝ, frequencyResponseImpulse impulse hint = .ok (A, P) ∧ A.length = N / 2 + 1 ∧ P.length = N / 2 + 1 ∧
      (impulse.length ≤ 2 * g - 1 → N / 2 + 1 = g) ∧
      ∀ k, k < N / 2 + 1 → IsPolar (firResponse impulse.length (sig impulse) (2 * Real.pi * k / N)) (sig A k) (sig P k) := by
  have hN0 : N ≠ 0 := by omega
  have hfft : frequencyResponseFftSize impulse.length g = N := by
    rw [frequencyResponseFftSize, usub, if_pos (by omega), hN]
  obtain ⟨x, hx⟩ : ∃ x, x = impulse ++ List.replicate (N - impulse.length) (0 : ℝ) := ⟨_, rfl⟩
  have hl : x.length = N := by rw [hx]; simp; omega
  have hne : x ≠ [] := by intro h; rw [h] at hl; simp at hl; omega
  have hbin : ∀ k : ℕ, dftAt (x.map ofReal) k = firResponse impulse.length (sig impulse) (2 * Real.pi * k / N) := by
    intro k
    rw [dftAt, firResponse, List.length_map, hl]
    rw [← Finset.sum_subset (Finset.range_subset_range.2 (show impulse.length ≤ N by omega))]
    · apply Finset.sum_congr rfl
      intro j hj
      have hj := Finset.mem_range.1 hj
      rw [sig_map_ofReal, hx, sig, List.getD_append _ _ _ _ hj, rootOfUnity]
      congr 2
      push_cast
      ring
    · intro j _ hj
      have hj := fun h => hj (Finset.mem_range.2 h)
      rw [sig_map_ofReal, hx, sig, List.getD_append_right _ _ _ _ (Nat.le_of_not_lt hj)]
      simp
  refine ⟨_, _, by
    unfold frequencyResponseImpulse
    simp only [← hg, hfft]
    rw [if_neg (by omega), ← hx, fftReal_half x hne, Out.ok_bind]
    rfl, by simp [hl], by simp [hl], fun h => by omega, fun k hk => ?_⟩
  have e1 : ∀ {β : Type} [Zero β] (f : ℂ → β), sig ((reg (x.length / 2 + 1) (fun k => dftAt (x.map ofReal) k)).map f) k = f (dftAt (x.map ofReal) k) := by
    intro β _ f
    rw [sig, List.getD_eq_getElem?_getD, List.getElem?_map]
    simp [reg, hl, hk]
  rw [List.map_map, e1, e1, hbin]
  simp only [Function.comp]
  split
  · rename_i h0
    have := isPolar_arg (firResponse impulse.length (sig impulse) (2 * Real.pi * k / N))
    rw [h0] at this ⊢
    simpa using this
  · exact isPolar_arg _

/-- **C67**, what the library does with an empty impulse response and no hint: the size of the transform wraps around. -/
theorem C67_empty_wrong : frequencyResponseImpulse [] 0 = .throws := by
  unfold frequencyResponseImpulse frequencyResponseFftSize usub
  simp

/-- **C67** (systems): the results have the wanted number of points (`20 (order + 1)` by default); point `i` is amplitude and phase of
the system at `exp (iπ i/(g-1))`: the first point is zero frequency and the last half the sample rate. -/
theorem C67_system (e : Exec) (order : ℕ) (eval : ℂ → Out ℂ) (H : ℂ → ℂ) (hint g : ℕ)
    (hg : g = if hint > 0 then hint else (1 + order) * 20)
    (hH : ∀ w : ℝ, 0 ≤ w → w ≤ Real.pi → eval (exp (w * I)) = .ok (H (exp (w * I)))) :
    ∃ A P : List ℝ, frequencyResponseSystem e order eval hint = .ok (A, P) ∧ A.length = g ∧ P.length = g ∧ 0 < g ∧
      IsPolar (H 1) (sig A 0) (sig P 0) ∧
      (2 ≤ g → IsPolar (H (-1)) (sig A (g - 1)) (sig P (g - 1))) ∧
      ∀ i, i < g → IsPolar (H (exp ((Real.pi * i / (g - 1 : ℕ) : ℝ) * I))) (sig A i) (sig P i) := by
  have hg0 : 0 < g := by rw [hg]; split <;> omega
  have hw : (⟨0, g⟩ : Span).Within (List.replicate g (0 : ℝ)) := by simp [Span.Within]
  obtain ⟨m, e1, h1⟩ := linSpace_writes e hw (Writes.refl _ _ hw) 0 Real.pi true
  have hd : linDivisor g true = max 1 (g - 1) := by unfold linDivisor; simp
  have hval : ∀ i, i < g → m[i]? = some (Real.pi * i / (g - 1 : ℕ)) := by
    intro i hi
    have := h1.written i hi
    simp only [zero_add] at this
    rw [this, hd]
    congr 1
    by_cases hg1 : g = 1
    · have : i = 0 := by omega
      simp [this]
    · rw [max_eq_right (by omega)]
      ring
  have hml : m.length = g := by rw [h1.length]; simp
  have hbound : ∀ i, i < g → 0 ≤ Real.pi * i / (g - 1 : ℕ) ∧ Real.pi * i / (g - 1 : ℕ) ≤ Real.pi := by
    intro i hi
    refine ⟨by positivity, ?_⟩
    by_cases h0 : g - 1 = 0
    · rw [h0]; simp; positivity
    · have hp : (0 : ℝ) < (g - 1 : ℕ) := by exact_mod_cast Nat.pos_of_ne_zero h0
      rw [div_le_iff₀ hp]
      have : (i : ℝ) ≤ (g - 1 : ℕ) := by exact_mod_cast (by omega : i ≤ g - 1)
      exact mul_le_mul_of_nonneg_left this Real.pi_pos.le
  obtain ⟨z, hz⟩ : ∃ z : ℕ → ℂ, z = fun (i : ℕ) => H (exp ((Real.pi * i / (g - 1 : ℕ) : ℝ) * I)) := ⟨_, rfl⟩
  have key := forN_inv (body := fun i (s : List ℝ × List ℝ) => do
    let freq ← rd s.1 (i : Int)
    let point := exp ((freq : ℂ) * I)
    let response ← eval point
    let amplitude ← wr s.1 (i : Int) ‖response‖
    let phase ← wr s.2 (i : Int) (arg response)
    pure (amplitude, phase))
    (fun k s => s.1.length = g ∧ s.2.length = g ∧ (∀ i, i < k → s.1[i]? = some ‖z i‖ ∧ s.2[i]? = some (arg (z i))) ∧
      ∀ i, k ≤ i → i < g → s.1[i]? = some (Real.pi * i / (g - 1 : ℕ))) g (m, List.replicate g (0 : ℝ))
    ⟨hml, by simp, fun i hi => by omega, fun i _ hi => hval i hi⟩
  replace key := key (by
    rintro i ⟨a, p⟩ hi ⟨l1, l2, h3, h4⟩
    simp only [] at l1 l2 h3 h4
    have hr : rd a (i : ℤ) = .ok (Real.pi * i / (g - 1 : ℕ)) := by
      exact rd_some (h4 i le_rfl hi)
    obtain ⟨a', ea, la, ha⟩ := wr_upd (mem := a) (p := i) (by omega) ‖z i‖
    obtain ⟨p', ep, lp, hp⟩ := wr_upd (mem := p) (p := i) (by omega) (arg (z i))
    refine ⟨(a', p'), ?_, by simp only []; omega, by simp only []; omega, fun j hj => ?_, fun j hj hjg => ?_⟩
    · simp only []
      rw [hr, Out.ok_bind, hH _ (hbound i hi).1 (hbound i hi).2, Out.ok_bind]
      have : H (exp (((Real.pi * i / (g - 1 : ℕ) : ℝ) : ℂ) * I)) = z i := by rw [hz]
      rw [this, ea, Out.ok_bind, ep, Out.ok_bind]
      rfl
    · simp only []
      rw [ha, hp]
      by_cases hji : j = i
      · simp [hji]
      · rw [if_neg hji, if_neg hji]
        exact h3 j (by omega)
    · simp only []
      rw [ha, if_neg (by omega)]
      exact h4 j (by omega) hjg)
  obtain ⟨⟨A, P⟩, ef, l1, l2, h3, -⟩ := key
  simp only [] at l1 l2 h3
  have hall : ∀ i, i < g → IsPolar (z i) (sig A i) (sig P i) := by
    intro i hi
    have hA : sig A i = ‖z i‖ := by rw [sig, List.getD_eq_getElem?_getD, (h3 i hi).1]; rfl
    have hP : sig P i = arg (z i) := by rw [sig, List.getD_eq_getElem?_getD, (h3 i hi).2]; rfl
    rw [hA, hP]
    exact isPolar_arg _
  refine ⟨A, P, ?_, l1, l2, hg0, ?_, fun h2 => ?_, fun i hi => by have := hall i hi; rwa [hz] at this⟩
  · unfold frequencyResponseSystem linSpaceNew
    simp only [← hg]
    rw [e1, Out.ok_bind]
    exact ef
  · have := hall 0 hg0
    rw [hz] at this
    simpa using this
  · have := hall (g - 1) (by omega)
    rw [hz] at this
    have h0 : ((g - 1 : ℕ) : ℝ) ≠ 0 := by
      have : g - 1 ≠ 0 := by omega
      exact_mod_cast this
    simp only [mul_div_assoc, div_self h0, mul_one, exp_pi_mul_I] at this
    exact this

/-- **C67**: the same system in its three forms has the same measured response, for every grid. -/
theorem C67_forms_agree (e : Exec) (sort : List Poly3 → List Poly3) (hsort : ∀ l, (sort l).Perm l) (s : Zpk)
    (hs : s.Reachable) (h0 : s.order ≠ 0) (hint : ℕ) (hh : 0 < hint) :
    ∃ tf secs A P, TransferFn.ofZpk s = .ok tf ∧ cascadedBiquad sort s = .ok secs ∧
      frequencyResponseZpk e s hint = .ok (A, P) ∧ frequencyResponseTf e tf hint = .ok (A, P) ∧
      frequencyResponseBiquad e secs hint = .ok (A, P) ∧
      ∀ i, i < hint → IsPolar (systemValue s.gain (rootsOf s.zeros.realRoots s.zeros.complexPairs)
        (rootsOf s.poles.realRoots s.poles.complexPairs) (exp ((Real.pi * i / (hint - 1 : ℕ) : ℝ) * I))) (sig A i) (sig P i) := by
  obtain ⟨tf, a1, -, -, -, a2, -⟩ := C24_transferFunction s hs
  obtain ⟨secs, b1, -, b2, -⟩ := C25_value_partial sort hsort s hs h0
  have hindep : ∀ (o o' : ℕ) (f : ℂ → Out ℂ), frequencyResponseSystem e o f hint = frequencyResponseSystem e o' f hint := by
    intro o o' f
    unfold frequencyResponseSystem
    simp only [if_pos hh]
  obtain ⟨A, P, c1, -, -, -, -, -, c2⟩ := C67_system e s.order (fun z => pure (s.eval z)) (fun z => s.eval z) hint hint
    (by rw [if_pos hh]) (fun w _ _ => rfl)
  refine ⟨tf, secs, A, P, a1, b1, c1, ?_, ?_, fun i hi => by rw [← C24_zpk_value]; exact c2 i hi⟩
  · unfold frequencyResponseTf
    rw [hindep _ s.order]
    simp only [a2]
    exact c1
  · unfold frequencyResponseBiquad
    rw [hindep _ s.order]
    simp only [b2, ← C24_zpk_value]
    exact c1

/-- three taps, five points -/
example : ∃ A P : List ℝ, frequencyResponseImpulse [1, 2, 1] 5 = .ok (A, P) ∧ A.length = 5 ∧ sig A 0 = 4 := by
  obtain ⟨A, P, h1, h2, -, -, h4⟩ := C67_impulse [1, 2, 1] 5 5 9 rfl (by norm_num) rfl (by norm_num)
  refine ⟨A, P, h1, h2, ?_⟩
  rw [(h4 0 (by norm_num)).amplitude, firResponse]
  simp [Finset.sum_range_succ, sig]
  norm_num

end Verif
