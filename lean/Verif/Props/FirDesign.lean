import Verif.Lemmas.FirDesign

/-!
# C48: response transformations of FIR filters

`h` are the taps of the given filter, `firResponse n h w` its frequency response at `w` radians per sample.
`Writes mem m out g`: of all the memory exactly `out` was overwritten, with `g 0, g 1, …`.
-/

namespace Verif
open Complex
set_option linter.unusedSimpArgs false

/-! ### frequency responses -/

theorem firResponse_congr {n : ℕ} {g h : ℕ → ℝ} (e : ∀ i, i < n → g i = h i) (w : ℝ) : firResponse n g w = firResponse n h w :=
  Finset.sum_congr rfl fun i hi => by rw [e i (Finset.mem_range.1 hi)]

theorem firResponse_periodic (n : ℕ) (h : ℕ → ℝ) (w : ℝ) : firResponse n h (w + 2 * Real.pi) = firResponse n h w := by
  refine Finset.sum_congr rfl fun i _ => ?_
  congr 1
  rw [Complex.exp_eq_exp_iff_exists_int]
  refine ⟨-i, ?_⟩
  push_cast
  ring

theorem firResponse_neg (n : ℕ) (h : ℕ → ℝ) (w : ℝ) : firResponse n h (-w) = (starRingEnd ℂ) (firResponse n h w) := by
  unfold firResponse
  rw [map_sum]
  refine Finset.sum_congr rfl fun i _ => ?_
  rw [map_mul, Complex.conj_ofReal, ← Complex.exp_conj]
  congr 2
  simp

theorem firResponse_mirror (n : ℕ) (h : ℕ → ℝ) (w : ℝ) :
    firResponse n (fun i => (-1) ^ i * h i) w = firResponse n h (w + Real.pi) := by
  refine Finset.sum_congr rfl fun i _ => ?_
  have : Complex.exp (-((w + Real.pi) * i : ℝ) * I) = (-1) ^ i * Complex.exp (-(w * i : ℝ) * I) := by
    have e1 : (-1 : ℂ) ^ i = Complex.exp (-(Real.pi * i : ℝ) * I) := by
      have : (-1 : ℂ) = Complex.exp (-(Real.pi * I)) := by rw [Complex.exp_neg, Complex.exp_pi_mul_I]; norm_num
      rw [this, ← Complex.exp_nat_mul]
      congr 1
      push_cast
      ring
    rw [e1, ← Complex.exp_add]
    congr 1
    push_cast
    ring
  rw [this]
  push_cast
  ring

theorem firResponse_complement (n : ℕ) (hn : 0 < n) (h : ℕ → ℝ) (w : ℝ) :
    firResponse n (fun i => (if i = n / 2 then 1 else 0) - h i) w = Complex.exp (-(w * (n / 2 : ℕ) : ℝ) * I) - firResponse n h w := by
  unfold firResponse
  rw [eq_sub_iff_add_eq, ← Finset.sum_add_distrib,
    Finset.sum_eq_single_of_mem (n / 2) (Finset.mem_range.2 (by omega)) (fun b _ hb => by simp only [if_neg hb]; push_cast; ring)]
  simp only [if_true]
  push_cast
  ring

theorem firResponse_shift (n : ℕ) (h : ℕ → ℝ) (a c w : ℝ) :
    firResponse n (fun t => 2 * Real.cos (a * (t - c)) * h t) w =
      Complex.exp (-(a * c : ℝ) * I) * firResponse n h (w - a) + Complex.exp ((a * c : ℝ) * I) * firResponse n h (w + a) := by
  unfold firResponse
  rw [Finset.mul_sum, Finset.mul_sum, ← Finset.sum_add_distrib]
  refine Finset.sum_congr rfl fun t _ => ?_
  have hc : ((2 * Real.cos (a * (t - c)) : ℝ) : ℂ) = Complex.exp ((a * (t - c) : ℝ) * I) + Complex.exp (-(a * (t - c) : ℝ) * I) := by
    push_cast
    rw [Complex.cos]
    ring
  have h1 : Complex.exp ((a * (t - c) : ℝ) * I) * Complex.exp (-(w * t : ℝ) * I) =
      Complex.exp (-(a * c : ℝ) * I) * Complex.exp (-((w - a) * t : ℝ) * I) := by
    rw [← Complex.exp_add, ← Complex.exp_add]; congr 1; push_cast; ring
  have h2 : Complex.exp (-(a * (t - c) : ℝ) * I) * Complex.exp (-(w * t : ℝ) * I) =
      Complex.exp ((a * c : ℝ) * I) * Complex.exp (-((w + a) * t : ℝ) * I) := by
    rw [← Complex.exp_add, ← Complex.exp_add]; congr 1; push_cast; ring
  rw [Complex.ofReal_mul, hc]
  linear_combination (h t : ℂ) * h1 + (h t : ℂ) * h2

/-! ### C48 -/

section
variable (mem : List ℝ) (out fil : Span) (hs : out.size = fil.size) (hm : out.Within mem) (hf : fil.Within mem)
  (h : ℕ → ℝ) (hr : Reads mem fil h)
include hs hm hf hr

/-- **C48** (mirror): in place or into a separate signal, any length; the odd taps are negated, the response is that of the filter
shifted by half the sampling frequency, so the magnitude response is mirrored: `|H'(w)| = |H(π - w)|`. -/
theorem C48_mirror (hc : out.Compatible fil) :
    ∃ m g, mirrorResponse mem out fil = .ok m ∧ Writes mem m out g ∧
      (∀ i, i < fil.size → g i = if i % 2 = 0 then h i else -h i) ∧
      ∀ w, firResponse fil.size g w = firResponse fil.size h (w + Real.pi) ∧
        ‖firResponse fil.size g w‖ = ‖firResponse fil.size h (Real.pi - w)‖ := by
  obtain ⟨m, e, hw⟩ := mirrorResponse_writes mem out fil hs hm hf hc h hr
  refine ⟨m, _, e, hw, fun i _ => ?_, fun w => ⟨firResponse_mirror _ h w, ?_⟩⟩
  · rcases Nat.even_or_odd i with hi | hi
    · rw [if_pos (Nat.even_iff.1 hi), hi.neg_one_pow, one_mul]
    · rw [if_neg (by rw [Nat.odd_iff.1 hi]; decide), hi.neg_one_pow, neg_one_mul]
  · have e1 : Real.pi - w = -(w + Real.pi) + 2 * Real.pi := by ring
    rw [firResponse_mirror, e1, firResponse_periodic, firResponse_neg]
    exact (RCLike.norm_conj _).symm

/-- **C48** (complement), odd lengths, in place or into a separate signal: the two responses add up to the pure delay by half the
length (so the pass bands of one are the stop bands of the other). -/
theorem C48_complement (e : Exec) (hc : out.Compatible fil) (hodd : fil.size % 2 = 1) :
    ∃ m g, complementaryResponse e mem out fil = .ok m ∧ Writes mem m out g ∧
      (∀ i, i < fil.size → g i + h i = if i = fil.size / 2 then 1 else 0) ∧
      ∀ w, firResponse fil.size g w + firResponse fil.size h w = Complex.exp (-(w * (fil.size / 2 : ℕ) : ℝ) * I) := by
  obtain ⟨m, e, hw⟩ := complementaryResponse_writes e mem out fil hodd hs hm hf (by
    rcases hc with rfl | hc | hc
    · left; rfl
    · left; omega
    · right; omega) h hr
  refine ⟨m, _, e, hw, fun i _ => by ring, fun w => ?_⟩
  rw [firResponse_complement _ (by omega)]
  ring

/-- **C48** (shift), odd lengths, in place: modulation by a cosine about the middle tap: the response is the sum of the response
shifted up and down by `π f`; relative to the delay of half the length both copies have the same phase. -/
theorem C48_shift_inplace_partial (e : Exec) (ho : out = fil) (hodd : fil.size % 2 = 1) (f : ℝ) :
    ∃ m g, shiftResponse e mem out fil f = .ok m ∧ Writes mem m out g ∧
      (∀ i, i < fil.size → g i = 2 * Real.cos (Real.pi * f * (i - (fil.size / 2 : ℕ))) * h i) ∧
      ∀ w, Complex.exp ((w * (fil.size / 2 : ℕ) : ℝ) * I) * firResponse fil.size g w =
        Complex.exp (((w - Real.pi * f) * (fil.size / 2 : ℕ) : ℝ) * I) * firResponse fil.size h (w - Real.pi * f) +
        Complex.exp (((w + Real.pi * f) * (fil.size / 2 : ℕ) : ℝ) * I) * firResponse fil.size h (w + Real.pi * f) := by
  obtain ⟨m, e, hw⟩ := shiftResponse_writes e mem out fil hs hm hf (Or.inl ho) h hr f (h (fil.size / 2)) (fun _ => by
    rw [ho]; exact hr _ (by omega))
  have hg : ∀ i, i < fil.size → (if fil.size % 2 = 1 ∧ i = fil.size / 2 then 2 * h (fil.size / 2) else shiftFactor fil.size f i * h i) =
      2 * Real.cos (Real.pi * f * (i - (fil.size / 2 : ℕ))) * h i := by
    intro i hi
    split_ifs with hmid
    · rw [hmid.2, sub_self, mul_zero, Real.cos_zero, mul_one]
    · rw [shiftFactor_odd hodd hi]
  refine ⟨m, _, e, hw, hg, fun w => ?_⟩
  rw [firResponse_congr hg, firResponse_shift, mul_add, ← mul_assoc, ← mul_assoc, ← Complex.exp_add, ← Complex.exp_add]
  congr 3 <;> push_cast <;> ring

/-- **C48** (shift), what the library does for a separate result: of odd length: the middle tap is not taken from the filter at
all, it is twice what the result held before the call. -/
theorem C48_shift_separate_wrong (e : Exec) (hc : out.Compatible fil) (hodd : fil.size % 2 = 1) (f old : ℝ)
    (ho : mem[out.pos + fil.size / 2]? = some old) :
    ∃ m g, shiftResponse e mem out fil f = .ok m ∧ Writes mem m out g ∧ g (fil.size / 2) = 2 * old ∧
      (∀ i, i < fil.size → i ≠ fil.size / 2 → g i = 2 * Real.cos (Real.pi * f * (i - (fil.size / 2 : ℕ))) * h i) := by
  obtain ⟨m, e, hw⟩ := shiftResponse_writes e mem out fil hs hm hf hc h hr f old (fun _ => ho)
  refine ⟨m, _, e, hw, by simp [hodd], fun i hi hi' => ?_⟩
  rw [if_neg (by tauto), shiftFactor_odd hodd hi]

/-- **C48** (shift), what the library does for even lengths: the first half is modulated about tap `n/2`, the second half mirrors
it, so the factor is not a cosine (about the middle of the filter it should be `2 cos (π f (i - (n-1)/2))`). -/
theorem C48_shift_even_wrong (e : Exec) (hc : out.Compatible fil) (heven : fil.size % 2 = 0) (f : ℝ) :
    ∃ m g, shiftResponse e mem out fil f = .ok m ∧ Writes mem m out g ∧
      ∀ i, i < fil.size → g i = 2 * Real.cos (Real.pi * f * ((min i (fil.size - 1 - i) : ℕ) - (fil.size / 2 : ℕ))) * h i := by
  obtain ⟨m, e, hw⟩ := shiftResponse_writes e mem out fil hs hm hf hc h hr f 0 (fun h => by omega)
  refine ⟨m, _, e, hw, fun i hi => ?_⟩
  rw [if_neg (by omega), shiftFactor]
  congr 3
  ring

omit hs hm hf hr in
/-- **C48**: an even length has no middle tap; the complement refuses it, as it refuses a result of another length; so do the
others refuse a result of another length. -/
theorem C48_refused (e : Exec) (mem : List ℝ) (out fil : Span) :
    (fil.size % 2 = 0 → complementaryResponse e mem out fil = .assertFail) ∧
    (out.size ≠ fil.size → mirrorResponse mem out fil = .assertFail ∧ ∀ f, shiftResponse e mem out fil f = .assertFail) := by
  refine ⟨fun h => ?_, fun h => ⟨?_, fun f => ?_⟩⟩
  · unfold complementaryResponse; rw [cassert, if_neg (by omega)]; rfl
  · unfold mirrorResponse; rw [cassert, if_neg h]; rfl
  · unfold shiftResponse; rw [cassert, if_neg h]; rfl

end

/-- **C48**: mirroring is an involution. -/
theorem C48_mirror_twice (mem : List ℝ) (fil : Span) (hf : fil.Within mem) :
    ∃ m, mirrorResponse mem fil fil = .ok m ∧ mirrorResponse m fil fil = .ok mem := by
  have hr : Reads mem fil (fun i => mem.getD (fil.pos + i) 0) := fun i hi => by
    unfold Span.Within at hf
    simp only []
    rw [List.getD_eq_getElem _ _ (by omega), List.getElem?_eq_getElem]
  obtain ⟨m, e1, h1⟩ := mirrorResponse_writes mem fil fil rfl hf hf (Or.inl rfl) _ hr
  have hf' : fil.Within m := by unfold Span.Within at *; rw [h1.length]; exact hf
  obtain ⟨m2, e2, h2⟩ := mirrorResponse_writes m fil fil rfl hf' hf' (Or.inl rfl) _ h1.reads
  refine ⟨m, e1, e2.trans ?_⟩
  congr 1
  apply List.ext_getElem?
  intro j
  by_cases hj : fil.pos ≤ j ∧ j < fil.pos + fil.size
  · obtain ⟨i, rfl⟩ := Nat.exists_eq_add_of_le hj.1
    rw [h2.written i (by omega), hr i (by omega), ← mul_assoc, ← mul_pow]
    simp
  · rw [h2.rest j (by omega), h1.rest j (by omega)]

/-- **C48**: so is taking the complement. -/
theorem C48_complement_twice (e : Exec) (mem : List ℝ) (fil : Span) (hf : fil.Within mem) (hodd : fil.size % 2 = 1) :
    ∃ m, complementaryResponse e mem fil fil = .ok m ∧ complementaryResponse e m fil fil = .ok mem := by
  have hr : Reads mem fil (fun i => mem.getD (fil.pos + i) 0) := fun i hi => by
    unfold Span.Within at hf
    simp only []
    rw [List.getD_eq_getElem _ _ (by omega), List.getElem?_eq_getElem]
  obtain ⟨m, e1, h1⟩ := complementaryResponse_writes e mem fil fil hodd rfl hf hf (Or.inl le_rfl) _ hr
  have hf' : fil.Within m := by unfold Span.Within at *; rw [h1.length]; exact hf
  obtain ⟨m2, e2, h2⟩ := complementaryResponse_writes e m fil fil hodd rfl hf' hf' (Or.inl le_rfl) _ h1.reads
  refine ⟨m, e1, e2.trans ?_⟩
  congr 1
  apply List.ext_getElem?
  intro j
  by_cases hj : fil.pos ≤ j ∧ j < fil.pos + fil.size
  · obtain ⟨i, rfl⟩ := Nat.exists_eq_add_of_le hj.1
    rw [h2.written i (by omega), hr i (by omega)]
    congr 1
    ring
  · rw [h2.rest j (by omega), h1.rest j (by omega)]

/-- **C48**: the magnitude response about the delay is preserved as a real quantity: a symmetric filter of odd length keeps its
linear phase under all three operations (the new taps are symmetric, too). -/
theorem C48_symmetric (n : ℕ) (hodd : n % 2 = 1) (h : ℕ → ℝ) (hp : Palindrome n h) (f : ℝ) :
    Palindrome n (fun i => if i % 2 = 0 then h i else -h i) ∧
    Palindrome n (fun i => (if i = n / 2 then 1 else 0) - h i) ∧
    Palindrome n (fun i => 2 * Real.cos (Real.pi * f * (i - (n / 2 : ℕ))) * h i) := by
  refine ⟨fun i hi => ?_, fun i hi => ?_, fun i hi => ?_⟩
  · simp only []
    rw [hp i hi]
    have : (n - 1 - i) % 2 = i % 2 := by omega
    rw [this]
  · simp only []
    rw [hp i hi]
    by_cases h : i = n / 2
    · rw [if_pos h, if_pos (by omega)]
    · rw [if_neg h, if_neg (by omega)]
  · simp only []
    have : ((n - 1 - i : ℕ) : ℝ) - (n / 2 : ℕ) = -((i : ℝ) - (n / 2 : ℕ)) := by
      have h' : n - 1 - i + i = 2 * (n / 2) := by omega
      have := congrArg (fun x : ℕ => (x : ℝ)) h'
      push_cast at this ⊢
      linarith
    rw [hp i hi, this, mul_neg, Real.cos_neg]

-- the hypotheses are met
example : ∃ m g, mirrorResponse [1, 2, 3] ⟨0, 3⟩ ⟨0, 3⟩ = .ok m ∧ Writes [1, 2, 3] m ⟨0, 3⟩ g ∧ g 1 = -2 := by
  obtain ⟨m, g, e, hw, hg, -⟩ := C48_mirror [1, 2, 3] ⟨0, 3⟩ ⟨0, 3⟩ rfl (by simp [Span.Within]) (by simp [Span.Within])
    (fun i => [1, 2, 3].getD i 0)
    (fun i hi => match i, hi with | 0, _ => rfl | 1, _ => rfl | 2, _ => rfl) (Or.inl rfl)
  refine ⟨m, g, e, hw, ?_⟩
  rw [hg 1 (by decide)]
  norm_num

end Verif
