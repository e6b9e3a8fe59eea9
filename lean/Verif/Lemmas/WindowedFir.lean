import Verif.Lemmas.FirDesign

namespace Verif
set_option linter.unusedSimpArgs false

/-- argument of the sinc at tap `t` of `n`, the pairwise loops -/
theorem sinc_pair {n t : ℕ} (hn : n % 2 = 1) (ht : t < n) (fc : ℝ) :
    Real.sinc (((min t (n - 1 - t) : ℕ) - ((n / 2 : ℕ) : ℝ)) * (fc * Real.pi)) = Real.sinc (Real.pi * fc * (t - ((n / 2 : ℕ) : ℝ))) := by
  rcases Nat.lt_or_ge t (n / 2 + 1) with h | h
  · rw [min_eq_left (by omega)]
    congr 1
    ring
  · rw [min_eq_right (by omega)]
    have : ((n - 1 - t : ℕ) : ℝ) = 2 * ((n / 2 : ℕ) : ℝ) - t := by
      have h' : n - 1 - t + t = 2 * (n / 2) := by omega
      have := congrArg (fun x : ℕ => (x : ℝ)) h'
      push_cast at this
      linarith
    rw [this, ← Real.sinc_neg]
    congr 1
    ring

theorem sinc_arg_ne {n i : ℕ} (hi : i < n / 2) {fc : ℝ} (hfc : fc ≠ 0) : ((i : ℝ) - ((n / 2 : ℕ) : ℝ)) * (fc * Real.pi) ≠ 0 := by
  have : (i : ℝ) < ((n / 2 : ℕ) : ℝ) := by exact_mod_cast hi
  exact mul_ne_zero (by linarith) (mul_ne_zero hfc Real.pi_ne_zero)

/-- sums of the contents of a signal -/
theorem Writes.sum {mem m : List ℝ} {out : Span} {g : ℕ → ℝ} (h : Writes mem m out g) (hw : out.Within mem) :
    (out.contents m).sum = ∑ i ∈ Finset.range out.size, g i := by
  unfold Span.contents
  rw [h.contents hw]
  induction out.size with
  | zero => simp
  | succ n ih => rw [List.range_succ, List.map_append, List.sum_append, ih, Finset.sum_range_succ]; simp

/-- the ideal low pass times the window -/
noncomputable def windowedSinc (n : ℕ) (fc : ℝ) (w : ℕ → ℝ) (t : ℕ) : ℝ := w t * Real.sinc (Real.pi * fc * (t - ((n / 2 : ℕ) : ℝ)))

theorem kernelWindowedLowpass_writes (e : Exec) (c : Kern) (hck : c.Ok) (mem : List ℝ) (out : Span) (hodd : out.size % 2 = 1)
    (hm : out.Within mem) (fc : ℝ) (hfc : fc ≠ 0) (window : List ℝ → Span → Out (List ℝ)) {m0 : List ℝ} {w : ℕ → ℝ}
    (hwin : window mem out = .ok m0) (hww : Writes mem m0 out w) {S : ℝ}
    (hS : S = ∑ i ∈ Finset.range out.size, windowedSinc out.size fc w i) :
    (S ≠ 0 → ∃ m, kernelWindowedLowpass e c mem out fc window = .ok m ∧ Writes mem m out (fun i => windowedSinc out.size fc w i / S)) ∧
    (S = 0 → kernelWindowedLowpass e c mem out fc window = .ub) := by
  have hm0 := hm
  have hl0 := hww.length
  unfold Span.Within at hm
  obtain ⟨n, hn⟩ : ∃ n, n = out.size := ⟨_, rfl⟩
  rw [← hn] at hS hodd hm
  have key := forN_inv
    (body := fun i mem => do
      let sinc ← fdiv (Real.sin (((i : ℝ) - ((n / 2 : ℕ) : ℝ)) * (fc * Real.pi))) (((i : ℝ) - ((n / 2 : ℕ) : ℝ)) * (fc * Real.pi))
      let a ← rd mem ((out.pos + i : Nat) : Int)
      let mem ← wr mem ((out.pos + i : Nat) : Int) (a * sinc)
      let b ← rd mem ((out.pos + (n - i - 1) : Nat) : Int)
      wr mem ((out.pos + (n - i - 1) : Nat) : Int) (b * sinc))
    (fun k (m : List ℝ) => m.length = m0.length ∧ ∀ j, m[j]? =
      if out.pos ≤ j ∧ j < out.pos + n ∧ (j < out.pos + k ∨ out.pos + n - k ≤ j)
      then some (windowedSinc n fc w (j - out.pos)) else m0[j]?) (n / 2) m0
    ⟨rfl, fun j => by rw [if_neg (by omega)]⟩
  replace key := key (by
    intro i m hi ⟨hl, hx⟩
    have hne := sinc_arg_ne (n := n) hi hfc
    have hr1 : rd m ((out.pos + i : ℕ) : ℤ) = .ok (w i) := by
      apply rd_some
      rw [hx, if_neg (by omega), hww.written i (by omega)]
    obtain ⟨m1, ew, hl', hw'⟩ := wr_upd (mem := m) (p := out.pos + i) (by omega)
      (w i * (Real.sin (((i : ℝ) - ((n / 2 : ℕ) : ℝ)) * (fc * Real.pi)) / (((i : ℝ) - ((n / 2 : ℕ) : ℝ)) * (fc * Real.pi))))
    have hr2 : rd m1 ((out.pos + (n - i - 1) : ℕ) : ℤ) = .ok (w (n - i - 1)) := by
      apply rd_some
      rw [hw', if_neg (by omega), hx, if_neg (by omega), hww.written _ (by omega)]
    obtain ⟨m2, ew2, hl2, hw2⟩ := wr_upd (mem := m1) (p := out.pos + (n - i - 1)) (by omega)
      (w (n - i - 1) * (Real.sin (((i : ℝ) - ((n / 2 : ℕ) : ℝ)) * (fc * Real.pi)) / (((i : ℝ) - ((n / 2 : ℕ) : ℝ)) * (fc * Real.pi))))
    refine ⟨m2, ?_, by omega, fun j => ?_⟩
    · rw [fdiv_ok hne, Out.ok_bind, hr1, Out.ok_bind, ew, Out.ok_bind, hr2, Out.ok_bind, ew2]
    · rw [hw2, hw', hx]
      by_cases hj2 : j = out.pos + (n - i - 1)
      · subst hj2
        rw [if_pos rfl, if_pos (by omega), Nat.add_sub_cancel_left, windowedSinc, ← sinc_pair hodd (by omega), min_eq_right (by omega),
          show n - 1 - (n - i - 1) = i by omega, Real.sinc_of_ne_zero hne]
      · rw [if_neg hj2]
        by_cases hj : j = out.pos + i
        · subst hj
          rw [if_pos rfl, if_pos (by omega), Nat.add_sub_cancel_left, windowedSinc, ← sinc_pair hodd (by omega), min_eq_left (by omega),
            Real.sinc_of_ne_zero hne]
        · rw [if_neg hj]
          by_cases h1 : out.pos ≤ j ∧ j < out.pos + n ∧ (j < out.pos + i ∨ out.pos + n - i ≤ j)
          · rw [if_pos h1, if_pos (by omega)]
          · rw [if_neg h1, if_neg (by omega)])
  obtain ⟨m1, e1, hl, hx⟩ := key
  have hW : Writes mem m1 out (windowedSinc n fc w) := by
    refine ⟨by omega, fun t ht => ?_, fun j hj => ?_⟩
    · rw [hx]
      by_cases hmid : t = n / 2
      · rw [if_neg (by omega), hww.written t ht, windowedSinc, hmid, sub_self, mul_zero, Real.sinc_zero, mul_one]
      · rw [if_pos (by omega), Nat.add_sub_cancel_left]
    · rw [hx, if_neg (by omega), hww.rest j hj]
  have hsum : statSum c (out.contents m1) = .ok S := by rw [C41_sum hck, hW.sum hm0, hS, hn]
  have hun : kernelWindowedLowpass e c mem out fc window = (do
      let q ← fdiv 1 S
      compoundVS e.asserts e.vec e.W .mul m1 out q) := by
    unfold kernelWindowedLowpass
    rw [← hn] at *
    simp only []
    rw [cassert_true hodd, Out.ok_bind, hwin, Out.ok_bind, e1, Out.ok_bind, hsum, Out.ok_bind]
  rw [hun]
  refine ⟨fun h0 => ?_, fun h0 => by rw [fdiv_zero h0]; rfl⟩
  obtain ⟨m2, e2, h2⟩ := compoundVS_writes e .mul (1 / S) hm0 hW
  refine ⟨m2, by rw [fdiv_ok h0, Out.ok_bind, e2], h2.congr fun t ht => ?_⟩
  simp only [ArithOp.apply, ← hn]
  ring

theorem kernelWindowedLowpassGiven_writes (e : Exec) (c : Kern) (hck : c.Ok) (mem : List ℝ) (out win : Span) (hodd : out.size % 2 = 1)
    (hs : out.size = win.size) (hm : out.Within mem) (hwi : win.Within mem)
    (hdis : out.pos + out.size ≤ win.pos ∨ win.pos + win.size ≤ out.pos) (fc : ℝ) (hfc : fc ≠ 0) {w : ℕ → ℝ}
    (hr : Reads mem win w) {S : ℝ} (hS : S = ∑ i ∈ Finset.range out.size, windowedSinc out.size fc w i) :
    (S ≠ 0 → ∃ m, kernelWindowedLowpassGiven e c mem out fc win = .ok m ∧
      Writes mem m out (fun i => windowedSinc out.size fc w i / S)) ∧
    (S = 0 → kernelWindowedLowpassGiven e c mem out fc win = .ub) := by
  have hm0 := hm
  unfold Span.Within at hm hwi
  obtain ⟨n, hn⟩ : ∃ n, n = out.size := ⟨_, rfl⟩
  rw [← hn] at hS hodd hm hs
  have key := forN_inv
    (body := fun i mem => do
      let sinc ← fdiv (Real.sin (((i : ℝ) - ((n / 2 : ℕ) : ℝ)) * (fc * Real.pi))) (((i : ℝ) - ((n / 2 : ℕ) : ℝ)) * (fc * Real.pi))
      let mem ← wr mem ((out.pos + i : Nat) : Int) sinc
      wr mem ((out.pos + (n - i - 1) : Nat) : Int) sinc)
    (fun k (m : List ℝ) => m.length = mem.length ∧ ∀ j, m[j]? =
      if out.pos ≤ j ∧ j < out.pos + n ∧ (j < out.pos + k ∨ out.pos + n - k ≤ j)
      then some (Real.sinc (Real.pi * fc * (((j - out.pos : ℕ) : ℝ) - ((n / 2 : ℕ) : ℝ)))) else mem[j]?) (n / 2) mem
    ⟨rfl, fun j => by rw [if_neg (by omega)]⟩
  replace key := key (by
    intro i m hi ⟨hl, hx⟩
    have hne := sinc_arg_ne (n := n) hi hfc
    obtain ⟨m1, ew, hl', hw'⟩ := wr_upd (mem := m) (p := out.pos + i) (by omega)
      (Real.sin (((i : ℝ) - ((n / 2 : ℕ) : ℝ)) * (fc * Real.pi)) / (((i : ℝ) - ((n / 2 : ℕ) : ℝ)) * (fc * Real.pi)))
    obtain ⟨m2, ew2, hl2, hw2⟩ := wr_upd (mem := m1) (p := out.pos + (n - i - 1)) (by omega)
      (Real.sin (((i : ℝ) - ((n / 2 : ℕ) : ℝ)) * (fc * Real.pi)) / (((i : ℝ) - ((n / 2 : ℕ) : ℝ)) * (fc * Real.pi)))
    refine ⟨m2, ?_, by omega, fun j => ?_⟩
    · rw [fdiv_ok hne, Out.ok_bind, ew, Out.ok_bind, ew2]
    · rw [hw2, hw', hx]
      by_cases hj2 : j = out.pos + (n - i - 1)
      · subst hj2
        rw [if_pos rfl, if_pos (by omega), Nat.add_sub_cancel_left, ← sinc_pair hodd (by omega), min_eq_right (by omega),
          show n - 1 - (n - i - 1) = i by omega, Real.sinc_of_ne_zero hne]
      · rw [if_neg hj2]
        by_cases hj : j = out.pos + i
        · subst hj
          rw [if_pos rfl, if_pos (by omega), Nat.add_sub_cancel_left, ← sinc_pair hodd (by omega), min_eq_left (by omega),
            Real.sinc_of_ne_zero hne]
        · rw [if_neg hj]
          by_cases h1 : out.pos ≤ j ∧ j < out.pos + n ∧ (j < out.pos + i ∨ out.pos + n - i ≤ j)
          · rw [if_pos h1, if_pos (by omega)]
          · rw [if_neg h1, if_neg (by omega)])
  obtain ⟨m1, e1, hl, hx⟩ := key
  obtain ⟨m2, e2, hl2, hx2⟩ := wr_upd (mem := m1) (p := out.pos + n / 2) (by omega) (1 : ℝ)
  have hW : Writes mem m2 out (fun t => Real.sinc (Real.pi * fc * ((t : ℝ) - ((n / 2 : ℕ) : ℝ)))) := by
    refine ⟨by omega, fun t ht => ?_, fun j hj => ?_⟩
    · rw [hx2, hx]
      by_cases hmid : t = n / 2
      · rw [if_pos (by omega), hmid, sub_self, mul_zero, Real.sinc_zero]
      · rw [if_neg (by omega), if_pos (by omega), Nat.add_sub_cancel_left]
    · rw [hx2, if_neg (by omega), hx, if_neg (by omega)]
  have hw2 := hW.within hm0
  have hl3 : m2.length = mem.length := by omega
  obtain ⟨m3, e3, hl4, hx3, hrest3⟩ := C40_vector_vector e.asserts e.vec e.W .mul m2 out out win rfl (by omega) hw2 hw2 (by omega)
    (Or.inl le_rfl) (by omega)
  have hW3 : Writes mem m3 out (windowedSinc n fc w) := by
    refine ⟨by omega, fun t ht => ?_, fun j hj => ?_⟩
    · rw [hx3 t _ (w t) ht (hW.written t ht) (by rw [hW.rest _ (by omega), hr t (by omega)])]
      simp only [ArithOp.apply, windowedSinc]
      rw [mul_comm]
    · rw [hrest3 j hj, hW.rest j hj]
  have hsum : statSum c (out.contents m3) = .ok S := by rw [C41_sum hck, hW3.sum hm0, hS, hn]
  have hun : kernelWindowedLowpassGiven e c mem out fc win = (do
      let q ← fdiv 1 S
      compoundVS e.asserts e.vec e.W .mul m3 out q) := by
    unfold kernelWindowedLowpassGiven compoundVV
    rw [← hn] at *
    simp only []
    rw [cassert_true hodd, Out.ok_bind, cassert_true hs, Out.ok_bind, e1, Out.ok_bind, if_pos hodd, e2, Out.ok_bind, e3, Out.ok_bind,
      hsum, Out.ok_bind]
  rw [hun]
  refine ⟨fun h0 => ?_, fun h0 => by rw [fdiv_zero h0]; rfl⟩
  obtain ⟨m4, e4, h4⟩ := compoundVS_writes e .mul (1 / S) hm0 hW3
  refine ⟨m4, by rw [fdiv_ok h0, Out.ok_bind, e4], h4.congr fun t ht => ?_⟩
  simp only [ArithOp.apply, ← hn]
  ring

end Verif
