import Verif.Lemmas.Unstable
import Verif.Spec.FirFilter
import Verif.Props.IirDesign
import Verif.Props.Systems
import Verif.Props.IirFilter

/-!
# C82: stable filters in the time domain

A transfer function is stable if its denominator vanishes at no point on or outside the unit circle.
`IsResponse` (Spec/DifferenceEquation.lean) is what the direct forms are proved to compute (C20, C21).
-/

set_option linter.unusedVariables false

namespace Verif
open Complex

/-- All poles are inside the unit circle. -/
def TransferFn.IsStable (sys : TransferFn ℝ) : Prop := ∀ z : ℂ, 1 ≤ ‖z‖ → polyEval Complex.ofReal sys.den z ≠ 0

private theorem poles_inside {sys : TransferFn ℝ} (hst : sys.IsStable) {lead : ℝ} {ps : List ℂ} (h : Stab.Factored sys.den lead ps) :
    ∀ p ∈ ps, ‖p‖ < 1 := by
  intro p hp
  by_contra hn
  push Not at hn
  refine hst p hn ?_
  rw [h.value, List.prod_eq_zero, mul_zero]
  exact List.mem_map.2 ⟨p, hp, sub_self p⟩

private theorem ext_seq (x : List ℝ) : ∀ n, n < x.length → ((fun n => ((sig x n : ℝ) : ℂ)) : ℕ → ℂ) n = ((sig x n : ℝ) : ℂ) := fun _ _ => rfl

/-- **C82**: bounded input, bounded output, with a gain that does not depend on the input or its length. -/
theorem C82_bounded (sys : TransferFn ℝ) (hlead : sig sys.den (sys.den.length - 1) ≠ 0) (hst : sys.IsStable) :
    ∃ M : ℝ, ∀ (x y : List ℝ) (B : ℝ), IsResponse sys.num sys.den x y → (∀ v ∈ x, |v| ≤ B) → ∀ w ∈ y, |w| ≤ M * B := by
  obtain ⟨ps, h⟩ := Stab.exists_factored sys.den hlead
  obtain ⟨M, hM, hb⟩ := Stab.resp_bounded sys.num _ ps (poles_inside hst h)
  refine ⟨M, fun x y B hr hx w hw => ?_⟩
  obtain ⟨n, hn, rfl⟩ := List.mem_iff_getElem.1 hw
  have hl : n < x.length := by rw [← hr.1]; exact hn
  have hB : 0 ≤ B := (abs_nonneg _).trans (hx x[n] (List.getElem_mem _))
  have e := Stab.resp_eq h hr _ (ext_seq x) n hl
  have hs : sig y n = y[n] := by simp [sig, hn]
  have := hb (fun n => ((sig x n : ℝ) : ℂ)) B (fun k => ?_) n
  · rw [← e, norm_real, Real.norm_eq_abs, hs] at this
    exact this
  · rw [norm_real, Real.norm_eq_abs]
    rcases Nat.lt_or_ge k x.length with hk | hk
    · have : sig x k = x[k] := by simp [sig, hk]
      rw [this]
      exact hx _ (List.getElem_mem _)
    · have : sig x k = 0 := by simp [sig, hk]
      rw [this, abs_zero]
      exact hB

/-- **C82**: the past is forgotten exponentially: outputs for inputs that agree from sample `m` on approach each other. -/
theorem C82_forgets (sys : TransferFn ℝ) (hlead : sig sys.den (sys.den.length - 1) ≠ 0) (hst : sys.IsStable) :
    ∃ M r : ℝ, 0 < r ∧ r < 1 ∧ ∀ (x x' y y' : List ℝ) (B : ℝ) (m : ℕ), IsResponse sys.num sys.den x y → IsResponse sys.num sys.den x' y' →
      x.length = x'.length → (∀ n, n < m → |sig x n - sig x' n| ≤ B) → (∀ n, m ≤ n → sig x n = sig x' n) → 0 ≤ B →
      ∀ n, m ≤ n → n < x.length → |sig y n - sig y' n| ≤ M * B * r ^ (n - m) := by
  obtain ⟨ps, h⟩ := Stab.exists_factored sys.den hlead
  obtain ⟨r, hr0, hr1, hp⟩ := Stab.exists_radius ps (poles_inside hst h)
  obtain ⟨M, hM, hb⟩ := Stab.resp_decay sys.num (sig sys.den (sys.den.length - 1)) ps r hr0 hr1 hp
  refine ⟨M, r, hr0, hr1, fun x x' y y' B m hr hr' hl h1 h2 hB n hmn hn => ?_⟩
  have e := Stab.resp_eq h hr _ (ext_seq x) n hn
  have e' := Stab.resp_eq h hr' _ (ext_seq x') n (hl ▸ hn)
  have key := hb (fun n => ((sig x n : ℝ) : ℂ) - ((sig x' n : ℝ) : ℂ)) B m (fun k hk => ?_) (fun k hk => ?_) hB n hmn
  · rw [Stab.resp_sub, ← e, ← e', ← ofReal_sub, norm_real, Real.norm_eq_abs] at key
    exact key
  · rw [← ofReal_sub, norm_real, Real.norm_eq_abs]
    exact h1 k hk
  · rw [h2 k hk, sub_self]

/-- the zero signal has the zero response -/
theorem isResponse_zero (b a : List ℝ) (L : ℕ) : IsResponse b a (List.replicate L 0) (List.replicate L 0) := by
  have hz : ∀ i : ℤ, sigI (List.replicate L (0 : ℝ)) i = 0 := by
    intro i
    unfold sigI sig
    split
    · simp [List.getElem?_replicate]
      split <;> rfl
    · rfl
  refine ⟨rfl, fun n _ => ?_⟩
  simp [hz]

/-- **C82**: once the input has ended the output decays exponentially; in particular the impulse response does. -/
theorem C82_decays (sys : TransferFn ℝ) (hlead : sig sys.den (sys.den.length - 1) ≠ 0) (hst : sys.IsStable) :
    ∃ M r : ℝ, 0 < r ∧ r < 1 ∧ ∀ (x y : List ℝ) (B : ℝ) (k : ℕ), IsResponse sys.num sys.den (x ++ List.replicate k 0) y →
      (∀ v ∈ x, |v| ≤ B) → 0 ≤ B → ∀ n, n < k → |sig y (x.length + n)| ≤ M * B * r ^ n := by
  obtain ⟨M, r, h0, h1, h⟩ := C82_forgets sys hlead hst
  refine ⟨M, r, h0, h1, fun x y B k hr hx hB n hn => ?_⟩
  have z : ∀ (L i : ℕ), sig (List.replicate L (0 : ℝ)) i = 0 := by
    intro L i
    unfold sig
    simp [List.getElem?_replicate]
    split <;> rfl
  have key := h _ _ _ _ B x.length hr (isResponse_zero sys.num sys.den (x.length + k)) (by simp) (fun i hi => ?_) (fun i hi => ?_) hB
    (x.length + n) (by omega) (by simp; omega)
  · rw [z, sub_zero, Nat.add_sub_cancel_left] at key
    exact key
  · rw [z, sub_zero]
    have : sig (x ++ List.replicate k 0) i = x[i] := by simp [sig, List.getElem?_append, hi]
    rw [this]
    exact hx _ (List.getElem_mem _)
  · rw [z]
    have : sig (x ++ List.replicate k (0 : ℝ)) i = sig (List.replicate k (0 : ℝ)) (i - x.length) := by
      simp [sig, List.getElem?_append, not_lt.2 hi]
    rw [this, z]

/-- **C82**: the output for a sinusoid of any frequency, amplitude and phase approaches the sinusoid that the transfer function
predicts, exponentially, with constants that do not depend on the sinusoid.  (If there are fewer zeros than poles, the realizations omit
the delay by the difference, hence the shift in the exponent.) -/
theorem C82_steady_state (sys : TransferFn ℝ) (hlead : sig sys.den (sys.den.length - 1) ≠ 0) (hst : sys.IsStable) :
    ∃ M r : ℝ, 0 < r ∧ r < 1 ∧ ∀ (A w φ : ℝ) (L : ℕ) (y : List ℝ),
      IsResponse sys.num sys.den ((List.range L).map fun n : ℕ => A * Real.cos (w * n + φ)) y → ∀ n, n < L →
      |sig y n - (sys.eval (exp (w * I)) *
        (A * exp ((w * (n + ((sys.den.length : ℂ) - 1 - ((sys.num.length - 1 : ℕ) : ℂ))) + φ) * I))).re| ≤ M * |A| * r ^ n := by
  obtain ⟨ps, h⟩ := Stab.exists_factored sys.den hlead
  obtain ⟨r, hr0, hr1, hp⟩ := Stab.exists_radius ps (poles_inside hst h)
  obtain ⟨M, hM, hb⟩ := Stab.resp_near sys.num (sig sys.den (sys.den.length - 1)) ps r hr0 hr1 hp
  refine ⟨M, r, hr0, hr1, fun A w φ L y hr n hn => ?_⟩
  obtain ⟨z, hz⟩ : ∃ z : ℂ, z = exp (w * I) := ⟨_, rfl⟩
  obtain ⟨c, hc⟩ : ∃ c : ℂ, c = A * exp (φ * I) := ⟨_, rfl⟩
  have hz1 : ‖z‖ = 1 := by rw [hz, norm_exp_ofReal_mul_I]
  have hz0 : z ≠ 0 := by rw [hz]; exact exp_ne_zero _
  have hc1 : ‖c‖ = |A| := by rw [hc, norm_mul, norm_exp_ofReal_mul_I, mul_one, norm_real, Real.norm_eq_abs]
  have hzn : ∀ k : ℕ, c * z ^ k = A * exp ((w * k + φ) * I) := by
    intro k
    rw [hc, hz, ← exp_nat_mul, mul_assoc, ← exp_add]
    congr 2
    ring
  have hcos : ∀ k : ℕ, ((A * Real.cos (w * k + φ) : ℝ) : ℂ) = c / 2 * z ^ k - -(starRingEnd ℂ c) / 2 * (starRingEnd ℂ z) ^ k := by
    intro k
    have e1 := hzn k
    have e2 : starRingEnd ℂ c * (starRingEnd ℂ z) ^ k = A * exp (-((w * k + φ) * I)) := by
      rw [← map_pow, ← map_mul, e1, map_mul, conj_ofReal, ← exp_conj]
      congr 2
      simp only [map_mul, map_add, conj_ofReal, conj_I, map_natCast]
      ring
    have e3 : c / 2 * z ^ k - -(starRingEnd ℂ c) / 2 * (starRingEnd ℂ z) ^ k = (c * z ^ k + starRingEnd ℂ c * (starRingEnd ℂ z) ^ k) / 2 := by
      ring
    rw [e3, e1, e2]
    push_cast
    rw [Complex.cos]
    ring_nf
  have e := Stab.resp_eq h hr (fun k => c / 2 * z ^ k - -(starRingEnd ℂ c) / 2 * (starRingEnd ℂ z) ^ k) (fun k hk => ?_) n (by simpa using hn)
  · rw [Stab.resp_sub] at e
    have b1 := hb z (c / 2) hz1 n
    have b2 := hb (starRingEnd ℂ z) (-(starRingEnd ℂ c) / 2) (by rw [RCLike.norm_conj]; exact hz1) n
    have hn1 : ‖c / 2‖ = |A| / 2 := by rw [norm_div, hc1]; norm_num
    have hn2 : ‖-(starRingEnd ℂ c) / 2‖ = |A| / 2 := by rw [norm_div, norm_neg, RCLike.norm_conj, hc1]; norm_num
    rw [hn1] at b1
    rw [hn2] at b2
    obtain ⟨d, hd⟩ : ∃ d : ℤ, d = (sys.den.length : ℤ) - 1 - ((sys.num.length - 1 : ℕ) : ℤ) := ⟨_, rfl⟩
    have v1 : Stab.revVal sys.num z / (sig sys.den (sys.den.length - 1) : ℝ) * Stab.gain ps z = z ^ d * sys.eval z := by
      rw [Stab.value_eq h hz0, hd]
      rfl
    have v2 : Stab.revVal sys.num (starRingEnd ℂ z) / (sig sys.den (sys.den.length - 1) : ℝ) * Stab.gain ps (starRingEnd ℂ z) =
        starRingEnd ℂ (z ^ d * sys.eval z) := by
      rw [Stab.value_eq h (by simpa using hz0), ← hd, Stab.polyEval_conj, Stab.polyEval_conj, map_mul, map_zpow₀]
      congr 1
      exact (map_div₀ (starRingEnd ℂ) _ _).symm
    rw [v1] at b1
    rw [v2] at b2
    -- the target
    obtain ⟨T, hT⟩ : ∃ T : ℂ, T = c * (z ^ d * sys.eval z) * z ^ n := ⟨_, rfl⟩
    have t1 : sys.eval (exp (w * I)) *
        (A * exp ((w * (n + ((sys.den.length : ℂ) - 1 - ((sys.num.length - 1 : ℕ) : ℂ))) + φ) * I)) = T := by
      have : A * exp ((w * (n + ((sys.den.length : ℂ) - 1 - ((sys.num.length - 1 : ℕ) : ℂ))) + φ) * I) = c * z ^ n * z ^ d := by
        rw [hzn, hz, ← exp_int_mul, mul_assoc, ← exp_add]
        congr 2
        rw [hd]
        push_cast
        ring
      rw [this, hT, ← hz]
      ring
    rw [t1]
    have t2 : ((sig y n : ℝ) : ℂ) - (T.re : ℂ) =
        (Stab.resp sys.num (sig sys.den (sys.den.length - 1)) ps (fun k => c / 2 * z ^ k) n - c / 2 * (z ^ d * sys.eval z) * z ^ n) -
        (Stab.resp sys.num (sig sys.den (sys.den.length - 1)) ps (fun k => -(starRingEnd ℂ c) / 2 * (starRingEnd ℂ z) ^ k) n -
          -(starRingEnd ℂ c) / 2 * (starRingEnd ℂ (z ^ d * sys.eval z)) * (starRingEnd ℂ z) ^ n) := by
      rw [e, re_eq_add_conj, hT]
      simp only [map_mul, map_pow]
      ring
    have t3 := norm_sub_le (Stab.resp sys.num (sig sys.den (sys.den.length - 1)) ps (fun k => c / 2 * z ^ k) n - c / 2 * (z ^ d * sys.eval z) * z ^ n)
        (Stab.resp sys.num (sig sys.den (sys.den.length - 1)) ps (fun k => -(starRingEnd ℂ c) / 2 * (starRingEnd ℂ z) ^ k) n -
          -(starRingEnd ℂ c) / 2 * (starRingEnd ℂ (z ^ d * sys.eval z)) * (starRingEnd ℂ z) ^ n)
    rw [← t2, ← ofReal_sub, norm_real, Real.norm_eq_abs] at t3
    refine t3.trans ((add_le_add b1 b2).trans (le_of_eq ?_))
    ring
  · have hk' : k < L := by simpa using hk
    rw [← hcos k]
    congr 1
    simp [sig, hk']

/-- **C82**, the converse: with a pole on or outside the unit circle that no zero cancels, inputs bounded by one produce outputs above
every bound. -/
theorem C82_unstable (sys : TransferFn ℝ) (hlead : sig sys.den (sys.den.length - 1) ≠ 0) (p : ℂ) (hp : 1 ≤ ‖p‖)
    (hden : polyEval Complex.ofReal sys.den p = 0) (hnum : polyEval Complex.ofReal sys.num p ≠ 0) (M : ℝ) :
    ∃ x y : List ℝ, IsResponse sys.num sys.den x y ∧ (∀ v ∈ x, |v| ≤ 1) ∧ ∃ w ∈ y, M < |w| := by
  by_contra hcon
  push Not at hcon
  obtain ⟨ps, h⟩ := Stab.exists_factored sys.den hlead
  obtain ⟨g, hg⟩ : ∃ g : ℕ → ℂ, g = Stab.imp sys.num (sig sys.den (sys.den.length - 1)) ps := ⟨_, rfl⟩
  have hex : ∀ x : List ℝ, ∃ y, IsResponse sys.num sys.den x y := fun x => by
    obtain ⟨y, _, -, h⟩ := C20_directFormI sys hlead sys.order le_rfl x
    exact ⟨y, h⟩
  -- the impulse response is real
  have hreal : ∀ n, ∃ v : ℝ, g n = v := by
    intro n
    obtain ⟨y, hy⟩ := hex (1 :: List.replicate n 0)
    refine ⟨sig y n, ?_⟩
    have := Stab.resp_eq h hy (fun n => if n = 0 then 1 else 0) (fun k hk => ?_) n (by simp)
    · rw [this, hg]; rfl
    · rcases k with _ | k
      · simp [sig]
      · have hk : k < n := by simpa using hk
        simp [sig, hk]
  choose v hv using hreal
  refine hnum (Stab.no_outer_pole sys.num h M (fun L => ?_) p hp hden)
  rcases L with _ | L
  · rw [Finset.sum_range_zero]
    obtain ⟨y, hy⟩ := hex [0]
    have := hcon [0] y hy (by simp)
    have hne : y ≠ [] := by
      intro h0
      have := hy.1
      rw [h0] at this
      simp at this
    obtain ⟨w, hw⟩ := List.exists_mem_of_ne_nil y hne
    exact (abs_nonneg w).trans (this w hw)
  · -- an input that collects the magnitudes
    obtain ⟨x, hx⟩ : ∃ x : List ℝ, x = (List.range (L + 1)).map fun k : ℕ => if 0 ≤ v (L - k) then (1 : ℝ) else -1 := ⟨_, rfl⟩
    obtain ⟨y, hy⟩ := hex x
    have hb := hcon x y hy (by
      intro w hw
      rw [hx] at hw
      obtain ⟨k, -, rfl⟩ := List.mem_map.1 hw
      split <;> simp)
    have hxl : x.length = L + 1 := by rw [hx]; simp
    have hL : L < y.length := by rw [hy.1, hxl]; omega
    have hw := hb y[L] (List.getElem_mem _)
    have e := Stab.resp_eq h hy _ (ext_seq x) L (by omega)
    rw [Stab.resp_conv sys.num h, ← hg] at e
    have e2 : sig y L = ∑ k ∈ Finset.range (L + 1), |v k| := by
      have : ((sig y L : ℝ) : ℂ) = ((∑ k ∈ Finset.range (L + 1), |v k| : ℝ) : ℂ) := by
        rw [e]
        push_cast
        refine Finset.sum_congr rfl fun k hk => ?_
        have hk := Finset.mem_range.1 hk
        have hs : sig x (L - k) = if 0 ≤ v k then (1 : ℝ) else -1 := by
          have h1 : L - k < L + 1 := by omega
          have h2 : L - (L - k) = k := by omega
          simp [hx, sig, h1, h2]
        rw [hs, hv, ← ofReal_mul]
        congr 1
        split
        · rename_i h0
          rw [abs_of_nonneg h0, mul_one]
        · rename_i h0
          rw [abs_of_neg (by linarith)]; ring
      exact_mod_cast this
    have e3 : y[L] = sig y L := by simp [sig, hL]
    rw [e3, e2] at hw
    refine (le_of_eq ?_).trans ((le_abs_self _).trans hw)
    refine Finset.sum_congr rfl fun k _ => ?_
    rw [← hg, hv, norm_real, Real.norm_eq_abs]

/-- a delayed input gives the delayed output -/
theorem isResponse_delay {b a x y : List ℝ} (h : IsResponse b a x y) (m : ℕ) :
    IsResponse b a (List.replicate m 0 ++ x) (List.replicate m 0 ++ y) := by
  have hz : ∀ (u : List ℝ) (i : ℤ), sigI (List.replicate m 0 ++ u) i = sigI u (i - m) := by
    intro u i
    unfold sigI
    by_cases h0 : 0 ≤ i
    · rw [if_pos h0]
      obtain ⟨k, rfl⟩ := Int.eq_ofNat_of_zero_le h0
      by_cases h1 : (0 : ℤ) ≤ k - m
      · rw [if_pos h1]
        have e : ((k : ℤ) - m).toNat = k - m := by omega
        have hk : ¬ k < m := by omega
        rw [e]
        simp [sig, List.getElem?_append, hk]
      · rw [if_neg h1]
        have hk : k < m := by omega
        simp [sig, List.getElem?_append, hk]
    · rw [if_neg h0, if_neg (by omega)]
  refine ⟨by simp [h.1], fun n hn => ?_⟩
  simp only [hz]
  rcases Nat.lt_or_ge n m with hnm | hnm
  · have z : ∀ (u : List ℝ) (k : ℕ), sigI u ((n : ℤ) - k - m) = 0 := fun u k => by
      unfold sigI
      rw [if_neg (by omega)]
    simp only [z, mul_zero, Finset.sum_const_zero]
  · have hn' : n - m < x.length := by
      simp at hn
      omega
    have := h.2 (n - m) hn'
    have e : ∀ k : ℕ, (n : ℤ) - k - m = ((n - m : ℕ) : ℤ) - k := by intro k; omega
    simp only [e]
    exact this

/-- **C82**: what was filtered before does not matter for long: after any earlier input `u` the output for `x` approaches that of a fresh
filter exponentially. -/
theorem C82_history (sys : TransferFn ℝ) (hlead : sig sys.den (sys.den.length - 1) ≠ 0) (hst : sys.IsStable) :
    ∃ M r : ℝ, 0 < r ∧ r < 1 ∧ ∀ (u x : List ℝ) (B : ℝ), (∀ v ∈ u, |v| ≤ B) → 0 ≤ B →
      ∃ y₁ s₁ y₂ s₂ y s, DirectFormI.feed sys u (DirectFormI.make sys.order) = .ok (y₁, s₁) ∧ DirectFormI.feed sys x s₁ = .ok (y₂, s₂) ∧
        DirectFormI.feed sys x (DirectFormI.make sys.order) = .ok (y, s) ∧ y₂.length = x.length ∧ y.length = x.length ∧
        ∀ n, n < x.length → |sig y₂ n - sig y n| ≤ M * B * r ^ n := by
  obtain ⟨M, r, h0, h1, h⟩ := C82_forgets sys hlead hst
  have hden : sys.den ≠ [] := by
    intro h0
    rw [h0] at hlead
    simp [sig] at hlead
  refine ⟨M, r, h0, h1, fun u x B hu hB => ?_⟩
  obtain ⟨y₁, s₁, e1, r1⟩ := C20_directFormI sys hlead sys.order le_rfl u
  obtain ⟨y, s, e3, r3⟩ := C20_directFormI sys hlead sys.order le_rfl x
  obtain ⟨z, t, e4, r4⟩ := C20_directFormI sys hlead sys.order le_rfl (u ++ x)
  have hc := C23_chunks_directFormI sys (DirectFormI.make sys.order) (C23_fresh_accepts sys hden sys.order le_rfl).1 [u, x]
  have hfl : [u, x].flatten = u ++ x := by simp
  rw [hfl, e4] at hc
  simp only [iirStream, iirFilter] at hc
  rw [cassert_true (by simp), Out.ok_bind, e1, Out.ok_bind] at hc
  simp only at hc
  rw [cassert_true (by simp), Out.ok_bind, Out.bind_eq_ok] at hc
  obtain ⟨⟨ys, s'⟩, hc1, hc2⟩ := hc
  rw [Out.bind_eq_ok] at hc1
  obtain ⟨⟨y₂, s₂⟩, hc3, hc4⟩ := hc1
  simp only [Out.ok_bind, Out.pure_def, Out.ok.injEq, Prod.mk.injEq, List.append_nil] at hc2 hc4
  obtain ⟨rfl, rfl⟩ := hc4
  obtain ⟨rfl, rfl⟩ := hc2
  have l1 : y₁.length = u.length := r1.1
  have l2 : y₂.length = x.length := by
    have := r4.1
    simp at this
    omega
  refine ⟨y₁, s₁, y₂, s₂, y, s, e1, hc3, e3, l2, r3.1, fun n hn => ?_⟩
  have hd := isResponse_delay r3 u.length
  have key := h _ _ _ _ B u.length r4 hd (by simp) (fun k hk => ?_) (fun k hk => ?_) hB (u.length + n) (by omega) (by simp; omega)
  · have a1 : sig (y₁ ++ y₂) (u.length + n) = sig y₂ n := by simp [sig, List.getElem?_append, ← l1]
    have a2 : sig (List.replicate u.length 0 ++ y) (u.length + n) = sig y n := by simp [sig, List.getElem?_append]
    rw [a1, a2, Nat.add_sub_cancel_left] at key
    exact key
  · have a1 : sig (u ++ x) k = u[k] := by simp [sig, List.getElem?_append, hk]
    have a2 : sig (List.replicate u.length 0 ++ x) k = 0 := by simp [sig, List.getElem?_append, hk]
    rw [a1, a2, sub_zero]
    exact hu _ (List.getElem_mem _)
  · simp [sig, List.getElem?_append, not_lt.2 hk]

/-! ### designed filters -/

theorem re_polar (H : ℂ) (A θ : ℝ) : (H * (A * exp (θ * I))).re = A * ‖H‖ * Real.cos (θ + arg H) := by
  conv_lhs => rw [← norm_mul_exp_arg_mul_I H]
  rw [show (‖H‖ : ℂ) * exp (arg H * I) * (A * exp (θ * I)) = ((A * ‖H‖ : ℝ) : ℂ) * exp (((θ + arg H : ℝ) : ℂ) * I) by
    push_cast
    rw [add_mul, exp_add]
    ring, re_ofReal_mul, exp_ofReal_mul_I_re]

/-- **C82**, all realizations of a stable zero/pole/gain system with as many zeros as poles: for every sinusoid all of them give one
and the same output, which approaches the sinusoid with amplitude and phase changed as the frequency response says. -/
theorem C82_realizations (sort : List Poly3 → List Poly3) (hsort : ∀ l, (sort l).Perm l) (f : Zpk) (hf : f.Reachable) (hst : f.Stable)
    (h0 : f.order ≠ 0) (hn : f.zeros.numRoots = f.poles.numRoots) :
    ∃ sys secs, TransferFn.ofZpk f = .ok sys ∧ cascadedBiquad sort f = .ok secs ∧
    ∃ M r : ℝ, 0 < r ∧ r < 1 ∧ ∀ (A w φ : ℝ) (x : List ℝ), x = ((List.range x.length).map fun n : ℕ => A * Real.cos (w * n + φ)) →
      ∃ y s₁ s₂ s₃, DirectFormI.feed sys x (DirectFormI.make sys.order) = .ok (y, s₁) ∧
        DirectFormII.feed sys x (DirectFormII.make sys.order) = .ok (y, s₂) ∧
        CascadedForm.feed secs x (CascadedForm.make (biquadsOrder secs)) = .ok (y, s₃) ∧ y.length = x.length ∧
        ∀ n, n < x.length → |sig y n - A * ‖response f w‖ * Real.cos (w * n + φ + arg (response f w))| ≤ M * |A| * r ^ n := by
  have hz := C27_reachable_wf hf.1
  have hp := C27_reachable_wf hf.2
  obtain ⟨sys, a1, a2, a3, a4, a5, a6⟩ := C24_transferFunction f hf
  obtain ⟨secs, b1, b2, -⟩ := C25_value_partial sort hsort f hf h0
  obtain ⟨cn, d1, d1', -⟩ := expandPolynomial_coeffs hz
  obtain ⟨cd, d2, d2', -⟩ := expandPolynomial_coeffs hp
  have hsys : sys = ⟨cn.map fun c => c * f.gain, cd⟩ := by
    have := a1
    unfold TransferFn.ofZpk at this
    rw [d1, Out.ok_bind, d2, Out.ok_bind] at this
    cases this
    rfl
  have hlead : sig sys.den (sys.den.length - 1) ≠ 0 := by
    have : sig sys.den (sys.den.length - 1) = 1 := by
      rw [hsys]
      exact expand_monic hp d2
    rw [this]
    exact one_ne_zero
  have hstab : sys.IsStable := by
    intro z hz1 hz2
    rw [a4] at hz2
    unfold rootProduct at hz2
    rw [List.prod_eq_zero_iff] at hz2
    obtain ⟨q, hq1, hq2⟩ := List.mem_map.1 hz2
    have := hst q hq1
    rw [sub_eq_zero.1 hq2] at hz1
    linarith
  obtain ⟨M, r, h1, h2, h3⟩ := C82_steady_state sys hlead hstab
  refine ⟨sys, secs, a1, b1, M, r, h1, h2, fun A w φ x hx => ?_⟩
  obtain ⟨sys', secs', y, s1, s2, s3, c1, c2, c3, c4, c5, c6⟩ := C25_realizations_agree sort hsort f hf h0 x
  rw [a1] at c1
  rw [b1] at c2
  cases c1
  cases c2
  refine ⟨y, s1, s2, s3, c3, c4, c5, c6.1, fun n hn' => ?_⟩
  have c7 := c6
  rw [hx] at c7
  have key := h3 A w φ x.length y c7 n hn'
  have hd : (sys.den.length : ℂ) - 1 - ((sys.num.length - 1 : ℕ) : ℂ) = 0 := by
    rw [hsys]
    simp only [List.length_map]
    rw [d1', d2', hn]
    simp
  have e : sys.eval (exp (w * I)) = response f w := by rw [a5]; rfl
  rw [hd, e, add_zero] at key
  have e2 := re_polar (response f w) A (w * n + φ)
  push_cast at e2
  rw [e2] at key
  exact key

/-- **C82** for Butterworth low pass filters of every order and cutoff: a sinusoid leaves the filter with its squared amplitude divided by
`1 + (tan (w/2) / tan (wc/2))^(2n)`, up to a transient that vanishes exponentially. -/
theorem C82_butterworth_lowpass (n : ℕ) (hn : 0 < n) (c : ℝ) (hc0 : 0 < c) (hc1 : c < 1) :
    ∃ f sys, designLowpass butterworth n c = .ok f ∧ TransferFn.ofZpk f = .ok sys ∧
    ∃ M r : ℝ, 0 < r ∧ r < 1 ∧ ∀ (A w φ : ℝ) (x : List ℝ), Real.cos (w / 2) ≠ 0 →
      x = ((List.range x.length).map fun n : ℕ => A * Real.cos (w * n + φ)) →
      ∃ y s θ g, DirectFormII.feed sys x (DirectFormII.make sys.order) = .ok (y, s) ∧ y.length = x.length ∧
        0 ≤ g ∧ g ^ 2 = 1 / (1 + (Real.tan (w / 2) / Real.tan (c * Real.pi / 2)) ^ (2 * n)) ∧
        ∀ k, k < x.length → |sig y k - A * g * Real.cos (w * k + φ + θ)| ≤ M * |A| * r ^ k := by
  obtain ⟨proto, p1, p2⟩ := butterworth_isPrototype n
  obtain ⟨f, a1, a2, a3, a4, a5, a6⟩ := C61_lowpass butterworth n proto p1 p2 c hc0 hc1
  have h0 : f.order ≠ 0 := by
    unfold Zpk.order
    omega
  obtain ⟨sys, secs, b1, b2, M, r, h1, h2, h3⟩ := C82_realizations id (fun _ => .refl _) f a2 a5 h0 (by omega)
  refine ⟨f, sys, a1, b1, M, r, h1, h2, fun A w φ x hw hx => ?_⟩
  obtain ⟨y, s1, s2, s3, c1, c2, c3, c4, c5⟩ := h3 A w φ x hx
  refine ⟨y, s2, arg (response f w), ‖response f w‖, c2, c4, norm_nonneg _, ?_, c5⟩
  rw [a6 w hw, C55_magnitude n hn proto p1]

/-- **C82**, FIR filters: from the sample at which the filter overlaps only the sinusoid on, the output is exactly the sinusoid that the
frequency response predicts, whatever the filter was fed before. -/
theorem C82_fir (h history x : List ℝ) (hh : history.length = h.length - 1) (A w φ : ℝ)
    (hx : x = ((List.range x.length).map fun n : ℕ => A * Real.cos (w * n + φ))) (n : ℕ) (hn : n < x.length) (hn' : h.length ≤ n + 1) :
    sig (firOutput h history x) n =
      ((∑ j ∈ Finset.range h.length, ((sig h j : ℝ) : ℂ) * exp (-(w * j) * I)) * (A * exp ((w * n + φ) * I))).re := by
  have hxs : ∀ k, k < x.length → sig x k = A * Real.cos (w * k + φ) := by
    intro k hk
    rw [hx]
    simp [sig, hk]
  have e1 : sig (firOutput h history x) n = ∑ j ∈ Finset.range h.length, sig h j * sig (history ++ x) (h.length - 1 + n - j) := by
    simp [firOutput, sig, hn]
  rw [e1, Finset.sum_mul, re_sum]
  refine Finset.sum_congr rfl fun j hj => ?_
  have hj := Finset.mem_range.1 hj
  have e2 : sig (history ++ x) (h.length - 1 + n - j) = sig x (n - j) := by
    have : ¬ h.length - 1 + n - j < h.length - 1 := by omega
    have e : h.length - 1 + n - j - (h.length - 1) = n - j := by omega
    simp [sig, List.getElem?_append, hh, this, e]
  rw [e2, hxs _ (by omega), Nat.cast_sub (by omega : j ≤ n)]
  have e3 : ((sig h j : ℝ) : ℂ) * exp (-(w * j) * I) * (A * exp ((w * n + φ) * I)) =
      ((sig h j * A : ℝ) : ℂ) * exp (((w * (n - j) + φ : ℝ) : ℂ) * I) := by
    rw [show ((w * (n - j) + φ : ℝ) : ℂ) * I = -(w * j) * I + (w * n + φ) * I by push_cast; ring, exp_add]
    push_cast
    ring
  rw [e3, re_ofReal_mul, exp_ofReal_mul_I_re]
  ring

/-- The one-pole filter `y n = y (n-1) / 2 + x n` is stable ... -/
example : (⟨[0, 1], [-1 / 2, 1]⟩ : TransferFn ℝ).IsStable ∧ sig [(-1 / 2 : ℝ), 1] 1 ≠ 0 := by
  refine ⟨fun z hz h => ?_, by simp [sig]⟩
  have h2 := polyEval_sum z [(-1 / 2 : ℝ), 1]
  rw [show (algebraMap ℝ ℂ : ℝ → ℂ) = Complex.ofReal from rfl] at h2
  rw [h2] at h
  simp [Finset.sum_range_succ, sig] at h
  have : z = ((1 / 2 : ℝ) : ℂ) := by
    push_cast
    linear_combination h
  rw [this, norm_real] at hz
  norm_num at hz

/-- ... and the integrator `y n = y (n-1) + x n` is not: its pole is on the circle and not cancelled. -/
example : polyEval Complex.ofReal [-1, 1] (1 : ℂ) = 0 ∧ polyEval Complex.ofReal [0, 1] (1 : ℂ) ≠ 0 := by
  have h := fun a : List ℝ => polyEval_sum (1 : ℂ) a
  rw [show (algebraMap ℝ ℂ : ℝ → ℂ) = Complex.ofReal from rfl] at h
  rw [h, h]
  simp [Finset.sum_range_succ, sig]

end Verif
