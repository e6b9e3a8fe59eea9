import Verif.Lemmas.FitLoss
import Verif.Props.SolversRounded
import Verif.Props.MeasureEdges

/-!
# C80: band edges are fitted by least squares
-/

set_option linter.unusedSimpArgs false
set_option linter.unusedVariables false

namespace Verif

/-- Up to a positive factor the function whose root `FitBand` looks for is the derivative, with respect to the width of the edge, of the
sum of the squared errors - for every band, on both sides, for pass bands and stop bands. -/
theorem C80_loss_is_derivative (band : List ℝ) (pass left : Bool) (threshold : ℝ) {p : ℝ} (hp : 0 < p) :
    HasDerivAt (squaredError band pass left threshold)
      (4 / (Real.sqrt Real.pi * p ^ 2) * fitLoss band (!left) (!pass) threshold p) p :=
  hasDerivAt_squaredError band pass left threshold hp

/-- The loss of the mirrored band at the other side is the same. -/
theorem C80_mirror (band : List ℝ) (pass left : Bool) (threshold p : ℝ) :
    fitLoss band.reverse left (!pass) threshold p = fitLoss band (!left) (!pass) threshold p := by
  have h := fitLoss_eq_sum band.reverse pass (!left) threshold p
  rw [Bool.not_not] at h
  rw [h, fitLoss_eq_sum, List.length_reverse, ← Finset.sum_range_reflect]
  refine Finset.sum_congr rfl fun i hi => ?_
  have hi : i < band.length := Finset.mem_range.mp hi
  have e1 : edgeDistance (!left) band.length (band.length - 1 - i) = edgeDistance left band.length i := by
    cases left
    · simp only [edgeDistance, Bool.not_false, Bool.false_eq_true, if_true, if_false]
      rw [Nat.sub_sub, Nat.cast_sub (by omega)]; push_cast; ring
    · simp only [edgeDistance, Bool.not_true, Bool.false_eq_true, if_true, if_false]
      rw [Nat.sub_sub, Nat.cast_sub (by omega)]; push_cast; ring
  have e2 : sig band.reverse (band.length - 1 - i) = sig band i := by
    unfold sig
    rw [List.getD_eq_getElem?_getD, List.getD_eq_getElem?_getD, List.getElem?_reverse (by omega)]
    congr 2; omega
  rw [e1, e2]

/-- the upper end of the search: 66 % of the way from the edge to the first peak (largest bin of a pass band, smallest of a stop band) -/
noncomputable def searchEnd (left : Bool) (n peak : ℕ) : ℝ := 66 / 100 * (if left then (peak : ℝ) else (n : ℝ) - peak)

theorem fitBand_eq (loss : List ℝ → Bool → Bool → ℝ → ℝ → ℝ) (bis : (ℝ → ℝ) → ℝ → ℝ → Out ℝ) (band : List ℝ) (hb : band ≠ [])
    (pass left : Bool) (threshold : ℝ) :
    fitBand loss bis band pass left threshold = bis (loss band (!left) (!pass) threshold) (1 / 2)
      (searchEnd left band.length (extremeElement (if pass then less else greater) band)) := by
  have hpk := (isPeak_extremeElement pass band hb).1
  simp only [fitBand, searchEnd]
  cases left
  · simp only [Bool.false_eq_true, if_false]
    rw [Nat.cast_sub hpk.le]
  · rfl

/-- Whatever the band: `FitBand` returns, and if the squared error falls at one end of the search and rises at the other, then what it
returns is within three roundings of a width at which the squared error is stationary. -/
theorem C80_stationary {A : BisectArith ℝ} (hA : A.Between) (values : Finset ℝ) (hv : ∀ a b, A.dist a b ∈ values)
    (band : List ℝ) (hb : band ≠ []) (pass left : Bool) (threshold : ℝ) :
    ∃ peak, IsPeak pass band peak ∧ ∃ p,
      fitBand fitLoss (fun f a b => bisect A (values.card + 1) f a b 0) band pass left threshold = .ok p ∧
      ∀ δ, A.Accurate (1 / 2) (searchEnd left band.length peak) δ → 0 < searchEnd left band.length peak →
        |searchEnd left band.length peak - 1 / 2| / 2 + 2 * δ < A.top →
        deriv (squaredError band pass left threshold) (1 / 2) *
          deriv (squaredError band pass left threshold) (searchEnd left band.length peak) ≤ 0 →
        ∃ z, HasDerivAt (squaredError band pass left threshold) 0 z ∧ |p - z| ≤ 3 * δ := by
  refine ⟨_, isPeak_extremeElement pass band hb, ?_⟩
  rw [fitBand_eq _ _ band hb]
  obtain ⟨e, he⟩ : ∃ e, e = searchEnd left band.length (extremeElement (if pass then less else greater) band) := ⟨_, rfl⟩
  rw [← he]
  obtain ⟨p, hp⟩ := C58_terminates A (fitLoss band (!left) (!pass) threshold) (1 / 2) e 0 values hv
  refine ⟨p, hp, fun δ hδ hpos htop hsign => ?_⟩
  have hsub : Set.uIcc (1 / 2) e ⊆ Set.Ioi (0 : ℝ) := by
    intro x hx
    have : min (1 / 2) e ≤ x := hx.1
    exact lt_of_lt_of_le (lt_min (by norm_num) hpos) this
  have hs : fitLoss band (!left) (!pass) threshold (1 / 2) * fitLoss band (!left) (!pass) threshold e ≤ 0 := by
    rw [(hasDerivAt_squaredError band pass left threshold (by norm_num : (0 : ℝ) < 1 / 2)).deriv,
      (hasDerivAt_squaredError band pass left threshold hpos).deriv] at hsign
    have hsq := Real.sqrt_pos.mpr Real.pi_pos
    obtain ⟨u, hu⟩ : ∃ u, u = 4 / (Real.sqrt Real.pi * (1 / 2 : ℝ) ^ 2) := ⟨_, rfl⟩
    obtain ⟨v, hv⟩ : ∃ v, v = 4 / (Real.sqrt Real.pi * e ^ 2) := ⟨_, rfl⟩
    have hu0 : 0 < u := by rw [hu]; positivity
    have hv0 : 0 < v := by rw [hv]; positivity
    rw [← hu, ← hv] at hsign
    by_contra hcon
    have h1 := mul_pos (mul_pos hu0 hv0) (not_le.mp hcon)
    have h2 : u * v * (fitLoss band (!left) (!pass) threshold (1 / 2) * fitLoss band (!left) (!pass) threshold e) =
      u * fitLoss band (!left) (!pass) threshold (1 / 2) * (v * fitLoss band (!left) (!pass) threshold e) := by ring
    linarith
  obtain ⟨z, hz1, hz2, hz3⟩ := C58_rounded_root hA hδ _ _ le_rfl htop ((fitLoss_continuousOn band pass left threshold).mono hsub) hs hp
  refine ⟨z, ?_, by linarith⟩
  have := hasDerivAt_squaredError band pass left threshold (hsub hz1)
  rwa [hz2, mul_zero] at this

/-- the sign hypothesis of `C80_stationary` is met, e.g., by every band with an edge of the assumed shape whose width is in the interval -/
example {band : List ℝ} {pass left : Bool} {threshold p₀ e : ℝ} (h : ErfEdge band pass left threshold p₀) (hn : 2 ≤ band.length)
    (h₁ : 1 / 2 < p₀) (h₂ : p₀ < e) :
    deriv (squaredError band pass left threshold) (1 / 2) * deriv (squaredError band pass left threshold) e ≤ 0 := by
  have he : 0 < e := by linarith
  rw [(hasDerivAt_squaredError band pass left threshold (by norm_num : (0 : ℝ) < 1 / 2)).deriv,
    (hasDerivAt_squaredError band pass left threshold he).deriv]
  have hs := Real.sqrt_pos.mpr Real.pi_pos
  have a1 := (fitLoss_sign h (by linarith) hn (by norm_num : (0 : ℝ) < 1 / 2)).1 h₁
  have a2 := (fitLoss_sign h (by linarith) hn he).2 h₂
  exact mul_nonpos_of_nonpos_of_nonneg (mul_nonpos_of_nonneg_of_nonpos (by positivity) a1.le) (mul_nonneg (by positivity) a2.le)

/-- where the peak of a band with a single edge is: at the end away from the edge -/
theorem ErfEdge.peak {band : List ℝ} {pass left : Bool} {threshold p₀ : ℝ} (h : ErfEdge band pass left threshold p₀) (h₀ : 0 < p₀)
    (ht : 0 < threshold ∧ threshold < 1) {m : ℕ} (hm : IsPeak pass band m) : m = if left then band.length - 1 else 0 := by
  have hmono : ∀ i j, i < band.length → j < band.length → edgeDistance left band.length i < edgeDistance left band.length j →
      relativeHeight pass threshold (sig band i) < relativeHeight pass threshold (sig band j) := by
    intro i j hi hj hij
    rw [h i hi, h j hj]
    exact erf_strictMono (div_lt_div_of_pos_right hij h₀)
  have hrel : ∀ y z : ℝ, relativeHeight pass threshold y < relativeHeight pass threshold z → if pass then y < z else z < y := by
    intro y z hyz
    cases pass
    · simp only [relativeHeight, Bool.false_eq_true, if_false] at hyz ⊢
      have := (div_lt_div_iff_of_pos_right ht.1).mp hyz
      linarith
    · simp only [relativeHeight, if_true] at hyz ⊢
      have := (div_lt_div_iff_of_pos_right (sub_pos.mpr ht.2)).mp hyz
      linarith
  have hlt := hm.1
  by_contra hne
  obtain ⟨k, hk, hkm⟩ : ∃ k, k < band.length ∧ edgeDistance left band.length m < edgeDistance left band.length k := by
    cases left
    · simp only [Bool.false_eq_true, if_false] at hne
      refine ⟨0, by omega, ?_⟩
      have : (0 : ℝ) < m := by exact_mod_cast Nat.pos_of_ne_zero hne
      simp only [edgeDistance, Bool.false_eq_true, if_false, Nat.cast_zero]; linarith
    · simp only [if_true] at hne
      refine ⟨band.length - 1, by omega, ?_⟩
      simp only [edgeDistance, if_true]
      exact_mod_cast (by omega : m < band.length - 1)
  have h1 := hrel _ _ (hmono m k hlt hk hkm)
  have h2 := hm.2.1 k hk
  cases pass
  · simp only [Bool.false_eq_true, if_false] at h1 h2; linarith
  · simp only [if_true] at h1 h2; linarith

/-- The edge of a band that has the assumed shape is recovered: the width that `FitBand` returns is within `ε + 3 δ` of the true one, where
`δ` is the accuracy of the arithmetic and `ε` allows for an inexact evaluation of the loss, whose sign is only relied on further
than `ε` from the true width.  The width must lie in the interval searched. -/
theorem C80_recovers {A : BisectArith ℝ} (hA : A.Between) (values : Finset ℝ) (hv : ∀ a b, A.dist a b ∈ values)
    (loss : List ℝ → Bool → Bool → ℝ → ℝ → ℝ) (band : List ℝ) (hn : 2 ≤ band.length) (pass left : Bool) {threshold p₀ δ ε : ℝ}
    (ht : 0 < threshold ∧ threshold < 1) (h : ErfEdge band pass left threshold p₀) (hε : 0 ≤ ε)
    (hlow : 1 / 2 + ε < p₀) (hhigh : p₀ + ε < 66 / 100 * (if left then (band.length : ℝ) - 1 else (band.length : ℝ)))
    (hδ : A.Accurate (1 / 2) (66 / 100 * (if left then (band.length : ℝ) - 1 else (band.length : ℝ))) δ)
    (htop : (band.length : ℝ) / 2 + 2 * δ < A.top)
    (hloss : ∀ p, 0 < p → ε < |p - p₀| → 0 < loss band (!left) (!pass) threshold p * fitLoss band (!left) (!pass) threshold p) :
    ∃ p, fitBand loss (fun f a b => bisect A (values.card + 1) f a b 0) band pass left threshold = .ok p ∧ |p - p₀| ≤ ε + 3 * δ := by
  have hne : band ≠ [] := by rintro rfl; simp at hn
  have h₀ : 0 < p₀ := by linarith
  have hn' : (2 : ℝ) ≤ band.length := by exact_mod_cast hn
  have hpk := isPeak_extremeElement pass band hne
  have hp := h.peak h₀ ht hpk
  have hend : searchEnd left band.length (extremeElement (if pass then less else greater) band) =
      66 / 100 * (if left then (band.length : ℝ) - 1 else (band.length : ℝ)) := by
    rw [hp]
    cases left
    · simp [searchEnd]
    · simp only [searchEnd, if_true]; rw [Nat.cast_sub (by omega)]; simp
  rw [fitBand_eq _ _ band hne, hend]
  obtain ⟨e, he⟩ : ∃ e, e = 66 / 100 * (if left then (band.length : ℝ) - 1 else (band.length : ℝ)) := ⟨_, rfl⟩
  have hele : e ≤ band.length := by rw [he]; split <;> linarith
  rw [← he] at hhigh hδ ⊢
  obtain ⟨p, hb⟩ := C58_terminates A (loss band (!left) (!pass) threshold) (1 / 2) e 0 values hv
  refine ⟨p, hb, ?_⟩
  have hpos : ∀ x ∈ Set.uIcc (1 / 2) e, 0 < x := by
    intro x hx
    have : min (1 / 2) e ≤ x := hx.1
    exact lt_of_lt_of_le (lt_min (by norm_num) (by linarith)) this
  have hneg : ∀ x, 0 < x → x < p₀ - ε → loss band (!left) (!pass) threshold x < 0 := by
    intro x hx hlt
    have h1 := hloss x hx (by rw [abs_sub_comm, lt_abs]; left; linarith)
    have h2 := (fitLoss_sign h h₀ hn hx).1 (by linarith)
    by_contra hcon
    exact absurd h1 (not_lt.mpr (mul_nonpos_of_nonneg_of_nonpos (not_lt.mp hcon) h2.le))
  have hposl : ∀ x, 0 < x → p₀ + ε < x → 0 < loss band (!left) (!pass) threshold x := by
    intro x hx hlt
    have h1 := hloss x hx (by rw [lt_abs]; left; linarith)
    have h2 := (fitLoss_sign h h₀ hn hx).2 (by linarith)
    by_contra hcon
    exact absurd h1 (not_lt.mpr (mul_nonpos_of_nonpos_of_nonneg (not_lt.mp hcon) h2.le))
  have := C58_noisy_root hA hδ _ _ (σ := 1) (z := p₀) (ε := ε) le_rfl hε
    (by rw [abs_of_pos (by linarith)]; linarith) (Set.mem_uIcc.mpr (Or.inl ⟨by linarith, by linarith⟩))
    (fun x hx hlt => by rw [one_mul]; exact hneg x (hpos x hx) hlt)
    (fun x hx hlt => by rw [one_mul]; exact hposl x (hpos x hx) hlt)
    (mul_nonpos_of_nonpos_of_nonneg (hneg _ (by norm_num) (by linarith)).le (hposl _ (by linarith) hhigh).le) hb
  linarith

/-- The edges reported for such a band: a left edge within `3/2 (ε + 3 δ)` bins of `3/2 p₀`, a right edge as near to `n - 3/2 p₀`. -/
theorem C80_edges {A : BisectArith ℝ} (hA : A.Between) (values : Finset ℝ) (hv : ∀ a b, A.dist a b ∈ values)
    (loss : List ℝ → Bool → Bool → ℝ → ℝ → ℝ) (band : List ℝ) (hn : 2 ≤ band.length) (pass left : Bool) {threshold p₀ δ ε : ℝ}
    (ht : 0 < threshold ∧ threshold < 1) (h : ErfEdge band pass left threshold p₀) (hε : 0 ≤ ε)
    (hlow : 1 / 2 + ε < p₀) (hhigh : p₀ + ε < 66 / 100 * (if left then (band.length : ℝ) - 1 else (band.length : ℝ)))
    (hδ : A.Accurate (1 / 2) (66 / 100 * (if left then (band.length : ℝ) - 1 else (band.length : ℝ))) δ)
    (htop : (band.length : ℝ) / 2 + 2 * δ < A.top)
    (hloss : ∀ p, 0 < p → ε < |p - p₀| → 0 < loss band (!left) (!pass) threshold p * fitLoss band (!left) (!pass) threshold p) :
    ∃ edge, findBandEdgesFit loss (fun f a b => bisect A (values.card + 1) f a b 0) band left (!left) pass threshold =
        .ok (if left then (some edge, none) else (none, some edge)) ∧
      |edge - (if left then 3 / 2 * p₀ else (band.length : ℝ) - 3 / 2 * p₀)| ≤ 3 / 2 * (ε + 3 * δ) := by
  obtain ⟨p, hp, hle⟩ := C80_recovers hA values hv loss band hn pass left ht h hε hlow hhigh hδ htop hloss
  rw [abs_le] at hle
  cases left
  · refine ⟨max 0 ((band.length : ℝ) - 3 / 2 * p), ?_, ?_⟩
    · simp only [findBandEdgesFit, Bool.false_eq_true, if_false, Bool.not_false, if_true, hp, Out.pure_def, Out.ok_bind]
      rfl
    · simp only [Bool.false_eq_true, if_false] at hhigh ⊢
      rw [abs_le]
      have := le_max_right 0 ((band.length : ℝ) - 3 / 2 * p)
      have := max_le (a := 0) (b := (band.length : ℝ) - 3 / 2 * p) (c := (band.length : ℝ) - 3 / 2 * p₀ + 3 / 2 * (ε + 3 * δ))
        (by have := hδ.nonneg; linarith) (by linarith)
      constructor <;> linarith
  · refine ⟨min (band.length : ℝ) (3 / 2 * p), ?_, ?_⟩
    · simp only [findBandEdgesFit, Bool.not_true, Bool.false_eq_true, if_false, if_true, hp, Out.pure_def, Out.ok_bind]
      rfl
    · simp only [if_true] at hhigh ⊢
      rw [abs_le]
      have := min_le_right (band.length : ℝ) (3 / 2 * p)
      have := le_min (a := (band.length : ℝ)) (b := 3 / 2 * p) (c := 3 / 2 * p₀ - 3 / 2 * (ε + 3 * δ))
        (by have := hδ.nonneg; linarith) (by linarith)
      constructor <;> linarith

/-- the hypotheses are met: a band of eleven bins with a left edge of width 3, on the grid arithmetic, with the exact loss -/
example : ∃ (edge : ℝ) (values : Finset ℝ), findBandEdgesFit fitLoss (fun f a b => bisect gridArith (values.card + 1) f a b 0)
      ((List.range 11).map fun i : ℕ => 1 / 2 + 1 / 2 * erf ((i : ℝ) / 3)) true false true (1 / 2) = .ok (some edge, none) ∧
    |edge - 9 / 2| ≤ 9 / 128 := by
  obtain ⟨values, hv⟩ := gridArith_values
  obtain ⟨band, hband⟩ : ∃ band : List ℝ, band = (List.range 11).map fun i : ℕ => 1 / 2 + 1 / 2 * erf ((i : ℝ) / 3) := ⟨_, rfl⟩
  have hlen : band.length = 11 := by rw [hband]; simp
  have hE : ErfEdge band true true (1 / 2) 3 := by
    intro i hi
    rw [hlen] at hi
    have : sig band i = 1 / 2 + 1 / 2 * erf ((i : ℝ) / 3) := by
      rw [hband, sig, List.getD_eq_getElem?_getD, List.getElem?_map, List.getElem?_range hi]; rfl
    simp only [relativeHeight, if_true, edgeDistance, this]
    ring
  rw [← hband]
  obtain ⟨edge, h1, h2⟩ := C80_edges gridArith_between values hv fitLoss band (by rw [hlen]; norm_num) true true (threshold := 1 / 2)
    (p₀ := 3) (δ := 1 / 64) (ε := 0) ⟨by norm_num, by norm_num⟩ hE le_rfl (by norm_num) (by rw [hlen]; norm_num)
    (by rw [hlen]; exact gridArith_accurate (by norm_num [abs_le])) (by rw [hlen]; norm_num [gridArith]) (by
      intro p hp hne
      have hne : p ≠ 3 := by rintro rfl; simp at hne
      refine mul_self_pos.mpr ?_
      rcases lt_or_gt_of_ne hne with hlt | hlt
      · exact ((fitLoss_sign hE (by norm_num) (by rw [hlen]; norm_num) hp).1 hlt).ne
      · exact ((fitLoss_sign hE (by norm_num) (by rw [hlen]; norm_num) hp).2 hlt).ne')
  refine ⟨edge, values, by simpa using h1, ?_⟩
  simp only [if_true] at h2
  rw [show (3 : ℝ) / 2 * 3 = 9 / 2 by norm_num] at h2
  refine h2.trans (by norm_num)

end Verif
