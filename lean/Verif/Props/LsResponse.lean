import Verif.Props.LeastSquares

/-!
# C65: what the least squares designs ask for
-/

namespace Verif
set_option linter.unusedSimpArgs false

theorem smoothstep_zero {x : ℝ} (h : x ≤ 0) : smoothstep x = 0 := by
  unfold smoothstep
  simp only [max_eq_left (le_trans (min_le_left x 1) h)]
  ring

theorem smoothstep_one {x : ℝ} (h : 1 ≤ x) : smoothstep x = 1 := by
  unfold smoothstep
  simp only [min_eq_right h, max_eq_right (zero_le_one' ℝ)]
  ring

theorem smoothstep_mem {x : ℝ} (h0 : 0 ≤ x) (h1 : x ≤ 1) : smoothstep x = 3 * x * x - 2 * x * x * x := by
  unfold smoothstep
  simp only [min_eq_left h1, max_eq_right h0]

theorem smoothstep_monotone : Monotone smoothstep := by
  intro x y hxy
  unfold smoothstep
  simp only []
  have h0 : ∀ z : ℝ, 0 ≤ max 0 (min z 1) ∧ max 0 (min z 1) ≤ 1 := fun z =>
    ⟨le_max_left _ _, max_le (by norm_num) (min_le_right _ _)⟩
  have h : max 0 (min x 1) ≤ max 0 (min y 1) := max_le_max_left 0 (min_le_min_right 1 hxy)
  obtain ⟨a0, a1⟩ := h0 x
  obtain ⟨b0, b1⟩ := h0 y
  generalize max 0 (min x 1) = a at *
  generalize max 0 (min y 1) = b at *
  have e : 3 * b * b - 2 * b * b * b - (3 * a * a - 2 * a * a * a) =
    (b - a) * (3 * a * (1 - a) + 3 * b * (1 - b) + (b - a) * (b - a)) := by ring
  have hp : 0 ≤ (b - a) * (3 * a * (1 - a) + 3 * b * (1 - b) + (b - a) * (b - a)) := by
    apply mul_nonneg (by linarith)
    have h1 : 0 ≤ a * (1 - a) := mul_nonneg a0 (by linarith)
    have h2 : 0 ≤ b * (1 - b) := mul_nonneg b0 (by linarith)
    nlinarith [mul_self_nonneg (b - a)]
  linarith

theorem smoothstep_reflect (x : ℝ) : smoothstep (1 - x) = 1 - smoothstep x := by
  rcases le_total x 0 with h | h
  · rw [smoothstep_zero h, smoothstep_one (by linarith)]; ring
  rcases le_total 1 x with h' | h'
  · rw [smoothstep_one h', smoothstep_zero (by linarith)]; ring
  · rw [smoothstep_mem h h', smoothstep_mem (by linarith) (by linarith)]; ring

theorem smoothstep_bounds (x : ℝ) : 0 ≤ smoothstep x ∧ smoothstep x ≤ 1 := by
  constructor
  · rcases le_total x 0 with h | h
    · rw [smoothstep_zero h]
    · rw [← smoothstep_zero (le_refl 0)]; exact smoothstep_monotone h
  · rcases le_total x 1 with h | h
    · rw [← smoothstep_one (le_refl 1)]; exact smoothstep_monotone h
    · rw [smoothstep_one h]

theorem smoothLerp_ok {x a b : ℝ} (h : a ≠ b) : smoothLerp x a b = .ok (smoothstep ((x - a) / (b - a))) := by
  unfold smoothLerp
  rw [if_neg (sub_ne_zero.2 h.symm)]
  rfl

theorem smoothLerp_flip {x a b : ℝ} (h : a ≠ b) :
    smoothstep ((x - b) / (a - b)) = 1 - smoothstep ((x - a) / (b - a)) := by
  rw [← smoothstep_reflect]
  congr 1
  have h1 : a - b ≠ 0 := sub_ne_zero.2 h
  have h2 : b - a ≠ 0 := sub_ne_zero.2 h.symm
  field_simp
  ring

/-- a response that rises from zero at `a` to one at `b` -/
structure Rises (D : ℝ → ℝ) (a b : ℝ) : Prop where
  below : ∀ f, f ≤ a → D f = 0
  above : ∀ f, b ≤ f → D f = 1
  mono : Monotone D
  mid : ∀ f, D (a + b - f) = 1 - D f
  cont : Continuous D

theorem smoothstep_rises {a b : ℝ} (h : a < b) : Rises (fun f => smoothstep ((f - a) / (b - a))) a b := by
  have hp : 0 < b - a := by linarith
  refine ⟨fun f hf => smoothstep_zero (div_nonpos_of_nonpos_of_nonneg (by linarith) hp.le), fun f hf => smoothstep_one ?_,
    fun f g hfg => smoothstep_monotone (div_le_div_of_nonneg_right (by linarith) hp.le), fun f => ?_, ?_⟩
  · rw [le_div_iff₀ hp]; linarith
  · show smoothstep _ = 1 - smoothstep _
    rw [← smoothstep_reflect]
    congr 1
    field_simp
    ring
  · have : Continuous smoothstep := by unfold smoothstep; fun_prop
    fun_prop

/-- **C65** (high pass): if the transition has a width, the wanted response is zero below it, one above it, and rises monotonically,
continuously and symmetrically about the middle of the transition (`Rises`). -/
theorem C65_highpass_partial (d : SplitDescLS ℝ) (h : d.cutoffBegin < d.cutoffEnd) :
    ∃ D : ℝ → ℝ, (∀ f, lsHighpassResponse d f = .ok (D f)) ∧ Rises D d.cutoffBegin d.cutoffEnd :=
  ⟨_, fun _ => smoothLerp_ok h.ne, smoothstep_rises h⟩

/-- **C65** (low pass): one minus the response of the high pass of the same transition. -/
theorem C65_lowpass_partial (d : SplitDescLS ℝ) (h : d.cutoffBegin < d.cutoffEnd) :
    ∃ D : ℝ → ℝ, (∀ f, lsLowpassResponse d f = .ok (D f)) ∧ Rises (fun f => 1 - D f) d.cutoffBegin d.cutoffEnd ∧
      ∀ f, ∃ y, lsHighpassResponse d f = .ok y ∧ D f + y = 1 := by
  refine ⟨_, fun _ => smoothLerp_ok h.ne', ?_, fun f => ⟨_, smoothLerp_ok h.ne, ?_⟩⟩
  · have := smoothstep_rises h
    simp only [smoothLerp_flip h.ne, sub_sub_cancel]
    exact this
  · rw [smoothLerp_flip h.ne]; ring

/-- the edges are in order and both transitions have a width -/
def BandDescLS.Proper (d : BandDescLS ℝ) : Prop := d.lowerBegin < d.lowerEnd ∧ d.lowerEnd ≤ d.upperBegin ∧ d.upperBegin < d.upperEnd

/-- **C65** (band pass): zero below and above, one in the band, rising in the lower transition and falling in the upper one. -/
theorem C65_bandpass_partial (d : BandDescLS ℝ) (h : d.Proper) :
    ∃ D U V : ℝ → ℝ, (∀ f, lsBandpassResponse d f = .ok (D f)) ∧ Rises U d.lowerBegin d.lowerEnd ∧ Rises V d.upperBegin d.upperEnd ∧
      ∀ f, D f = U f * (1 - V f) := by
  obtain ⟨h1, h2, h3⟩ := h
  have hU := smoothstep_rises h1
  have hV := smoothstep_rises h3
  refine ⟨_, _, _, fun f => ?_, hU, hV, fun f => rfl⟩
  unfold lsBandpassResponse
  simp only []
  by_cases hf : f < (d.lowerEnd + d.upperBegin) / 2
  · rw [if_pos hf, smoothLerp_ok h1.ne]
    have := hV.below f (by linarith)
    rw [this, sub_zero, mul_one]
  · rw [if_neg hf, smoothLerp_ok h3.ne', smoothLerp_flip h3.ne]
    have := hU.above f (by linarith)
    rw [this, one_mul]

/-- **C65** (band stop): one minus the response of the band pass of the same transitions. -/
theorem C65_bandstop_partial (d : BandDescLS ℝ) (h : d.Proper) (f : ℝ) :
    ∃ x y, lsBandpassResponse d f = .ok x ∧ lsBandstopResponse d f = .ok y ∧ x + y = 1 := by
  obtain ⟨h1, h2, h3⟩ := h
  unfold lsBandpassResponse lsBandstopResponse
  simp only []
  by_cases hf : f < (d.lowerEnd + d.upperBegin) / 2
  · rw [if_pos hf, if_pos hf]
    refine ⟨_, _, smoothLerp_ok h1.ne, smoothLerp_ok h1.ne', ?_⟩
    rw [smoothLerp_flip h1.ne]; ring
  · rw [if_neg hf, if_neg hf]
    refine ⟨_, _, smoothLerp_ok h3.ne', smoothLerp_ok h3.ne, ?_⟩
    rw [smoothLerp_flip h3.ne]; ring

/-- **C65**: the weights: every frequency gets the weight of the band it is in. -/
theorem C65_weights (d : SplitDescLS ℝ) (b : BandDescLS ℝ) (f : ℝ) :
    (f ≤ d.cutoffBegin → lsSplitWeight d f = d.weightLow) ∧
    (d.cutoffBegin < f → f ≤ d.cutoffEnd → lsSplitWeight d f = d.weightTransition) ∧
    (d.cutoffBegin < f → d.cutoffEnd < f → lsSplitWeight d f = d.weightHigh) ∧
    (f ≤ b.lowerBegin → lsBandWeight b f = b.weightLow) ∧
    (b.lowerBegin < f → f ≤ b.lowerEnd → lsBandWeight b f = b.weightTransition1) ∧
    (b.lowerBegin < f → b.lowerEnd < f → f ≤ b.upperBegin → lsBandWeight b f = b.weightMid) ∧
    (b.lowerBegin < f → b.lowerEnd < f → b.upperBegin < f → f ≤ b.upperEnd → lsBandWeight b f = b.weightTransition2) ∧
    (b.lowerBegin < f → b.lowerEnd < f → b.upperBegin < f → b.upperEnd < f → lsBandWeight b f = b.weightHigh) := by
  unfold lsSplitWeight lsBandWeight
  refine ⟨fun h => if_pos h, fun h h' => ?_, fun h h' => ?_, fun h => if_pos h, fun h h' => ?_, fun h h' h'' => ?_,
    fun h h' h'' h3 => ?_, fun h h' h'' h3 => ?_⟩
  · rw [if_neg (not_le.2 h), if_pos h']
  · rw [if_neg (not_le.2 h), if_neg (not_le.2 h')]
  · rw [if_neg (not_le.2 h), if_pos h']
  · rw [if_neg (not_le.2 h), if_neg (not_le.2 h'), if_pos h'']
  · rw [if_neg (not_le.2 h), if_neg (not_le.2 h'), if_neg (not_le.2 h''), if_pos h3]
  · rw [if_neg (not_le.2 h), if_neg (not_le.2 h'), if_neg (not_le.2 h''), if_neg (not_le.2 h3)]

/-- **C65**: the complete low pass and high pass designs of odd length: symmetric, and of all symmetric filters the closest to the
wanted response in the weighted sum of squares over the grid; the two responses add up to one. -/
theorem C65_split_design_partial (solve : LsSolver) (hs : IsLeastSquares solve) (mem : List ℝ) (out : Span) (hm : out.Within mem)
    (hodd : out.size % 2 = 1) (d : SplitDescLS ℝ) (h : d.cutoffBegin < d.cutoffEnd) (G : ℕ) (hG : G = lsGrid out.size d.grid) (hG2 : 2 ≤ G) :
    ∃ D : ℝ → ℝ, Rises D d.cutoffBegin d.cutoffEnd ∧
      (∃ m g, designLSHighpass solve mem out d = .ok m ∧ Writes mem m out g ∧ Palindrome out.size g ∧
        ∀ g', Palindrome out.size g' →
          ∑ r ∈ Finset.range G, (lsSplitWeight d (r / ((G : ℝ) - 1)) *
            ((centredResponse out.size g (Real.pi * (r / ((G : ℝ) - 1)))).re - D (r / ((G : ℝ) - 1)))) ^ 2 ≤
          ∑ r ∈ Finset.range G, (lsSplitWeight d (r / ((G : ℝ) - 1)) *
            ((centredResponse out.size g' (Real.pi * (r / ((G : ℝ) - 1)))).re - D (r / ((G : ℝ) - 1)))) ^ 2) ∧
      (∃ m g, designLSLowpass solve mem out d = .ok m ∧ Writes mem m out g ∧ Palindrome out.size g ∧
        ∀ g', Palindrome out.size g' →
          ∑ r ∈ Finset.range G, (lsSplitWeight d (r / ((G : ℝ) - 1)) *
            ((centredResponse out.size g (Real.pi * (r / ((G : ℝ) - 1)))).re - (1 - D (r / ((G : ℝ) - 1))))) ^ 2 ≤
          ∑ r ∈ Finset.range G, (lsSplitWeight d (r / ((G : ℝ) - 1)) *
            ((centredResponse out.size g' (Real.pi * (r / ((G : ℝ) - 1)))).re - (1 - D (r / ((G : ℝ) - 1))))) ^ 2) := by
  obtain ⟨D, hD, hr⟩ := C65_highpass_partial d h
  have hL : ∀ f, lsLowpassResponse d f = .ok (1 - D f) := by
    intro f
    obtain ⟨D', hD', -, h2⟩ := C65_lowpass_partial d h
    obtain ⟨y, hy, hsum⟩ := h2 f
    rw [hD f] at hy
    obtain rfl := Out.ok.inj hy
    rw [hD' f]
    congr 1
    linarith
  refine ⟨D, hr, ?_, ?_⟩
  · obtain ⟨m, g, e1, h1, hp, -, ho⟩ := C51_odd_partial solve mem out hm (lsHighpassResponse d) (fun f => pure (lsSplitWeight d f)) d.grid G hG hG2
      (fun r => D (r / ((G : ℝ) - 1))) (fun r => lsSplitWeight d (r / ((G : ℝ) - 1))) (fun r _ => hD _) (fun r _ => rfl) hodd
    exact ⟨m, g, e1, h1, hp, ho hs⟩
  · obtain ⟨m, g, e1, h1, hp, -, ho⟩ := C51_odd_partial solve mem out hm (lsLowpassResponse d) (fun f => pure (lsSplitWeight d f)) d.grid G hG hG2
      (fun r => 1 - D (r / ((G : ℝ) - 1))) (fun r => lsSplitWeight d (r / ((G : ℝ) - 1))) (fun r _ => hL _) (fun r _ => rfl) hodd
    exact ⟨m, g, e1, h1, hp, ho hs⟩

/-- **C65**: the complete band pass and band stop designs of odd length, in the same sense. -/
theorem C65_band_design_partial (solve : LsSolver) (hs : IsLeastSquares solve) (mem : List ℝ) (out : Span) (hm : out.Within mem)
    (hodd : out.size % 2 = 1) (d : BandDescLS ℝ) (h : d.Proper) (G : ℕ) (hG : G = lsGrid out.size d.grid) (hG2 : 2 ≤ G) :
    ∃ D U V : ℝ → ℝ, Rises U d.lowerBegin d.lowerEnd ∧ Rises V d.upperBegin d.upperEnd ∧ (∀ f, D f = U f * (1 - V f)) ∧
      (∃ m g, designLSBandpass solve mem out d = .ok m ∧ Writes mem m out g ∧ Palindrome out.size g ∧
        ∀ g', Palindrome out.size g' →
          ∑ r ∈ Finset.range G, (lsBandWeight d (r / ((G : ℝ) - 1)) *
            ((centredResponse out.size g (Real.pi * (r / ((G : ℝ) - 1)))).re - D (r / ((G : ℝ) - 1)))) ^ 2 ≤
          ∑ r ∈ Finset.range G, (lsBandWeight d (r / ((G : ℝ) - 1)) *
            ((centredResponse out.size g' (Real.pi * (r / ((G : ℝ) - 1)))).re - D (r / ((G : ℝ) - 1)))) ^ 2) ∧
      (∃ m g, designLSBandstop solve mem out d = .ok m ∧ Writes mem m out g ∧ Palindrome out.size g ∧
        ∀ g', Palindrome out.size g' →
          ∑ r ∈ Finset.range G, (lsBandWeight d (r / ((G : ℝ) - 1)) *
            ((centredResponse out.size g (Real.pi * (r / ((G : ℝ) - 1)))).re - (1 - D (r / ((G : ℝ) - 1))))) ^ 2 ≤
          ∑ r ∈ Finset.range G, (lsBandWeight d (r / ((G : ℝ) - 1)) *
            ((centredResponse out.size g' (Real.pi * (r / ((G : ℝ) - 1)))).re - (1 - D (r / ((G : ℝ) - 1))))) ^ 2) := by
  obtain ⟨D, U, V, hD, hU, hV, hDUV⟩ := C65_bandpass_partial d h
  have hL : ∀ f, lsBandstopResponse d f = .ok (1 - D f) := by
    intro f
    obtain ⟨x, y, hx, hy, hsum⟩ := C65_bandstop_partial d h f
    rw [hD f] at hx
    obtain rfl := Out.ok.inj hx
    rw [hy]
    congr 1
    linarith
  refine ⟨D, U, V, hU, hV, hDUV, ?_, ?_⟩
  · obtain ⟨m, g, e1, h1, hp, -, ho⟩ := C51_odd_partial solve mem out hm (lsBandpassResponse d) (fun f => pure (lsBandWeight d f)) d.grid G hG hG2
      (fun r => D (r / ((G : ℝ) - 1))) (fun r => lsBandWeight d (r / ((G : ℝ) - 1))) (fun r _ => hD _) (fun r _ => rfl) hodd
    exact ⟨m, g, e1, h1, hp, ho hs⟩
  · obtain ⟨m, g, e1, h1, hp, -, ho⟩ := C51_odd_partial solve mem out hm (lsBandstopResponse d) (fun f => pure (lsBandWeight d f)) d.grid G hG hG2
      (fun r => 1 - D (r / ((G : ℝ) - 1))) (fun r => lsBandWeight d (r / ((G : ℝ) - 1))) (fun r _ => hL _) (fun r _ => rfl) hodd
    exact ⟨m, g, e1, h1, hp, ho hs⟩

/-- **C65**, what the library does with a transition of no width (which the descriptions accept): the high pass is right except at the
edge itself, where the response is not a number, but the low pass is inverted: it lets through what is above the cutoff. -/
theorem C65_zero_width_wrong (d : SplitDescLS ℝ) (h : d.cutoffBegin = d.cutoffEnd) (f : ℝ) :
    (f < d.cutoffBegin → lsLowpassResponse d f = .ok 0 ∧ lsHighpassResponse d f = .ok 0) ∧
    (d.cutoffBegin < f → lsLowpassResponse d f = .ok 1 ∧ lsHighpassResponse d f = .ok 1) ∧
    (f = d.cutoffBegin → lsLowpassResponse d f = .ub ∧ lsHighpassResponse d f = .ub) := by
  unfold lsLowpassResponse lsHighpassResponse smoothLerp
  rw [← h]
  simp only [sub_self, if_true]
  refine ⟨fun hf => ?_, fun hf => ?_, fun hf => ?_⟩
  · rw [if_neg (by linarith), if_pos (by linarith), smoothstep_zero le_rfl]; exact ⟨rfl, rfl⟩
  · rw [if_neg (by linarith), if_neg (by linarith), smoothstep_one le_rfl]; exact ⟨rfl, rfl⟩
  · rw [if_pos (by linarith)]; exact ⟨rfl, rfl⟩

/-! ### the Hilbert transformer by least squares -/

/-- Any design of the half-band filter that fills odd lengths with a symmetric filter gives an antisymmetric filter. -/
theorem firFilterHilbert_spec (e : Exec) (garbage mem : List ℝ) (hg : garbage.length = 32) (out : Span)
    (hpos : 0 < out.size) (hm : out.Within mem) (design : List ℝ → Span → Out (List ℝ))
    (hd : ∀ mem (s : Span), s.Within mem → s.size % 2 = 1 → ∃ m g, design mem s = .ok m ∧ Writes mem m s g ∧ Palindrome s.size g) :
    ∃ m g, firFilterHilbert e garbage mem out design = .ok m ∧ Writes mem m out g ∧
      Antisymmetric out.size g ∧ ∀ v, (centredResponse out.size g v).re = 0 := by
  unfold firFilterHilbert
  by_cases heven : out.size % 2 = 0
  · rw [if_pos heven]
    obtain ⟨H, hH⟩ : ∃ H, H = out.size * 2 - 1 := ⟨_, rfl⟩
    have hu : usub (out.size * 2) 1 = H := by rw [usub, if_pos (by omega), hH]
    simp only [hu]
    have hmH : (⟨mem.length, H⟩ : Span).Within (mem ++ List.replicate H 0) := by simp [Span.Within]
    obtain ⟨m1, g1, e1, h1, hp1⟩ := hd (mem ++ List.replicate H 0) ⟨mem.length, H⟩ hmH (by simp only []; omega)
    have hl1 : m1.length = mem.length + H := by rw [h1.length]; simp
    unfold Span.Within at hm
    obtain ⟨m2, g, e2, h2, -, ha⟩ := C49_even e garbage m1 hg out ⟨mem.length, H⟩ heven hpos (by simp only []; omega)
      (by unfold Span.Within; omega) (h1.within hmH) (Or.inl hm) g1 h1.reads
    have hA := ha hp1
    refine ⟨m2.take mem.length, g, by rw [e1, Out.ok_bind, e2, Out.ok_bind, Out.pure_def], ⟨?_, fun i hi => ?_, fun j hj => ?_⟩, hA⟩
    · rw [List.length_take, h2.length]; omega
    · rw [List.getElem?_take, if_pos (by omega), h2.written i hi]
    · rw [List.getElem?_take]
      split_ifs with hjl
      · rw [h2.rest j hj, h1.rest j (Or.inl hjl), List.getElem?_append_left hjl]
      · rw [List.getElem?_eq_none (by omega)]
  · rw [if_neg heven]
    obtain ⟨m1, g1, e1, h1, hp1⟩ := hd mem out hm (by omega)
    have hm1 := h1.within hm
    obtain ⟨m2, g, e2, h2, -, ha⟩ := C49_odd e m1 out out (by omega) rfl hm1 hm1 (Or.inl rfl) g1 h1.reads
    exact ⟨m2, g, by rw [e1, Out.ok_bind, e2], h1.trans h2, ha hp1⟩

theorem setCutoff_real (d : SplitDescLS ℝ) (a b : ℝ) :
    d.setCutoff a b = open Classical in if 0 ≤ a ∧ a ≤ b ∧ b ≤ 1 then
      .ok ⟨a, b, d.weightLow, d.weightTransition, d.weightHigh, d.grid⟩ else .throws := by
  classical
  have hn : ∀ x : ℝ, throwIfNotNormalized x = if 0 ≤ x ∧ x ≤ 1 then .ok () else .throws := by
    intro x
    unfold throwIfNotNormalized
    simp only [FloatCmp.le, FloatCmp.zero, FloatCmp.one]
    by_cases h : 0 ≤ x ∧ x ≤ 1
    · rw [if_pos h, if_neg (by simp [h.1, h.2])]
    · rw [if_neg h, if_pos (by
        rw [Bool.not_eq_true', Bool.and_eq_false_iff, decide_eq_false_iff_not, decide_eq_false_iff_not]; tauto)]
  have hso : throwIfNotSorted a [b] = if a ≤ b then .ok () else .throws := by
    unfold throwIfNotSorted
    have hr : (List.foldl SortChain.lt ⟨a, true⟩ [b]).result = decide (a ≤ b) := by
      show (true && decide (a ≤ b)) = _
      rw [Bool.true_and]
    rw [hr]
    by_cases h : a ≤ b
    · rw [if_pos h, if_neg (by simp [h])]
    · rw [if_neg h, if_pos (by simp [h])]
  unfold SplitDescLS.setCutoff
  rw [hn, hn, hso]
  by_cases h1 : 0 ≤ a ∧ a ≤ 1
  · rw [if_pos h1, Out.ok_bind]
    by_cases h2 : 0 ≤ b ∧ b ≤ 1
    · rw [if_pos h2, Out.ok_bind]
      by_cases h3 : a ≤ b
      · rw [if_pos h3, Out.ok_bind, if_pos ⟨h1.1, h3, h2.2⟩]; rfl
      · rw [if_neg h3, if_neg (by tauto)]; rfl
    · have hn' : ¬ (0 ≤ a ∧ a ≤ b ∧ b ≤ 1) := fun h => h2 ⟨by linarith [h.1, h.2.1], h.2.2⟩
      rw [if_neg h2, if_neg hn']; rfl
  · have hn' : ¬ (0 ≤ a ∧ a ≤ b ∧ b ≤ 1) := fun h => h1 ⟨h.1, by linarith [h.2.1, h.2.2]⟩
    rw [if_neg h1, if_neg hn']; rfl

/-- **C65** (Hilbert transformer by least squares): any positive length, transition width over 0 and at most one half: antisymmetric,
and turns all frequencies by exactly a quarter period. -/
theorem C65_hilbert_partial (e : Exec) (solve : LsSolver) (garbage mem : List ℝ) (hg : garbage.length = 32) (out : Span)
    (hpos : 0 < out.size) (hm : out.Within mem) (d : HilbertDescLS ℝ) (h0 : 0 < d.transitionWidth) (h1 : d.transitionWidth ≤ 0.5) :
    ∃ m g, designLSHilbert e solve garbage mem out d = .ok m ∧ Writes mem m out g ∧
      Antisymmetric out.size g ∧ ∀ v, (centredResponse out.size g v).re = 0 := by
  unfold designLSHilbert
  rw [setCutoff_real, if_pos ⟨by linarith, by linarith, by norm_num at h1 ⊢; linarith⟩, Out.ok_bind]
  refine firFilterHilbert_spec e garbage mem hg out hpos hm _ fun mem s hs hodd => ?_
  obtain ⟨D, hD, -⟩ := C65_lowpass_partial
    (SplitDescLS.setWeight ⟨0.5 - d.transitionWidth, 0.5 + d.transitionWidth, 1, 0, 1, 0⟩ 1 d.transitionWeight 1)
    (by show (0.5 : ℝ) - d.transitionWidth < 0.5 + d.transitionWidth; linarith)
  obtain ⟨m, g, e1, h1, hp, -⟩ := C51_odd_partial solve mem s hs (lsLowpassResponse _) (fun f => pure (lsSplitWeight _ f)) 0 _ rfl
    (by unfold lsGrid; rw [if_pos rfl]; omega) _ _ (fun r _ => hD _) (fun r _ => rfl) hodd
  exact ⟨m, g, e1, h1, hp⟩

/-- **C65**, what the library does with the default description of a Hilbert transformer (width 1) and any width over one half:
it throws. -/
theorem C65_hilbert_default_wrong (e : Exec) (solve : LsSolver) (garbage mem : List ℝ) (out : Span) :
    designLSHilbert e solve garbage mem out defaultHilbertLS = .throws ∧
    ∀ d : HilbertDescLS ℝ, 0.5 < d.transitionWidth → designLSHilbert e solve garbage mem out d = .throws := by
  have h : ∀ d : HilbertDescLS ℝ, 0.5 < d.transitionWidth → designLSHilbert e solve garbage mem out d = .throws := by
    intro d hd
    unfold designLSHilbert
    rw [setCutoff_real, if_neg (by intro h; linarith [h.1])]
    rfl
  exact ⟨h _ (by show (0.5 : ℝ) < 1; norm_num), h⟩

/-- **C65**, what the library does with the grid of a Hilbert transformer: nothing. -/
theorem C65_hilbert_grid_wrong (e : Exec) (solve : LsSolver) (garbage mem : List ℝ) (out : Span) (d : HilbertDescLS ℝ) (grid : ℕ) :
    designLSHilbert e solve garbage mem out ⟨d.transitionWidth, d.transitionWeight, grid⟩ =
      designLSHilbert e solve garbage mem out d := rfl

-- The hypotheses are met: the default descriptions
example : (defaultSplitLS.cutoffBegin < defaultSplitLS.cutoffEnd) ∧ defaultBandLS.Proper ∧ 2 ≤ lsGrid 1 defaultSplitLS.grid := by
  refine ⟨by unfold defaultSplitLS; norm_num, ?_, by unfold lsGrid defaultSplitLS; norm_num⟩
  unfold BandDescLS.Proper defaultBandLS
  norm_num

end Verif
