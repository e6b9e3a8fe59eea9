import Verif.Lemmas.Measure
import Verif.Props.Solvers

/-!
# C53, C54: band extraction, classification and ripple
-/

set_option linter.unusedSimpArgs false
set_option linter.unusedVariables false
set_option linter.unusedSectionVars false

namespace Verif

variable {K : Type} [Field K] [LinearOrder K] [IsStrictOrderedRing K]

/-- Band extraction returns on every nonempty response, and what it returns is the segmentation by a Schmitt trigger. -/
theorem C53_segmentation {x : List K} (hx : x ≠ []) (threshold : K) {noise : K} (hn : 0 ≤ noise) :
    ∃ bands, extractFilterBands x threshold noise = .ok bands ∧ ∃ s, Segmentation x threshold noise bands s :=
  extractFilterBands_spec hx threshold hn

/-- The bands cover the axis in order: the first one starts at 0, each one starts inside the response and not before the one before it,
and pass bands and stop bands alternate.  Only the first band can be empty, and only if the first sample is within the noise of the
threshold. -/
theorem C53_order {x : List K} (hx : x ≠ []) (threshold : K) {noise : K} (hn : 0 ≤ noise) :
    ∃ bands, extractFilterBands x threshold noise = .ok bands ∧ (∃ b : Band, bands[0]? = some b ∧ b.first = 0) ∧
      (∀ (k : ℕ) (b : Band), bands[k]? = some b → b.first < x.length) ∧
      ∀ (k : ℕ) (b c : Band), bands[k]? = some b → bands[k + 1]? = some c → c.pass = !b.pass ∧ b.first ≤ c.first ∧
        (1 ≤ k ∨ noise < |threshold - sig x 0| → b.first < c.first) := by
  obtain ⟨bands, he, s, h⟩ := extractFilterBands_spec hx threshold hn
  have hlen : 0 < bands.length := List.length_pos_iff.mpr h.nonempty
  refine ⟨bands, he, ⟨bands[0], List.getElem?_eq_getElem hlen, h.startFirst _ (List.getElem?_eq_getElem hlen)⟩, ?_, ?_⟩
  · intro k b hb
    have hk : k < bands.length := (List.getElem?_eq_some_iff.mp hb).1
    exact (h.first_le hb).trans_lt ((h.advance k hk).trans_le (h.le_length hk))
  · intro k b c hb hc
    have hk : k + 1 < bands.length := (List.getElem?_eq_some_iff.mp hc).1
    have hf := h.flag k b hb
    have hf' := h.flag (k + 1) c hc
    have hbc := h.start_between hc
    have hbf := h.first_le hb
    refine ⟨?_, hbf.trans hbc.1, fun hstrict => ?_⟩
    · cases hp : b.pass
      · have := h.leaveStop k b hb hk hp
        exact hf'.mpr (by linarith)
      · have := h.leavePass k b hb hk hp
        cases hc' : c.pass
        · rfl
        · have := hf'.mp hc'
          linarith
    · obtain ⟨t, t1, t2, t3, t4, t5⟩ := h.start k b c hb hc
      have hadv := h.advance k (by omega)
      suffices hst : s k < t by omega
      rcases Nat.lt_or_ge (s k) t with hlt | hge
      · exact hlt
      · exfalso
        have et : t = s k := by omega
        rw [et] at t4 t5
        rcases hstrict with h1 | h1
        · obtain ⟨j, rfl⟩ : ∃ j, k = j + 1 := ⟨k - 1, by omega⟩
          have hjl : j < bands.length := by omega
          have hj : bands[j]? = some bands[j] := List.getElem?_eq_getElem hjl
          cases hpj : (bands[j]).pass
          · have l1 := h.leaveStop j _ hj (by omega) hpj
            have hp : b.pass = true := hf.mpr (by linarith)
            have := (t4 hp).1
            linarith
          · have l1 := h.leavePass j _ hj (by omega) hpj
            have hp : b.pass = false := by
              cases hp : b.pass
              · rfl
              · have := hf.mp hp; linarith
            have := (t5 hp).1
            linarith
        · -- first band
          rcases Nat.eq_zero_or_pos k with e | e
          · subst e
            rw [h.enterFirst] at t4 t5 hf
            rcases lt_abs.mp h1 with h2 | h2
            · have hp : b.pass = false := by
                cases hp : b.pass
                · rfl
                · have := hf.mp hp; linarith
              have := (t5 hp).1
              linarith
            · have hp : b.pass = true := hf.mpr (by linarith)
              have := (t4 hp).1
              linarith
          · obtain ⟨j, rfl⟩ : ∃ j, k = j + 1 := ⟨k - 1, by omega⟩
            have hjl : j < bands.length := by omega
            have hj : bands[j]? = some bands[j] := List.getElem?_eq_getElem hjl
            cases hpj : (bands[j]).pass
            · have l1 := h.leaveStop j _ hj (by omega) hpj
              have hp : b.pass = true := hf.mpr (by linarith)
              have := (t4 hp).1
              linarith
            · have l1 := h.leavePass j _ hj (by omega) hpj
              have hp : b.pass = false := by
                cases hp : b.pass
                · rfl
                · have := hf.mp hp; linarith
              have := (t5 hp).1
              linarith

/-- If every sample is clearly on one side of the threshold, every band consists of exactly the samples of a run on one side: it starts where
the side changes, and its flag says which side. -/
theorem C53_clean {x : List K} (hx : x ≠ []) (threshold : K) {noise : K} (hn : 0 ≤ noise)
    (hclean : ∀ i, i < x.length → sig x i ≤ threshold - noise ∨ threshold + noise < sig x i) :
    ∃ bands, extractFilterBands x threshold noise = .ok bands ∧
      (∀ (k : ℕ) (b : Band), bands[k]? = some b → ∀ i, b.first ≤ i → i < ((bands[k + 1]?).map Band.first).getD x.length →
        (b.pass = true ↔ threshold < sig x i)) ∧
      ∀ (k : ℕ) (b c : Band), bands[k]? = some b → bands[k + 1]? = some c → b.first < c.first ∧ c.pass = !b.pass := by
  obtain ⟨bands, he, s, h⟩ := extractFilterBands_spec hx threshold hn
  obtain ⟨bands', he', h0, hin, hord⟩ := C53_order hx threshold hn
  rw [he] at he'
  obtain rfl : bands = bands' := by simpa using he'
  have hstart : ∀ k c, bands[k]? = some c → c.first = s k := by
    intro k c hc
    cases k with
    | zero => rw [h.startFirst c hc, h.enterFirst]
    | succ k =>
      have hk : k + 1 < bands.length := (List.getElem?_eq_some_iff.mp hc).1
      have hkl : k < bands.length := by omega
      have hb : bands[k]? = some bands[k] := List.getElem?_eq_getElem hkl
      obtain ⟨t, t1, t2, t3, t4, t5⟩ := h.start k _ c hb hc
      have hs : s (k + 1) < x.length := (h.advance (k + 1) hk).trans_le (h.le_length hk)
      suffices t = s (k + 1) by omega
      by_contra hne
      have hlt : t < s (k + 1) := by omega
      have hcl := hclean t (by omega)
      cases hp : (bands[k]).pass
      · have a1 := h.stayStop k _ hb hp t t1 hlt
        have a2 := (t5 hp).1
        rcases hcl with h' | h' <;> linarith
      · have a1 := h.stayPass k _ hb hp t t1 hlt
        have a2 := (t4 hp).1
        rcases hcl with h' | h' <;> linarith
  refine ⟨bands, he, ?_, ?_⟩
  · intro k b hb i hi1 hi2
    have hk : k < bands.length := (List.getElem?_eq_some_iff.mp hb).1
    rw [hstart k b hb] at hi1
    have hi3 : i < s (k + 1) := by
      cases hc : bands[k + 1]? with
      | none =>
        rw [hc] at hi2
        have : k + 1 = bands.length := by
          have := List.getElem?_eq_none_iff.mp hc; omega
        rw [this, h.enterLast]; simpa using hi2
      | some c =>
        rw [hc] at hi2
        simp at hi2
        rw [hstart (k + 1) c hc] at hi2; exact hi2
    have hil : i < x.length := hi3.trans_le (h.le_length hk)
    have hcl := hclean i hil
    cases hp : b.pass
    · have := h.stayStop k b hb hp i hi1 hi3
      simp only [Bool.false_eq_true, false_iff, not_lt]
      rcases hcl with h' | h' <;> linarith
    · have := h.stayPass k b hb hp i hi1 hi3
      simp only [true_iff]
      rcases hcl with h' | h' <;> linarith
  · intro k b c hb hc
    have hk : k + 1 < bands.length := (List.getElem?_eq_some_iff.mp hc).1
    refine ⟨?_, (hord k b c hb hc).1⟩
    rw [hstart k b hb, hstart (k + 1) c hc]
    exact h.advance k (by omega)

/-- The segmentation is unique: a response, a threshold and a noise level have one list of bands. -/
theorem C53_unique {x : List K} {threshold noise : K} (hn : 0 ≤ noise) {bands bands' : List Band} {s s' : ℕ → ℕ}
    (h : Segmentation x threshold noise bands s) (h' : Segmentation x threshold noise bands' s') : bands = bands' := by
  -- the states are entered at the same samples
  have aux : ∀ (bands bands' : List Band) (s s' : ℕ → ℕ), Segmentation x threshold noise bands s → Segmentation x threshold noise bands' s' →
      ∀ k, k < bands.length → k < bands'.length → s k = s' k → ∀ b b', bands[k]? = some b → bands'[k]? = some b' → b.pass = b'.pass →
      s' (k + 1) ≤ s (k + 1) := by
    intro bands bands' s s' h h' k hk hk' he b b' hb hb' hp
    by_contra hlt
    have hlt : s (k + 1) < s' (k + 1) := by omega
    have hlast : k + 1 < bands.length := by
      by_contra hge
      have : k + 1 = bands.length := by omega
      rw [this, h.enterLast] at hlt
      have := h'.le_length (k := k + 1) (by omega)
      rw [‹k + 1 = bands.length›] at this
      omega
    have hge := h.advance k hk
    cases hpb : b.pass
    · have a1 := h.leaveStop k b hb hlast hpb
      have a2 := h'.stayStop k b' hb' (hp ▸ hpb) (s (k + 1)) (by omega) hlt
      linarith
    · have a1 := h.leavePass k b hb hlast hpb
      have a2 := h'.stayPass k b' hb' (hp ▸ hpb) (s (k + 1)) (by omega) hlt
      linarith
  have hsame : ∀ k, (k < bands.length ↔ k < bands'.length) ∧ (k ≤ bands.length → k ≤ bands'.length → s k = s' k) := by
    intro k
    induction k with
    | zero =>
      refine ⟨⟨fun _ => List.length_pos_iff.mpr h'.nonempty, fun _ => List.length_pos_iff.mpr h.nonempty⟩, fun _ _ => ?_⟩
      rw [h.enterFirst, h'.enterFirst]
    | succ k ih =>
      have hs : k + 1 ≤ bands.length → k + 1 ≤ bands'.length → s (k + 1) = s' (k + 1) := by
        intro h1 h2
        have he := ih.2 (by omega) (by omega)
        have hk1 : k < bands.length := by omega
        have hk2 : k < bands'.length := by omega
        have hb : bands[k]? = some bands[k] := List.getElem?_eq_getElem hk1
        have hb' : bands'[k]? = some bands'[k] := List.getElem?_eq_getElem hk2
        have hp : (bands[k]).pass = (bands'[k]).pass := by
          rw [Bool.eq_iff_iff, h.flag k _ hb, h'.flag k _ hb', he]
        exact le_antisymm (aux bands' bands s' s h' h k hk2 hk1 he.symm _ _ hb' hb hp.symm) (aux bands bands' s s' h h' k hk1 hk2 he _ _ hb hb' hp)
      refine ⟨⟨fun h1 => ?_, fun h1 => ?_⟩, hs⟩
      · have hk2 : k < bands'.length := ih.1.mp (by omega)
        by_contra h2
        have e : k + 1 = bands'.length := by omega
        have := hs (by omega) (by omega)
        rw [e, h'.enterLast, ← e] at this
        have := (h.advance (k + 1) h1).trans_le (h.le_length h1)
        omega
      · have hk2 : k < bands.length := ih.1.mpr (by omega)
        by_contra h2
        have e : k + 1 = bands.length := by omega
        have := hs (by omega) (by omega)
        rw [e, h.enterLast, ← e] at this
        have := (h'.advance (k + 1) h1).trans_le (h'.le_length h1)
        omega
  have hlen : bands.length = bands'.length := by
    rcases Nat.lt_trichotomy bands.length bands'.length with hl | hl | hl
    · have := (hsame bands.length).1.mpr hl; omega
    · exact hl
    · have := (hsame bands'.length).1.mp hl; omega
  have hpass : ∀ (k : ℕ) (b b' : Band), bands[k]? = some b → bands'[k]? = some b' → b.pass = b'.pass := by
    intro k b b' hb hb'
    have hk : k < bands.length := (List.getElem?_eq_some_iff.mp hb).1
    have hk' : k < bands'.length := (List.getElem?_eq_some_iff.mp hb').1
    rw [Bool.eq_iff_iff, h.flag k _ hb, h'.flag k _ hb', (hsame k).2 (by omega) (by omega)]
  have hfirst : ∀ (k : ℕ) (b b' : Band), bands[k]? = some b → bands'[k]? = some b' → b.first = b'.first := by
    intro k b b' hb hb'
    have hk : k < bands.length := (List.getElem?_eq_some_iff.mp hb).1
    cases k with
    | zero => rw [h.startFirst b hb, h'.startFirst b' hb']
    | succ k =>
      have hk1 : k < bands.length := by omega
      have hk2 : k < bands'.length := by omega
      have hc : bands[k]? = some bands[k] := List.getElem?_eq_getElem hk1
      have hc' : bands'[k]? = some bands'[k] := List.getElem?_eq_getElem hk2
      obtain ⟨t, t1, t2, t3, t4, t5⟩ := h.start k _ b hc hb
      obtain ⟨u, u1, u2, u3, u4, u5⟩ := h'.start k _ b' hc' hb'
      have e1 := (hsame k).2 (by omega) (by omega)
      have e2 := (hsame (k + 1)).2 (by omega) (by omega)
      have hp := hpass k _ _ hc hc'
      suffices t = u by rw [t3, u3, this, e2]
      rcases Nat.lt_trichotomy t u with hl | hl | hl
      · exfalso
        cases hq : (bands[k]).pass
        · have := (t5 hq).1; have := (u5 (hp ▸ hq)).2 t (by omega) hl; linarith
        · have := (t4 hq).1; have := (u4 (hp ▸ hq)).2 t (by omega) hl; linarith
      · exact hl
      · exfalso
        cases hq : (bands[k]).pass
        · have := (u5 (hp ▸ hq)).1; have := (t5 hq).2 u (by omega) hl; linarith
        · have := (u4 (hp ▸ hq)).1; have := (t4 hq).2 u (by omega) hl; linarith
  apply List.ext_getElem? 
  intro k
  by_cases hk : k < bands.length
  · have hk' : k < bands'.length := by omega
    have hb : bands[k]? = some bands[k] := List.getElem?_eq_getElem hk
    have hb' : bands'[k]? = some bands'[k] := List.getElem?_eq_getElem hk'
    have e1 := hpass k _ _ hb hb'
    have e2 := hfirst k _ _ hb hb'
    rw [hb, hb']
    congr 1
    cases hh : bands[k]; cases hh' : bands'[k]
    rw [hh, hh'] at e1 e2
    simp_all
  · rw [List.getElem?_eq_none (by omega), List.getElem?_eq_none (by omega)]

/-- An empty response is undefined behaviour: its first sample is read. -/
theorem C53_empty_wrong (threshold noise : K) : extractFilterBands ([] : List K) threshold noise = .ub := by
  simp [extractFilterBands, extractStep, rd]

/-- The first band can be empty: here the second band starts at 0, too. -/
theorem C53_empty_first_band : extractFilterBands [(1 / 2 : ℚ) + 1 / 10000, 0, 0] (1 / 2) (5 / 10000) = .ok [⟨0, true⟩, ⟨0, false⟩] := by
  decide +kernel

example : extractFilterBands [(1 : ℚ), 1, 9 / 10, 1 / 2, 1 / 10, 0, 0, 1] (1 / 2) (5 / 10000) =
    .ok [⟨0, true⟩, ⟨3, false⟩, ⟨7, true⟩] := by decide +kernel

/-- The extremum search returns the first centre of a five sample window, no earlier than two samples after its start, that no sample of
the window exceeds; the end if there is none. -/
theorem C54_first_maximum (x : List K) (first : ℕ) :
    ∃ p, findFirstExtremum x first kernelSize less = .ok p ∧ FirstFrom (LocalMax x) first x.length p := by
  obtain ⟨p, h1, h2, h3, h4⟩ := findFirstExtremum_spec (StrictCmp.less (K := K)) x first
  simp only [extremum_less] at h2 h4
  exact ⟨p, h1, h2, h3, h4⟩

theorem C54_first_minimum (x : List K) (first : ℕ) :
    ∃ p, findFirstExtremum x first kernelSize greater = .ok p ∧ FirstFrom (LocalMin x) first x.length p := by
  obtain ⟨p, h1, h2, h3, h4⟩ := findFirstExtremum_spec (StrictCmp.greater (K := K)) x first
  simp only [extremum_greater] at h2 h4
  exact ⟨p, h1, h2, h3, h4⟩

/-- Ripple measurement returns on every band, reads in range only, and returns the largest deviation from the target (1 in a pass band, 0 in
a stop band) at *all* local extrema, although the search skips the neighbour of each extremum found; nothing if all of them are on
target. -/
theorem C54_ripple (y : List K) (pass : Bool) :
    ∃ o, measureBandRipple y pass = .ok o ∧ IsRipple y (if pass then 1 else 0) (o.getD 0) ∧ ∀ r, o = some r → 0 < r := by
  obtain ⟨o, h1, h2⟩ := measureBandRipple_spec y pass
  refine ⟨o, h1, h2, fun r hr => ?_⟩
  simp only [measureBandRipple, Out.bind_eq_ok, Out.pure_def, Out.ok.injEq] at h1
  obtain ⟨_, _, d, _, e⟩ := h1
  rw [hr] at e
  split at e
  · rename_i hpos
    simp at e; rw [← e]; exact hpos
  · simp at e

example : measureBandRipple [(1 : ℚ), 1, 11 / 10, 1, 9 / 10, 8 / 10, 9 / 10, 1, 1] true = .ok (some (1 / 5)) := by decide +kernel
example : LocalMin [(1 : ℚ), 1, 11 / 10, 1, 9 / 10, 8 / 10, 9 / 10, 1, 1] 5 := by
  refine ⟨by norm_num, by norm_num, fun j h1 h2 => ?_⟩
  have : j = 3 ∨ j = 4 ∨ j = 5 ∨ j = 6 ∨ j = 7 := by omega
  rcases this with e | e | e | e | e <;> subst e <;> norm_num [sig]

/-- The four classes by the flags of the bands -/
abbrev lowpassPattern : List Bool := [true, false]
abbrev highpassPattern : List Bool := [false, true]
abbrev bandpassPattern : List Bool := [false, true, false]
abbrev bandstopPattern : List Bool := [true, false, true]

variable {loss : List K → Bool → Bool → K → K → K} {bisect : (K → K) → K → K → Out K}

/-- a filter with two bands is measured: `edge1` and `edge2` enclose the start of the second band, the ripples are those of the two bands -/
structure TwoBands (x : List K) (first : Bool) (bands : List Band) (edge1 edge2 ripple1 ripple2 : K) : Prop where
  edges : 0 ≤ edge1 ∧ edge1 ≤ edge2 ∧ edge2 ≤ 1
  ripples : ∃ a b, bands = [a, b] ∧ a.first = 0 ∧ edge1 * x.length ≤ b.first ∧ (b.first : K) ≤ edge2 * x.length ∧
    IsRipple (slice x 0 b.first) (if first then 1 else 0) ripple1 ∧ IsRipple (slice x b.first x.length) (if first then 0 else 1) ripple2

/-- a filter with three bands is measured: the first pair of edges encloses the start of the second band, the second pair that of the
third -/
structure ThreeBands (x : List K) (first : Bool) (bands : List Band) (edge1 edge2 edge3 edge4 ripple1 ripple2 ripple3 : K) : Prop where
  edges : 0 ≤ edge1 ∧ edge1 ≤ edge2 ∧ edge3 ≤ edge4 ∧ edge4 ≤ 1 ∧ edge2 ≤ edge4 ∧ edge1 ≤ edge3
  ripples : ∃ a b c, bands = [a, b, c] ∧ a.first = 0 ∧ edge1 * x.length ≤ b.first ∧ (b.first : K) ≤ edge2 * x.length ∧
    edge3 * x.length ≤ c.first ∧ (c.first : K) ≤ edge4 * x.length ∧
    IsRipple (slice x 0 b.first) (if first then 1 else 0) ripple1 ∧ IsRipple (slice x b.first c.first) (if first then 0 else 1) ripple2 ∧
    IsRipple (slice x c.first x.length) (if first then 1 else 0) ripple3

theorem twoBands {x : List K} (hx : x ≠ []) {bands : List Band} {ps : List (BandParameters K)} {s : ℕ → ℕ} {first : Bool}
    (hs : Segmentation x (1 / 2) (5 / 10000) bands s) (hl : ps.length = bands.length)
    (hps : ∀ k b p, bands[k]? = some b → ps[k]? = some p → BandOk x b.first (nextStart x bands k) b.pass p)
    (hp : pattern bands = [first, !first]) :
    ∃ p0 p1, ps = [p0, p1] ∧ TwoBands x first bands p0.upperEdge p1.lowerEdge p0.ripple p1.ripple := by
  have hlen := congrArg List.length hp
  simp only [pattern, List.length_map, List.length_cons, List.length_nil] at hlen
  obtain ⟨a, b, rfl⟩ := List.length_eq_two.mp hlen
  obtain ⟨p0, p1, rfl⟩ := List.length_eq_two.mp (hl.trans hlen)
  · · simp [pattern] at hp
      have h0 := hps 0 a p0 rfl rfl
      have h1 := hps 1 b p1 rfl rfl
      have ha := hs.startFirst a rfl
      have hN : (0 : K) < (x.length : K) := by
        have : 0 < x.length := List.length_pos_iff.mpr hx
        positivity
      simp only [nextStart, List.getElem?_cons_succ, List.getElem?_cons_zero, Option.map_some, Option.getD_some, List.getElem?_nil,
        Option.map_none, Option.getD_none] at h0 h1
      refine ⟨p0, p1, rfl, ⟨?_, ?_, ?_⟩, a, b, rfl, ha, h0.upper.2, h1.lower.1, ?_, ?_⟩
      · have := h0.upper.1
        rw [ha, Nat.cast_zero] at this
        exact nonneg_of_mul_nonneg_left this hN
      · have := h0.upper.2.trans h1.lower.1
        exact le_of_mul_le_mul_right this hN
      · have := h1.lower.2
        have : p1.lowerEdge * (x.length : K) ≤ 1 * (x.length : K) := by rw [one_mul]; exact this
        exact le_of_mul_le_mul_right this hN
      · have := h0.ripple; rw [ha, hp.1] at this; exact this
      · have := h1.ripple; rw [hp.2] at this
        cases first <;> simpa using this

theorem threeBands {x : List K} (hx : x ≠ []) {bands : List Band} {ps : List (BandParameters K)} {s : ℕ → ℕ} {first : Bool}
    (hs : Segmentation x (1 / 2) (5 / 10000) bands s) (hl : ps.length = bands.length)
    (hps : ∀ k b p, bands[k]? = some b → ps[k]? = some p → BandOk x b.first (nextStart x bands k) b.pass p)
    (hp : pattern bands = [first, !first, first]) :
    ∃ p0 p1 p2, ps = [p0, p1, p2] ∧ ThreeBands x first bands p0.upperEdge p1.lowerEdge p1.upperEdge p2.lowerEdge
      p0.ripple p1.ripple p2.ripple := by
  have hlen := congrArg List.length hp
  simp only [pattern, List.length_map, List.length_cons, List.length_nil] at hlen
  obtain ⟨a, b, c, rfl⟩ := List.length_eq_three.mp hlen
  obtain ⟨p0, p1, p2, rfl⟩ := List.length_eq_three.mp (hl.trans hlen)
  · · simp [pattern] at hp
      have h0 := hps 0 a p0 rfl rfl
      have h1 := hps 1 b p1 rfl rfl
      have h2 := hps 2 c p2 rfl rfl
      have ha := hs.startFirst a rfl
      have hN : (0 : K) < (x.length : K) := by
        have : 0 < x.length := List.length_pos_iff.mpr hx
        positivity
      simp only [nextStart, List.getElem?_cons_succ, List.getElem?_cons_zero, Option.map_some, Option.getD_some, List.getElem?_nil,
        Option.map_none, Option.getD_none] at h0 h1 h2
      refine ⟨p0, p1, p2, rfl, ⟨?_, ?_, ?_, ?_, ?_, ?_⟩, a, b, c, rfl, ha, h0.upper.2, h1.lower.1, h1.upper.2, h2.lower.1, ?_, ?_, ?_⟩
      · have := h0.upper.1
        rw [ha, Nat.cast_zero] at this
        exact nonneg_of_mul_nonneg_left this hN
      · exact le_of_mul_le_mul_right (h0.upper.2.trans h1.lower.1) hN
      · exact le_of_mul_le_mul_right (h1.upper.2.trans h2.lower.1) hN
      · have : p2.lowerEdge * (x.length : K) ≤ 1 * (x.length : K) := by rw [one_mul]; exact h2.lower.2
        exact le_of_mul_le_mul_right this hN
      · exact le_of_mul_le_mul_right (h1.lower.2.trans h2.lower.1) hN
      · exact le_of_mul_le_mul_right (h0.upper.2.trans h1.upper.1) hN
      · have := h0.ripple; rw [ha, hp.1] at this; exact this
      · have := h1.ripple; rw [hp.2.1] at this
        cases first <;> simpa using this
      · have := h2.ripple; rw [hp.2.2] at this; exact this

/-- `MeasureLowpassFilter` throws exactly if the bands are not one pass band followed by one stop band; otherwise the edges it returns
enclose the start of the stop band and the ripples are the largest deviations in the two bands. -/
theorem C53_lowpass (hb : NonnegSearch bisect) {x : List K} (hx : x ≠ []) :
    ∃ bands, extractFilterBands x (1 / 2) (5 / 10000) = .ok bands ∧
      (pattern bands ≠ lowpassPattern → measureLowpassFilter loss bisect x = .throws) ∧
      (pattern bands = lowpassPattern → ∃ pe se pr sa, measureLowpassFilter loss bisect x = .ok (.lowpass pe se pr sa) ∧
        TwoBands x true bands pe se pr sa) := by
  obtain ⟨bands, ps, s, h1, h2, hs, hl, hps⟩ := measureBands_spec (loss := loss) hb hx
  refine ⟨bands, h1, fun hp => ?_, fun hp => ?_⟩
  · have : hasBands bands [true, false] = false := by rw [hasBands_eq]; simpa using hp
    simp only [measureLowpassFilter, h2, Out.ok_bind, extractLowpass, this, Bool.false_eq_true, if_false, Out.pure_def, orThrow]
  · obtain ⟨p0, p1, rfl, h⟩ := twoBands hx hs hl hps hp
    have : hasBands bands [true, false] = true := by rw [hasBands_eq]; simpa using hp
    refine ⟨_, _, _, _, ?_, h⟩
    simp only [measureLowpassFilter, h2, Out.ok_bind, extractLowpass, this, if_true, Out.pure_def]
    rfl

theorem C53_highpass (hb : NonnegSearch bisect) {x : List K} (hx : x ≠ []) :
    ∃ bands, extractFilterBands x (1 / 2) (5 / 10000) = .ok bands ∧
      (pattern bands ≠ highpassPattern → measureHighpassFilter loss bisect x = .throws) ∧
      (pattern bands = highpassPattern → ∃ se pe sa pr, measureHighpassFilter loss bisect x = .ok (.highpass se pe sa pr) ∧
        TwoBands x false bands se pe sa pr) := by
  obtain ⟨bands, ps, s, h1, h2, hs, hl, hps⟩ := measureBands_spec (loss := loss) hb hx
  refine ⟨bands, h1, fun hp => ?_, fun hp => ?_⟩
  · have : hasBands bands [false, true] = false := by rw [hasBands_eq]; simpa using hp
    simp only [measureHighpassFilter, h2, Out.ok_bind, extractHighpass, this, Bool.false_eq_true, if_false, Out.pure_def, orThrow]
  · obtain ⟨p0, p1, rfl, h⟩ := twoBands hx hs hl hps hp
    have : hasBands bands [false, true] = true := by rw [hasBands_eq]; simpa using hp
    refine ⟨_, _, _, _, ?_, h⟩
    simp only [measureHighpassFilter, h2, Out.ok_bind, extractHighpass, this, if_true, Out.pure_def]
    rfl

theorem C53_bandpass (hb : NonnegSearch bisect) {x : List K} (hx : x ≠ []) :
    ∃ bands, extractFilterBands x (1 / 2) (5 / 10000) = .ok bands ∧
      (pattern bands ≠ bandpassPattern → measureBandpassFilter loss bisect x = .throws) ∧
      (pattern bands = bandpassPattern → ∃ e1 e2 e3 e4 r1 r2 r3,
        measureBandpassFilter loss bisect x = .ok (.bandpass e1 e2 e3 e4 r1 r2 r3) ∧ ThreeBands x false bands e1 e2 e3 e4 r1 r2 r3) := by
  obtain ⟨bands, ps, s, h1, h2, hs, hl, hps⟩ := measureBands_spec (loss := loss) hb hx
  refine ⟨bands, h1, fun hp => ?_, fun hp => ?_⟩
  · have : hasBands bands [false, true, false] = false := by rw [hasBands_eq]; simpa using hp
    simp only [measureBandpassFilter, h2, Out.ok_bind, extractBandpass, this, Bool.false_eq_true, if_false, Out.pure_def, orThrow]
  · obtain ⟨p0, p1, p2, rfl, h⟩ := threeBands hx hs hl hps hp
    have : hasBands bands [false, true, false] = true := by rw [hasBands_eq]; simpa using hp
    refine ⟨_, _, _, _, _, _, _, ?_, h⟩
    simp only [measureBandpassFilter, h2, Out.ok_bind, extractBandpass, this, if_true, Out.pure_def]
    rfl

theorem C53_bandstop (hb : NonnegSearch bisect) {x : List K} (hx : x ≠ []) :
    ∃ bands, extractFilterBands x (1 / 2) (5 / 10000) = .ok bands ∧
      (pattern bands ≠ bandstopPattern → measureBandstopFilter loss bisect x = .throws) ∧
      (pattern bands = bandstopPattern → ∃ e1 e2 e3 e4 r1 r2 r3,
        measureBandstopFilter loss bisect x = .ok (.bandstop e1 e2 e3 e4 r1 r2 r3) ∧ ThreeBands x true bands e1 e2 e3 e4 r1 r2 r3) := by
  obtain ⟨bands, ps, s, h1, h2, hs, hl, hps⟩ := measureBands_spec (loss := loss) hb hx
  refine ⟨bands, h1, fun hp => ?_, fun hp => ?_⟩
  · have : hasBands bands [true, false, true] = false := by rw [hasBands_eq]; simpa using hp
    simp only [measureBandstopFilter, h2, Out.ok_bind, extractBandstop, this, Bool.false_eq_true, if_false, Out.pure_def, orThrow]
  · obtain ⟨p0, p1, p2, rfl, h⟩ := threeBands hx hs hl hps hp
    have : hasBands bands [true, false, true] = true := by rw [hasBands_eq]; simpa using hp
    refine ⟨_, _, _, _, _, _, _, ?_, h⟩
    simp only [measureBandstopFilter, h2, Out.ok_bind, extractBandstop, this, if_true, Out.pure_def]
    rfl

/-- `MeasureFilter` never throws: it is the measurement of the one class whose pattern the bands have, or nothing. -/
theorem C53_classify (hb : NonnegSearch bisect) {x : List K} (hx : x ≠ []) :
    ∃ bands, extractFilterBands x (1 / 2) (5 / 10000) = .ok bands ∧
      measureFilter loss bisect x =
        if pattern bands = lowpassPattern then measureLowpassFilter loss bisect x
        else if pattern bands = highpassPattern then measureHighpassFilter loss bisect x
        else if pattern bands = bandpassPattern then measureBandpassFilter loss bisect x
        else if pattern bands = bandstopPattern then measureBandstopFilter loss bisect x
        else .ok .none := by
  obtain ⟨bands, ps, s, h1, h2, hs, hl, hps⟩ := measureBands_spec (loss := loss) hb hx
  refine ⟨bands, h1, ?_⟩
  have hlen : (pattern bands).length = ps.length := by simp [pattern, hl]
  simp only [measureFilter, measureLowpassFilter, measureHighpassFilter, measureBandpassFilter, measureBandstopFilter, h2, Out.ok_bind,
    extractFilterParameters, extractLowpass, extractHighpass, extractBandpass, extractBandstop, hasBands_eq, lowpassPattern, highpassPattern,
    bandpassPattern, bandstopPattern]
  by_cases e1 : pattern bands = [true, false]
  · rw [e1] at hlen
    match ps, hlen with
    | [p0, p1], _ => simp [e1, param, rd, orThrow]
  by_cases e2 : pattern bands = [false, true]
  · rw [e2] at hlen
    match ps, hlen with
    | [p0, p1], _ => simp [e2, param, rd, orThrow]
  by_cases e3 : pattern bands = [false, true, false]
  · rw [e3] at hlen
    match ps, hlen with
    | [p0, p1, p2], _ => simp [e3, param, rd, orThrow]
  by_cases e4 : pattern bands = [true, false, true]
  · rw [e4] at hlen
    match ps, hlen with
    | [p0, p1, p2], _ => simp [e4, param, rd, orThrow]
  simp [e1, e2, e3, e4]

/-- The hypothesis about the search is met by `Bisect` itself on finite arithmetic (C58_nonneg), and the theorems apply to a concrete
response, whatever the loss function. -/
example (loss : List ℚ → Bool → Bool → ℚ → ℚ → ℚ) : ∃ pe se pr sa,
    measureLowpassFilter loss (fun f a b => Verif.bisect ⟨fun a b => min a b, fun _ _ => 0, 1⟩ 2 f a b 0)
      [1, 1, 11 / 10, 1, 9 / 10, 0, 0, 1 / 10, 0, 0] = .ok (.lowpass pe se pr sa) ∧ 0 ≤ pe ∧ pe ≤ 5 / 10 ∧ 5 / 10 ≤ se ∧ se ≤ 1 ∧ sa = 1 / 10 := by
  have hb : NonnegSearch (K := ℚ) (fun f a b => Verif.bisect ⟨fun a b => min a b, fun _ _ => 0, 1⟩ 2 f a b 0) :=
    C58_nonneg (A := ⟨fun a b => min a b, fun _ _ => 0, 1⟩) (fun a b => ⟨le_rfl, min_le_max⟩) {0} (by simp) 0
  have hbands : extractFilterBands [(1 : ℚ), 1, 11 / 10, 1, 9 / 10, 0, 0, 1 / 10, 0, 0] (1 / 2) (5 / 10000) = .ok [⟨0, true⟩, ⟨5, false⟩] := by
    decide +kernel
  obtain ⟨bands, h1, _, h2⟩ := C53_lowpass (loss := loss) hb (x := [(1 : ℚ), 1, 11 / 10, 1, 9 / 10, 0, 0, 1 / 10, 0, 0]) (by simp)
  rw [hbands] at h1
  obtain rfl : [⟨0, true⟩, ⟨5, false⟩] = bands := by simpa using h1
  obtain ⟨pe, se, pr, sa, g1, g2, a, b, g3, g4, g5, g6, g7, g8⟩ := h2 rfl
  simp at g3
  obtain ⟨rfl, rfl⟩ := g3
  refine ⟨pe, se, pr, sa, g1, g2.1, ?_, ?_, g2.2.2, ?_⟩
  · simp at g5; linarith
  · simp at g6; linarith
  · change IsRipple [(0 : ℚ), 0, 1 / 10, 0, 0] 0 sa at g8
    have hm : LocalMax [(0 : ℚ), 0, 1 / 10, 0, 0] 2 := by
      refine ⟨le_rfl, by simp, fun j hj1 hj2 => ?_⟩
      have : j = 0 ∨ j = 1 ∨ j = 2 ∨ j = 3 ∨ j = 4 := by omega
      rcases this with e | e | e | e | e <;> subst e <;> norm_num [sig]
    have h4 : sig [(0 : ℚ), 0, 1 / 10, 0, 0] 2 = 1 / 10 := by norm_num [sig]
    have h3 := g8.2.2 2 (Or.inl hm)
    rw [h4] at h3
    rcases g8.2.1 with e | ⟨c, hc, e⟩
    · rw [e] at h3; norm_num at h3
    · have hc2 : c = 2 := by
        rcases hc with hc | hc <;> (have h5 := hc.1; have h6 := hc.2.1; simp at h6; omega)
      subst hc2
      rw [e, h4, zero_sub, abs_neg, abs_of_pos (by norm_num)]

end Verif
