import Verif.Props.Measure

/-!
# C54: where the edges of a band are put
-/

namespace Verif

variable {K : Type} [Field K] [LinearOrder K] [IsStrictOrderedRing K]

/-- the extrema that mark the edges of a band: maxima of a pass band, minima of a stop band -/
def EdgeExtremum (pass : Bool) (y : List K) (c : ℕ) : Prop := if pass then LocalMax y c else LocalMin y c

/-- `o` is the position of the first edge extremum -/
def IsFirstExtremum (pass : Bool) (y : List K) (o : Option K) : Prop :=
  (∀ e, o = some e → ∃ c : ℕ, e = c ∧ EdgeExtremum pass y c ∧ ∀ d, d < c → ¬ EdgeExtremum pass y d) ∧
  (o = none → ∀ d, ¬ EdgeExtremum pass y d)

/-- `o` is the position behind the last edge extremum -/
def IsLastExtremum (pass : Bool) (y : List K) (o : Option K) : Prop :=
  (∀ e, o = some e → ∃ c : ℕ, e = ((c + 1 : ℕ) : K) ∧ EdgeExtremum pass y c ∧ ∀ d, c < d → ¬ EdgeExtremum pass y d) ∧
  (o = none → ∀ d, ¬ EdgeExtremum pass y d)

omit [IsStrictOrderedRing K] in
theorem edgeExtremum_iff (pass : Bool) (y : List K) (c : ℕ) :
    EdgeExtremum pass y c ↔ Extremum (if pass then less else greater) y c := by
  cases pass
  · simp only [EdgeExtremum, Bool.false_eq_true, if_false]; exact (extremum_greater y c).symm
  · simp only [EdgeExtremum, if_true]; exact (extremum_less y c).symm

omit [LinearOrder K] [IsStrictOrderedRing K] in
theorem sample_reverse (y : List K) {i : ℕ} (h : i < y.length) : sig y.reverse i = sig y (y.length - 1 - i) := by
  have h1 : i < y.reverse.length := by simpa using h
  have h2 : y.length - 1 - i < y.length := by omega
  simp only [sig, List.getD_eq_getElem?_getD, List.getElem?_eq_getElem h1, List.getElem?_eq_getElem h2, Option.getD_some,
    List.getElem_reverse]

omit [LinearOrder K] [IsStrictOrderedRing K] in
theorem extremum_reverse (compare : K → K → Bool) (y : List K) {c : ℕ} (hc : c < y.length) :
    Extremum compare y.reverse c ↔ Extremum compare y (y.length - 1 - c) := by
  constructor
  · rintro ⟨h1, h2, h3⟩
    rw [List.length_reverse] at h2
    refine ⟨by omega, by omega, fun j hj1 hj2 => ?_⟩
    have := h3 (y.length - 1 - j) (by omega) (by omega)
    rwa [sample_reverse y hc, sample_reverse y (by omega), show y.length - 1 - (y.length - 1 - j) = j by omega] at this
  · rintro ⟨h1, h2, h3⟩
    refine ⟨by omega, by rw [List.length_reverse]; omega, fun j hj1 hj2 => ?_⟩
    rw [sample_reverse y hc, sample_reverse y (by omega)]
    exact h3 _ (by omega) (by omega)

omit [IsStrictOrderedRing K] in
/-- **C54**: the edges found from the ripple are at the first edge extremum and behind the last one; each is looked for only on request,
and missing only if the band has no extremum of its kind at all. -/
theorem C54_ripple_edges (y : List K) (findLeft findRight pass : Bool) :
    ∃ l r, findBandEdgesRipple y findLeft findRight pass = .ok (l, r) ∧
      (findLeft = true → IsFirstExtremum pass y l) ∧ (findLeft = false → l = none) ∧
      (findRight = true → IsLastExtremum pass y r) ∧ (findRight = false → r = none) := by
  have hc : StrictCmp (if pass then less else greater : K → K → Bool) := by
    cases pass
    · exact StrictCmp.greater
    · exact StrictCmp.less
  obtain ⟨p, hp, p1, p2, p3⟩ := findFirstExtremum_spec hc y 0
  obtain ⟨q, hq, q1, q2, q3⟩ := findFirstExtremum_spec hc y.reverse 0
  rw [List.length_reverse] at q1 q2
  refine ⟨(if findLeft then (if p ≠ y.length then some (p : K) else none) else none),
    (if findRight then (if q ≠ y.length then some ((y.length - q : ℕ) : K) else none) else none), ?_, ?_, ?_, ?_, ?_⟩
  · cases findLeft <;> cases findRight <;> simp [findBandEdgesRipple, hp, hq]
  · intro h
    rw [if_pos h]
    constructor
    · intro e he
      split at he
      · rename_i hne
        simp only [Option.some.injEq] at he
        refine ⟨p, he.symm, (edgeExtremum_iff pass y p).mpr (p1 (by omega)).2, fun d hd hex => ?_⟩
        rw [edgeExtremum_iff] at hex
        exact p3 d (by have := hex.1; omega) hd hex
      · simp at he
    · intro he d hex
      split at he
      · simp at he
      · rename_i hne
        rw [edgeExtremum_iff] at hex
        exact p3 d (by have := hex.1; omega) (by have := hex.2.1; omega) hex
  · intro h; rw [h]; rfl
  · intro h
    rw [if_pos h]
    constructor
    · intro e he
      split at he
      · rename_i hne
        simp only [Option.some.injEq] at he
        have hq1 := q1 (by omega)
        refine ⟨y.length - 1 - q, ?_, ?_, fun d hd hex => ?_⟩
        · rw [← he]; congr 1; omega
        · rw [edgeExtremum_iff, ← extremum_reverse _ y (by omega)]; exact hq1.2
        · rw [edgeExtremum_iff] at hex
          have hd2 := hex.2.1
          refine q3 (y.length - 1 - d) (by omega) (by omega) ?_
          rw [extremum_reverse _ y (by omega), show y.length - 1 - (y.length - 1 - d) = d by omega]
          exact hex
      · simp at he
    · intro he d hex
      split at he
      · simp at he
      · rename_i hne
        rw [edgeExtremum_iff] at hex
        have hd1 := hex.1
        have hd2 := hex.2.1
        refine q3 (y.length - 1 - d) (by omega) (by omega) ?_
        rw [extremum_reverse _ y (by omega), show y.length - 1 - (y.length - 1 - d) = d by omega]
        exact hex
  · intro h; rw [h]; rfl

/-- `m` is the position of the first of the largest samples of a pass band, of the smallest samples of a stop band -/
def IsPeak (pass : Bool) (y : List K) (m : ℕ) : Prop :=
  m < y.length ∧ (∀ j, j < y.length → if pass then sig y j ≤ sig y m else sig y m ≤ sig y j) ∧
    ∀ j, j < m → if pass then sig y j < sig y m else sig y m < sig y j

omit [IsStrictOrderedRing K] in
theorem extremeElement_spec {compare : K → K → Bool} (hc : StrictCmp compare) (y : List K) (hy : y ≠ []) :
    extremeElement compare y < y.length ∧ (∀ j, j < y.length → compare (sig y (extremeElement compare y)) (sig y j) = false) ∧
    ∀ j, j < extremeElement compare y → compare (sig y j) (sig y (extremeElement compare y)) = true := by
  cases y with
  | nil => exact absurd rfl hy
  | cons v xs =>
    have key : ∀ (xs pre : List K) (i : ℕ) (w : K) (m : ℕ), pre.length = i + 1 → m ≤ i → w = sig pre m →
        (∀ j, j ≤ i → compare w (sig pre j) = false) → (∀ j, j < m → compare (sig pre j) w = true) →
        let r := (xs.foldl (fun (s : Nat × K × Nat) w => if compare s.2.1 w then (s.1 + 1, w, s.1 + 1) else (s.1 + 1, s.2)) (i, w, m)).2.2
        r < (pre ++ xs).length ∧ (∀ j, j < (pre ++ xs).length → compare (sig (pre ++ xs) r) (sig (pre ++ xs) j) = false) ∧
          ∀ j, j < r → compare (sig (pre ++ xs) j) (sig (pre ++ xs) r) = true := by
      intro xs
      induction xs with
      | nil =>
        intro pre i w m hl hm hw h1 h2
        simp only [List.foldl_nil, List.append_nil]
        refine ⟨by omega, fun j hj => ?_, fun j hj => ?_⟩
        · rw [← hw]; exact h1 j (by omega)
        · rw [← hw]; exact h2 j hj
      | cons u us ih =>
        intro pre i w m hl hm hw h1 h2
        have e : pre ++ u :: us = (pre ++ [u]) ++ us := by simp
        have sl : ∀ j, j ≤ i → sig (pre ++ [u]) j = sig pre j := by
          intro j hj
          simp only [sig, List.getD_eq_getElem?_getD]; rw [List.getElem?_append_left (by omega)]
        have sr : sig (pre ++ [u]) (i + 1) = u := by
          simp only [sig, List.getD_eq_getElem?_getD]; rw [List.getElem?_append_right (by omega)]; simp [hl]
        rw [e, List.foldl_cons]
        by_cases hcu : compare w u = true
        · simp only [hcu, if_true]
          refine ih (pre ++ [u]) (i + 1) u (i + 1) (by simp [hl]) le_rfl sr.symm ?_ ?_
          · intro j hj
            by_cases hji : j ≤ i
            · rw [sl j hji]
              by_contra hcon
              have hcon : compare u (sig pre j) = true := by simpa using hcon
              have := hc.trans _ _ _ hcu hcon
              rw [h1 j hji] at this; simp at this
            · have : j = i + 1 := by omega
              rw [this, sr]; exact hc.irrefl u
          · intro j hj
            rw [sl j (by omega)]
            by_contra hcon
            have hcon : compare (sig pre j) u = false := by simpa using hcon
            have h3 := hc.le_trans (h1 j (by omega)) hcon
            rw [hcu] at h3; simp at h3
        · have hcu : compare w u = false := by simpa using hcu
          simp only [hcu, Bool.false_eq_true, if_false]
          refine ih (pre ++ [u]) (i + 1) w m (by simp [hl]) (by omega) (by rw [sl m hm]; exact hw) ?_ ?_
          · intro j hj
            by_cases hji : j ≤ i
            · rw [sl j hji]; exact h1 j hji
            · have : j = i + 1 := by omega
              rw [this, sr]; exact hcu
          · intro j hj
            rw [sl j (by omega)]; exact h2 j hj
    exact key xs [v] 0 v 0 rfl le_rfl rfl (fun j hj => by
      have : j = 0 := by omega
      subst this; exact hc.irrefl v) (fun j hj => by omega)

omit [IsStrictOrderedRing K] in
theorem isPeak_extremeElement (pass : Bool) (y : List K) (hy : y ≠ []) :
    IsPeak pass y (extremeElement (if pass then less else greater) y) := by
  cases pass
  · obtain ⟨h1, h2, h3⟩ := extremeElement_spec (StrictCmp.greater (K := K)) y hy
    exact ⟨h1, fun j hj => by simpa [greater] using h2 j hj, fun j hj => by simpa [greater] using h3 j hj⟩
  · obtain ⟨h1, h2, h3⟩ := extremeElement_spec (StrictCmp.less (K := K)) y hy
    exact ⟨h1, fun j hj => by simpa [less] using h2 j hj, fun j hj => by simpa [less] using h3 j hj⟩

/-- **C54**: the edges found by fitting are searched between half a sample and 66 % of the way to the peak of the band. -/
theorem C54_fit_edges (loss : List K → Bool → Bool → K → K → K) (bisect : (K → K) → K → K → Out K) (y : List K) (hy : y ≠ [])
    (pass : Bool) (threshold p q : K) :
    ∃ m, IsPeak pass y m ∧
      (bisect (loss y false (!pass) threshold) (1 / 2) (66 / 100 * (m : K)) = .ok p →
       bisect (loss y true (!pass) threshold) (1 / 2) (66 / 100 * ((y.length : K) - m)) = .ok q →
        findBandEdgesFit loss bisect y true true pass threshold =
          .ok (some (min (y.length : K) (3 / 2 * p)), some (max 0 ((y.length : K) - 3 / 2 * q)))) := by
  have hpk := isPeak_extremeElement pass y hy
  obtain ⟨m, hm⟩ : ∃ m, m = extremeElement (if pass then less else greater : K → K → Bool) y := ⟨_, rfl⟩
  rw [← hm] at hpk
  refine ⟨m, hpk, fun hp hq => ?_⟩
  have hcast : ((y.length - m : ℕ) : K) = (y.length : K) - m := by
    have := hpk.1
    rw [Nat.cast_sub this.le]
  have f1 : fitBand loss bisect y pass true threshold = .ok p := by
    simp only [fitBand, ← hm, if_true, Bool.not_true]; exact hp
  have f2 : fitBand loss bisect y pass false threshold = .ok q := by
    simp only [fitBand, ← hm, Bool.false_eq_true, if_false, Bool.not_false, hcast]; exact hq
  simp [findBandEdgesFit, f1, f2]

/-- the smaller one of those that are there -/
def IsMinOf (a b r : Option K) : Prop :=
  (∀ v, r = some v → (a = some v ∨ b = some v) ∧ (∀ w, a = some w → v ≤ w) ∧ ∀ w, b = some w → v ≤ w) ∧
  (r = none → a = none ∧ b = none)

/-- the larger one of those that are there -/
def IsMaxOf (a b r : Option K) : Prop :=
  (∀ v, r = some v → (a = some v ∨ b = some v) ∧ (∀ w, a = some w → w ≤ v) ∧ ∀ w, b = some w → w ≤ v) ∧
  (r = none → a = none ∧ b = none)

omit [IsStrictOrderedRing K] in
theorem isMinOf_minOptional (a b : Option K) : IsMinOf a b (minOptional a b) := by
  cases a with
  | none => cases b <;> simp [IsMinOf, minOptional]
  | some u =>
    cases b with
    | none => simp [IsMinOf, minOptional]
    | some w =>
      simp only [minOptional]
      by_cases h : u < w
      · rw [if_pos h]; simp [IsMinOf, h.le]
      · rw [if_neg h]; simp [IsMinOf, not_lt.mp h]

omit [IsStrictOrderedRing K] in
theorem isMaxOf_maxOptional (a b : Option K) : IsMaxOf a b (maxOptional a b) := by
  cases a with
  | none => cases b <;> simp [IsMaxOf, maxOptional]
  | some u =>
    cases b with
    | none => simp [IsMaxOf, maxOptional]
    | some w =>
      simp only [maxOptional]
      by_cases h : w ≤ u
      · rw [if_pos h]; simp [IsMaxOf, h]
      · rw [if_neg h]; simp [IsMaxOf, (not_le.mp h).le]

/-- **C54**: the edges reported for a band are the outermost of the two candidates, the fitted and the ripple edge, counted from the start
of the whole response; a border of the response itself is not moved. -/
theorem C54_band_edges (loss : List K → Bool → Bool → K → K → K) (bisect : (K → K) → K → K → Out K) (hb : NonnegSearch bisect)
    (x : List K) (hx : x ≠ []) (threshold : K) (b : Band) {last : ℕ} (h1 : b.first ≤ last) (h2 : last ≤ x.length)
    (findLeft findRight : Bool) :
    ∃ p fit ripple lo hi, parametrizeBand loss bisect x threshold b last findLeft findRight = .ok p ∧
      findBandEdgesFit loss bisect (slice x b.first last) findLeft findRight b.pass threshold = .ok fit ∧
      findBandEdgesRipple (slice x b.first last) findLeft findRight b.pass = .ok ripple ∧
      IsMinOf fit.1 ripple.1 lo ∧ IsMaxOf fit.2 ripple.2 hi ∧
      p.lowerEdge * x.length = b.first + lo.getD 0 ∧ p.upperEdge * x.length = b.first + hi.getD ((last : K) - b.first) := by
  obtain ⟨e, he, -, -⟩ := findBandEdgesFit_spec (loss := loss) hb (slice x b.first last) findLeft findRight b.pass threshold
  obtain ⟨r, hr, -, -⟩ := findBandEdgesRipple_spec (slice x b.first last) findLeft findRight b.pass
  obtain ⟨o, ho, -⟩ := measureBandRipple_spec (slice x b.first last) b.pass
  have hlen : (slice x b.first last).length = last - b.first := by simp [slice]; omega
  have hN : (x.length : K) ≠ 0 := by
    have : 0 < x.length := List.length_pos_iff.mpr hx
    positivity
  have hcast : ((slice x b.first last).length : K) = (last : K) - b.first := by
    rw [hlen]; push_cast [h1]; ring
  refine ⟨⟨((b.first : K) + (minOptional e.1 r.1).getD 0) / (x.length : K),
    ((b.first : K) + (maxOptional e.2 r.2).getD ((slice x b.first last).length : K)) / (x.length : K), o.getD 0⟩,
    e, r, minOptional e.1 r.1, maxOptional e.2 r.2, ?_, he, hr, isMinOf_minOptional _ _, isMaxOf_maxOptional _ _, ?_, ?_⟩
  · simp only [slice] at he hr ho ⊢
    simp only [parametrizeBand, h1, h2, and_self, if_true, he, hr, ho, Out.ok_bind, Out.pure_def]
  · simp only [div_mul_cancel₀ _ hN]
  · simp only [div_mul_cancel₀ _ hN, hcast]

-- a pass band with two ripples
example : findBandEdgesRipple [(1 / 2 : ℚ), 9 / 10, 11 / 10, 1, 9 / 10, 1, 12 / 10, 1, 7 / 10] true true true = .ok (some 2, some 7) := by
  decide +kernel
example : IsPeak true [(1 / 2 : ℚ), 9 / 10, 11 / 10, 1, 9 / 10, 1, 12 / 10, 1, 7 / 10] 6 := by
  have h := isPeak_extremeElement (K := ℚ) true [(1 / 2 : ℚ), 9 / 10, 11 / 10, 1, 9 / 10, 1, 12 / 10, 1, 7 / 10] (by simp)
  have e : extremeElement (if true then less else greater) [(1 / 2 : ℚ), 9 / 10, 11 / 10, 1, 9 / 10, 1, 12 / 10, 1, 7 / 10] = 6 := by
    decide +kernel
  rwa [e] at h

end Verif
