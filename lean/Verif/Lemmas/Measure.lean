import Verif.Spec.Measure
import Mathlib.Tactic.Ring
import Mathlib.Tactic.Linarith
import Mathlib.Algebra.Order.Ring.Unbundled.Basic

set_option linter.unusedSimpArgs false
set_option linter.unusedSectionVars false
set_option linter.unusedVariables false

namespace Verif

variable {K : Type} [Field K] [LinearOrder K]

theorem sample_getElem {x : List K} {i : ℕ} (h : i < x.length) : sig x i = x[i] := by
  simp [sig, h]

theorem rd_sample {x : List K} {i : ℕ} (h : i < x.length) : rd x (i : Int) = .ok (sig x i) := by
  rw [rd_ofNat h, sample_getElem h]

theorem findIf_spec (x : List K) (a : ℕ) (p : K → Bool) (ha : a ≤ x.length) :
    a ≤ findIf x a p ∧ findIf x a p ≤ x.length ∧ (findIf x a p < x.length → p (sig x (findIf x a p)) = true) ∧
      ∀ i, a ≤ i → i < findIf x a p → p (sig x i) = false := by
  have hle : (x.drop a).findIdx p ≤ (x.drop a).length := List.findIdx_le_length
  have hl : (x.drop a).length = x.length - a := List.length_drop
  unfold findIf
  refine ⟨by omega, by omega, fun h => ?_, fun i h1 h2 => ?_⟩
  · have h' : (x.drop a).findIdx p < (x.drop a).length := by omega
    have := List.findIdx_getElem (w := h')
    rw [List.getElem_drop] at this
    rw [sample_getElem h]; exact this
  · have h' : i - a < (x.drop a).findIdx p := by omega
    have := List.not_of_lt_findIdx h'
    rw [List.getElem_drop] at this
    have e : a + (i - a) = i := by omega
    simp only [e] at this
    rw [sample_getElem (by omega)]
    simpa using this

/-- what is known after some turns of the loop -/
structure Partial (x : List K) (threshold noise : K) (st : ExtractState) (s : ℕ → ℕ) : Prop where
  enterFirst : s 0 = 0
  enterLast : s st.bands.length = st.it
  itLe : st.it ≤ x.length
  advance : ∀ k, k < st.bands.length → s k < s (k + 1)
  flag : ∀ k b, st.bands[k]? = some b → (b.pass = true ↔ threshold < sig x (s k))
  stayPass : ∀ k b, st.bands[k]? = some b → b.pass = true → ∀ i, s k ≤ i → i < s (k + 1) → threshold - noise < sig x i
  stayStop : ∀ k b, st.bands[k]? = some b → b.pass = false → ∀ i, s k ≤ i → i < s (k + 1) → sig x i ≤ threshold + noise
  leavePass : ∀ k b, st.bands[k]? = some b → s (k + 1) < x.length → b.pass = true → sig x (s (k + 1)) ≤ threshold - noise
  leaveStop : ∀ k b, st.bands[k]? = some b → s (k + 1) < x.length → b.pass = false → threshold + noise < sig x (s (k + 1))
  startFirst : (∀ b, st.bands[0]? = some b → b.first = 0) ∧ (st.bands = [] → st.index = 0)
  start : ∀ k b, st.bands[k]? = some b → s (k + 1) < x.length → ∃ t, s k ≤ t ∧ t ≤ s (k + 1) ∧
    (∀ c, st.bands[k + 1]? = some c → c.first = (s (k + 1) + t) / 2) ∧
    (k + 1 = st.bands.length → st.index = (s (k + 1) + t) / 2) ∧
    (b.pass = true → sig x t ≤ threshold + noise ∧ ∀ i, s k ≤ i → i < t → threshold + noise < sig x i) ∧
    (b.pass = false → threshold - noise < sig x t ∧ ∀ i, s k ≤ i → i < t → sig x i ≤ threshold - noise)

theorem Partial.mono {x : List K} {threshold noise : K} {st : ExtractState} {s : ℕ → ℕ} (h : Partial x threshold noise st s)
    {j k : ℕ} (hjk : j ≤ k) (hk : k ≤ st.bands.length) : s j ≤ s k := by
  induction hjk with
  | refl => exact le_rfl
  | step _ ih => exact (ih (by omega)).trans (h.advance _ (by omega)).le

variable [IsStrictOrderedRing K]

theorem extractStep_spec {x : List K} {threshold noise : K} (hn : 0 ≤ noise) {st : ExtractState} {s : ℕ → ℕ}
    (h : Partial x threshold noise st s) (hit : st.it < x.length) :
    ∃ st', extractStep x threshold (threshold + noise) (threshold - noise) st = .ok st' ∧ st.it < st'.it ∧
      st'.bands.length = st.bands.length + 1 ∧ ∃ s', Partial x threshold noise st' s' := by
  obtain ⟨pass, hpass⟩ : ∃ pass, pass = decide (threshold < sig x st.it) := ⟨_, rfl⟩
  obtain ⟨tr, htr⟩ : ∃ tr, tr = findIf x st.it
    (fun bin => decide ((if pass then threshold + noise else threshold - noise) < bin) != pass) := ⟨_, rfl⟩
  obtain ⟨co, hco⟩ : ∃ co, co = findIf x st.it
    (fun bin => decide ((if pass then threshold - noise else threshold + noise) < bin) != pass) := ⟨_, rfl⟩
  obtain ⟨t1, t2, t3, t4⟩ := findIf_spec x st.it
    (fun bin => decide ((if pass then threshold + noise else threshold - noise) < bin) != pass) hit.le
  obtain ⟨c1, c2, c3, c4⟩ := findIf_spec x st.it
    (fun bin => decide ((if pass then threshold - noise else threshold + noise) < bin) != pass) hit.le
  rw [← htr] at t1 t2 t3 t4
  rw [← hco] at c1 c2 c3 c4
  have hpos : st.it < co := by
    rcases Nat.lt_or_ge st.it co with h1 | h1
    · exact h1
    · have e : co = st.it := by omega
      have := c3 (by omega)
      rw [e] at this
      cases hp : pass <;> rw [hp] at this hpass <;> simp at this hpass <;> linarith
  have htc : co < x.length → tr ≤ co := by
    intro hc
    by_contra hlt
    have h3 := c3 hc
    have h4 := t4 co (by omega) (by omega)
    cases hp : pass <;> rw [hp] at h3 h4 <;> simp at h3 h4 <;> linarith
  refine ⟨⟨st.bands ++ [⟨st.index, pass⟩], co, (co + tr) / 2⟩, ?_, hpos, by simp, 
    fun k => if k ≤ st.bands.length then s k else co, ?_⟩
  · simp only [extractStep, rd_sample hit, Out.ok_bind, Out.pure_def]
    rw [← hpass, ← htr, ← hco]
  · have hlast : ∀ b, (st.bands ++ [⟨st.index, pass⟩])[st.bands.length]? = some b → b = ⟨st.index, pass⟩ := by
      intro b hb; simpa using hb.symm
    have hold : ∀ k b, (st.bands ++ [(⟨st.index, pass⟩ : Band)])[k]? = some b → k ≠ st.bands.length → k < st.bands.length ∧ st.bands[k]? = some b := by
      intro k b hb hk
      have hkl : k < (st.bands ++ [(⟨st.index, pass⟩ : Band)]).length := (List.getElem?_eq_some_iff.mp hb).1
      simp at hkl
      have hk' : k < st.bands.length := by omega
      rw [List.getElem?_append_left hk'] at hb
      exact ⟨hk', hb⟩
    refine ⟨?_, ?_, c2, ?_, ?_, ?_, ?_, ?_, ?_, ?_, ?_⟩
    · simp [h.enterFirst]
    · simp
    · intro k hk
      simp at hk
      by_cases e : k = st.bands.length
      · subst e; simp [h.enterLast]; exact hpos
      · rw [if_pos (by omega), if_pos (by omega)]; exact h.advance k (by omega)
    · intro k b hb
      by_cases e : k = st.bands.length
      · subst e; rw [hlast b hb]; simp [h.enterLast, hpass]
      · obtain ⟨hk, hb'⟩ := hold k b hb e
        rw [if_pos (by omega)]; exact h.flag k b hb'
    · intro k b hb hp i h1 h2
      by_cases e : k = st.bands.length
      · subst e; rw [hlast b hb] at hp; simp at hp
        simp [h.enterLast] at h1 h2
        have := c4 i h1 h2
        rw [hp] at this; simpa using this
      · obtain ⟨hk, hb'⟩ := hold k b hb e
        rw [if_pos (by omega)] at h1; rw [if_pos (by omega)] at h2
        exact h.stayPass k b hb' hp i h1 h2
    · intro k b hb hp i h1 h2
      by_cases e : k = st.bands.length
      · subst e; rw [hlast b hb] at hp; simp at hp
        simp [h.enterLast] at h1 h2
        have := c4 i h1 h2
        rw [hp] at this; simpa using this
      · obtain ⟨hk, hb'⟩ := hold k b hb e
        rw [if_pos (by omega)] at h1; rw [if_pos (by omega)] at h2
        exact h.stayStop k b hb' hp i h1 h2
    · intro k b hb hl hp
      by_cases e : k = st.bands.length
      · subst e; rw [hlast b hb] at hp; simp at hp
        simp at hl ⊢
        have := c3 hl
        rw [hp] at this; simpa using this
      · obtain ⟨hk, hb'⟩ := hold k b hb e
        rw [if_pos (by omega)] at hl ⊢
        exact h.leavePass k b hb' hl hp
    · intro k b hb hl hp
      by_cases e : k = st.bands.length
      · subst e; rw [hlast b hb] at hp; simp at hp
        simp at hl ⊢
        have := c3 hl
        rw [hp] at this; simpa using this
      · obtain ⟨hk, hb'⟩ := hold k b hb e
        rw [if_pos (by omega)] at hl ⊢
        exact h.leaveStop k b hb' hl hp
    · refine ⟨fun b hb => ?_, fun hb => by simp at hb⟩
      by_cases e : 0 = st.bands.length
      · have : st.bands = [] := List.eq_nil_of_length_eq_zero e.symm
        rw [e] at hb
        rw [hlast b hb]; exact h.startFirst.2 this
      · exact h.startFirst.1 b (hold 0 b hb e).2
    · intro k b hb hl
      by_cases e : k = st.bands.length
      · subst e
        simp at hl
        have hb' := hlast b hb
        subst hb'
        refine ⟨tr, by simp [h.enterLast]; exact t1, by simpa using htc hl, ?_, ?_, ?_, ?_⟩
        · intro c hc
          have := (List.getElem?_eq_some_iff.mp hc).1
          simp at this
        · intro _; simp
        · intro hp
          simp at hp
          have h3 := t3 (lt_of_le_of_lt (htc hl) hl)
          refine ⟨by rw [hp] at h3; simpa using h3, fun i h1 h2 => ?_⟩
          simp [h.enterLast] at h1
          have := t4 i h1 h2
          rw [hp] at this; simpa using this
        · intro hp
          simp at hp
          have h3 := t3 (lt_of_le_of_lt (htc hl) hl)
          refine ⟨by rw [hp] at h3; simpa using h3, fun i h1 h2 => ?_⟩
          simp [h.enterLast] at h1
          have := t4 i h1 h2
          rw [hp] at this; simpa using this
      · obtain ⟨hk, hb'⟩ := hold k b hb e
        have e1 : (if k ≤ st.bands.length then s k else co) = s k := if_pos (by omega)
        have e2 : (if k + 1 ≤ st.bands.length then s (k + 1) else co) = s (k + 1) := if_pos (by omega)
        simp only [e1, e2] at hl ⊢
        obtain ⟨t, u1, u2, u3, u4, u5⟩ := h.start k b hb' hl
        refine ⟨t, u1, u2, fun c hc => ?_, fun hk' => ?_, u5⟩
        · by_cases e' : k + 1 = st.bands.length
          · rw [e'] at hc
            rw [hlast c hc]
            exact u4 e'
          · exact u3 c (hold _ c hc e').2
        · simp at hk'; omega

theorem extractFilterBands_spec {x : List K} (hx : x ≠ []) (threshold : K) {noise : K} (hn : 0 ≤ noise) :
    ∃ bands, extractFilterBands x threshold noise = .ok bands ∧ ∃ s, Segmentation x threshold noise bands s := by
  have hpos : 0 < x.length := List.length_pos_iff.mpr hx
  have h0 : Partial x threshold noise ⟨[], 0, 0⟩ (fun _ => 0) := by
    constructor <;> simp
  obtain ⟨st, hst, hit, hlen, s1, h1⟩ := extractStep_spec hn h0 hpos
  have key := whileN_measure (cond := fun s => decide (s.it ≠ x.length))
    (body := extractStep x threshold (threshold + noise) (threshold - noise))
    (fun st => st.bands ≠ [] ∧ ∃ s, Partial x threshold noise st s) (fun st => x.length - st.it) (by
      rintro st ⟨hne, s, hs⟩ hc
      have hlt : st.it < x.length := lt_of_le_of_ne hs.itLe (by simpa using hc)
      obtain ⟨st', h1, h2, h3, s', h4⟩ := extractStep_spec hn hs hlt
      refine ⟨st', h1, ⟨?_, s', h4⟩, by omega⟩
      intro e; rw [e] at h3; simp at h3) (x.length + 1) st (by omega)
    ⟨by intro e; rw [e] at hlen; simp at hlen, s1, h1⟩
  obtain ⟨st', hw, ⟨hne, s, hs⟩, hc⟩ := key
  have he : st'.it = x.length := by simpa using hc
  refine ⟨st'.bands, by simp only [extractFilterBands, hst, hw, Out.ok_bind, Out.pure_def], s, hne, hs.enterFirst, by rw [hs.enterLast, he], hs.advance, hs.flag,
    hs.stayPass, hs.stayStop, ?_, ?_, hs.startFirst.1, ?_⟩
  · intro k b hb hk hp
    have : s (k + 1) < x.length := by
      rw [← he, ← hs.enterLast]
      exact lt_of_lt_of_le (hs.advance (k + 1) hk) (hs.mono (by omega) le_rfl)
    exact hs.leavePass k b hb this hp
  · intro k b hb hk hp
    have : s (k + 1) < x.length := by
      rw [← he, ← hs.enterLast]
      exact lt_of_lt_of_le (hs.advance (k + 1) hk) (hs.mono (by omega) le_rfl)
    exact hs.leaveStop k b hb this hp
  · intro k b c hb hc
    have hk : k + 1 < st'.bands.length := (List.getElem?_eq_some_iff.mp hc).1
    have : s (k + 1) < x.length := by
      rw [← he, ← hs.enterLast]
      exact lt_of_lt_of_le (hs.advance (k + 1) hk) (hs.mono (by omega) le_rfl)
    obtain ⟨t, h1, h2, h3, _, h5⟩ := hs.start k b hb this
    exact ⟨t, h1, h2, h3 c hc, h5⟩

/-- what the comparisons `std::less` and `std::greater` have in common -/
structure StrictCmp (compare : K → K → Bool) : Prop where
  irrefl : ∀ a, compare a a = false
  trans : ∀ a b c, compare a b = true → compare b c = true → compare a c = true
  tri : ∀ a b, compare a b = false → compare b a = false → a = b

omit [IsStrictOrderedRing K] in
theorem StrictCmp.less : StrictCmp (less : K → K → Bool) := by
  refine ⟨?_, ?_, ?_⟩ <;> simp only [Verif.less, decide_eq_true_eq, decide_eq_false_iff_not, not_lt]
  · exact fun a => le_rfl
  · exact fun a b c h1 h2 => h1.trans h2
  · exact fun a b h1 h2 => le_antisymm h2 h1

omit [IsStrictOrderedRing K] in
theorem StrictCmp.greater : StrictCmp (greater : K → K → Bool) := by
  refine ⟨?_, ?_, ?_⟩ <;> simp only [Verif.greater, decide_eq_true_eq, decide_eq_false_iff_not, not_lt]
  · exact fun a => le_rfl
  · exact fun a b c h1 h2 => h2.trans h1
  · exact fun a b h1 h2 => le_antisymm h1 h2

omit [Field K] [LinearOrder K] [IsStrictOrderedRing K] in
theorem StrictCmp.le_trans {compare : K → K → Bool} (hc : StrictCmp compare) {a b d : K} (h1 : compare a b = false)
    (h2 : compare b d = false) : compare a d = false := by
  by_contra h
  have h : compare a d = true := by simpa using h
  cases h3 : compare d b
  · have := hc.tri _ _ h2 h3
    rw [this, h] at h1; simp at h1
  · have := hc.trans _ _ _ h h3
    rw [h1] at this; simp at this

/-- centre of a window of five samples none of which beats it -/
def Extremum (compare : K → K → Bool) (x : List K) (c : ℕ) : Prop :=
  2 ≤ c ∧ c + 2 < x.length ∧ ∀ j, c ≤ j + 2 → j ≤ c + 2 → compare (sig x c) (sig x j) = false

omit [IsStrictOrderedRing K] in
theorem extremum_less (x : List K) (c : ℕ) : Extremum less x c ↔ LocalMax x c := by
  simp [Extremum, LocalMax, less]

omit [IsStrictOrderedRing K] in
theorem extremum_greater (x : List K) (c : ℕ) : Extremum greater x c ↔ LocalMin x c := by
  simp [Extremum, LocalMin, greater]

omit [IsStrictOrderedRing K] in
theorem extremumAt_spec {compare : K → K → Bool} (hc : StrictCmp compare) (x : List K) {base : ℕ} (hb : base < x.length) :
    ∃ r, extremumAt x base kernelSize compare = .ok r ∧
      (∀ p, r = some p → p = base + 2 ∧ Extremum compare x (base + 2)) ∧ (r = none → ¬ Extremum compare x (base + 2)) := by
  have key := forN_inv (body := fun strideIdx (s : K × Option (K × Nat)) => do
    let w ← rd x ((base + strideIdx : Nat) : Int)
    let extremeValue := cmax compare s.1 w
    pure (extremeValue, if strideIdx = kernelSize / 2 then some (w, base + strideIdx) else s.2))
    (fun k s => (∀ j, base ≤ j → j < base + k → compare s.1 (sig x j) = false) ∧
      (∃ j, base ≤ j ∧ j < base + 5 ∧ j < x.length ∧ s.1 = sig x j) ∧
      s.2 = if 2 < k then some (sig x (base + 2), base + 2) else none)
    (min kernelSize (x.length - base)) (sig x base, none)
    ⟨by intro j h1 h2; omega, ⟨base, le_rfl, by omega, hb, rfl⟩, by simp⟩
  replace key := key (by
    rintro k ⟨e, o⟩ hk ⟨h1, ⟨m, m1, m2, m3, h2⟩, h3⟩
    have hk5 : k < 5 := lt_of_lt_of_le hk (Nat.min_le_left _ _)
    have hkx : base + k < x.length := by
      have : k < x.length - base := lt_of_lt_of_le hk (Nat.min_le_right _ _)
      omega
    simp only at h1 h2 h3
    refine ⟨(cmax compare e (sig x (base + k)), if k = 2 then some (sig x (base + k), base + k) else o), ?_, ?_, ?_, ?_⟩
    · rw [rd_sample hkx]; rfl
    · intro j hj1 hj2
      simp only [cmax]
      by_cases hlt : j < base + k
      · split
        · rename_i hcm
          have hs : compare (sig x (base + k)) e = false := by
            by_contra h
            have := hc.trans _ _ _ hcm (by simpa using h)
            rw [hc.irrefl] at this; simp at this
          exact hc.le_trans hs (h1 j hj1 hlt)
        · exact h1 j hj1 hlt
      · have : j = base + k := by omega
        subst this
        split
        · exact hc.irrefl _
        · rename_i hcm; simpa using hcm
    · simp only [cmax]
      split
      · exact ⟨base + k, by omega, by omega, hkx, rfl⟩
      · exact ⟨m, m1, m2, m3, h2⟩
    · simp only
      by_cases e2 : k = 2
      · subst e2; simp
      · rw [if_neg e2, h3]
        by_cases e3 : 2 < k
        · rw [if_pos e3, if_pos (by omega)]
        · rw [if_neg e3, if_neg (by omega)])
  obtain ⟨⟨e, o⟩, hf, h1, ⟨m, m1, m2, m3, h2⟩, h3⟩ := key
  simp only at h1 h2 h3
  unfold extremumAt
  simp only [rd_sample hb, Out.ok_bind, Out.pure_def] at hf ⊢
  simp only [hf, Out.ok_bind]
  by_cases hfull : base + 5 ≤ x.length
  · have hm : min kernelSize (x.length - base) = 5 := Nat.min_eq_left (by show 5 ≤ _; omega)
    rw [hm] at h1 h3 ⊢
    rw [if_pos (by omega)] at h3
    subst h3
    refine ⟨if e = sig x (base + 2) then some (base + 2) else none, by simp, ?_, ?_⟩
    · intro p hp
      split at hp
      · rename_i he
        refine ⟨by simpa using hp.symm, by omega, by omega, fun j hj1 hj2 => ?_⟩
        rw [← he]; exact h1 j (by omega) (by omega)
      · simp at hp
    · intro hn hex
      split at hn
      · simp at hn
      · rename_i he
        apply he
        have a1 := h1 (base + 2) (by omega) (by omega)
        have a2 := hex.2.2 m (by omega) (by omega)
        rw [← h2] at a2
        exact hc.tri _ _ a1 a2
  · have hm : min kernelSize (x.length - base) = x.length - base := Nat.min_eq_right (by show _ ≤ 5; omega)
    rw [hm] at h3 ⊢
    refine ⟨none, ?_, by simp, fun _ hex => ?_⟩
    · rw [h3]
      split
      · have hne : ¬ (x.length - base = 5) := by omega
        simp [hne]
      · rfl
    · have := hex.2.1; omega

omit [IsStrictOrderedRing K] in
theorem findFirstExtremum_spec {compare : K → K → Bool} (hc : StrictCmp compare) (x : List K) (first : ℕ) :
    ∃ p, findFirstExtremum x first kernelSize compare = .ok p ∧ FirstFrom (Extremum compare x) first x.length p := by
  have key := forN_inv (body := fun i (r : Option Nat) =>
    match r with
    | some p => pure (some p)
    | none => extremumAt x (first + i) kernelSize compare)
    (fun i r => (∀ p, r = some p → first + 2 ≤ p ∧ Extremum compare x p ∧ ∀ c, first + 2 ≤ c → c < p → ¬ Extremum compare x c) ∧
      (r = none → ∀ c, first + 2 ≤ c → c < first + i + 2 → ¬ Extremum compare x c)) (x.length - first) none
    ⟨by simp, fun _ c h1 h2 => by omega⟩
  replace key := key (by
    rintro i r hi ⟨h1, h2⟩
    cases r with
    | some p => exact ⟨some p, rfl, h1, by simp⟩
    | none =>
      obtain ⟨r', e, g1, g2⟩ := extremumAt_spec hc x (base := first + i) (by omega)
      refine ⟨r', e, ?_, ?_⟩
      · intro p hp
        obtain ⟨g3, g4⟩ := g1 p hp
        subst g3
        exact ⟨by omega, g4, fun c hc1 hc2 => h2 rfl c hc1 (by omega)⟩
      · intro hn c hc1 hc2
        by_cases e : c = first + i + 2
        · subst e; exact g2 hn
        · exact h2 rfl c hc1 (by omega))
  obtain ⟨r, hf, h1, h2⟩ := key
  refine ⟨r.getD x.length, congrArg (fun o : Out (Option ℕ) => o >>= fun r => pure (r.getD x.length)) hf, ?_⟩
  cases r with
  | some p =>
    obtain ⟨g1, g2, g3⟩ := h1 p rfl
    exact ⟨fun _ => ⟨g1, g2⟩, by have := g2.2.1; simp; omega, g3⟩
  | none =>
    refine ⟨fun h => by simp at h, by simp, fun c hc1 hc2 hex => ?_⟩
    have := hex.2.1
    exact h2 rfl c hc1 (by omega) hex

theorem rippleLoop_spec {compare : K → K → Bool} (hc : StrictCmp compare) (x : List K) (target init : K) :
    ∃ d, rippleLoop x target compare init = .ok d ∧ init ≤ d ∧ (d = init ∨ ∃ c, Extremum compare x c ∧ d = |target - sig x c|) ∧
      ∀ c, Extremum compare x c → |target - sig x c| ≤ d := by
  have key := whileN_measure (cond := fun (s : Nat × K) => decide (s.1 ≠ x.length)) (body := fun s => do
    let it ← findFirstExtremum x s.1 kernelSize compare
    if it ≠ x.length then do
      let v ← rd x it
      pure (it, max s.2 |target - v|)
    else pure (it, s.2))
    (fun s => s.1 ≤ x.length ∧ init ≤ s.2 ∧ (s.2 = init ∨ ∃ c, Extremum compare x c ∧ s.2 = |target - sig x c|) ∧
      (s.1 = 0 ∨ s.1 = x.length ∨ Extremum compare x s.1) ∧
      ∀ c, Extremum compare x c → c ≤ s.1 → |target - sig x c| ≤ s.2) (fun s => x.length - s.1) (by
    rintro ⟨p, d⟩ ⟨h1, h2, h3, h4, h5⟩ hcond
    simp only at h1 h2 h3 h4 h5 hcond ⊢
    have hp : p < x.length := lt_of_le_of_ne h1 (by simpa using hcond)
    obtain ⟨q, hq, q1, q2, q3⟩ := findFirstExtremum_spec hc x p
    -- an extremum next to the previous one has the same value
    have hskip : ∀ c, Extremum compare x c → c < q → |target - sig x c| ≤ d := by
      intro c hex hcq
      rcases Nat.lt_or_ge p c with hpc | hpc
      · have hc1 : c = p + 1 := by
          by_contra hne
          exact q3 c (by omega) hcq hex
        rcases h4 with e | e | e
        · have := hex.1; omega
        · omega
        · have a1 := e.2.2 c (by omega) (by omega)
          have a2 := hex.2.2 p (by omega) (by omega)
          rw [← hc.tri _ _ a1 a2]
          exact h5 p e le_rfl
      · exact h5 c hex hpc
    rw [hq]
    by_cases hqe : q = x.length
    · refine ⟨(q, d), by simp [hqe], ⟨q2, h2, h3, Or.inr (Or.inl hqe), fun c hex hcq => ?_⟩, ?_⟩
      · simp only at hcq ⊢
        have := hex.2.1
        exact hskip c hex (by omega)
      · simp only; omega
    · have hql : q < x.length := by omega
      obtain ⟨g1, g2⟩ := q1 hql
      refine ⟨(q, max d |target - sig x q|), by simp [hqe, rd_sample hql], ⟨q2, ?_, ?_, Or.inr (Or.inr g2), ?_⟩, ?_⟩
      · exact h2.trans (le_max_left _ _)
      · simp only
        rcases le_total d |target - sig x q| with h | h
        · rw [max_eq_right h]; exact Or.inr ⟨q, g2, rfl⟩
        · rw [max_eq_left h]; exact h3
      · intro c hex hcq
        simp only at hcq ⊢
        by_cases e : c = q
        · subst e; exact le_max_right _ _
        · exact (hskip c hex (by omega)).trans (le_max_left _ _)
      · simp only; omega) (x.length + 1) (0, init) (by simp only; omega)
    ⟨by simp, le_rfl, Or.inl rfl, Or.inl rfl, fun c hex h => by have := hex.1; simp only at h; omega⟩
  obtain ⟨⟨p, d⟩, hw, ⟨h1, h2, h3, h4, h5⟩, hcond⟩ := key
  simp only at h1 h2 h3 h4 h5
  have hp : p = x.length := by simpa using hcond
  refine ⟨d, by rw [rippleLoop, hw]; rfl, h2, h3, fun c hex => h5 c hex ?_⟩
  have := hex.2.1; omega

theorem measureBandRipple_spec (y : List K) (pass : Bool) :
    ∃ o, measureBandRipple y pass = .ok o ∧ IsRipple y (if pass then 1 else 0) (o.getD 0) := by
  obtain ⟨d1, h1, a1, b1, c1⟩ := rippleLoop_spec (StrictCmp.less (K := K)) y (if pass then 1 else 0) (-1)
  obtain ⟨d2, h2, a2, b2, c2⟩ := rippleLoop_spec (StrictCmp.greater (K := K)) y (if pass then 1 else 0) d1
  refine ⟨if 0 < d2 then some d2 else none, by simp only [measureBandRipple, h1, h2, Out.ok_bind, Out.pure_def], ?_⟩
  have hub : ∀ c, LocalMax y c ∨ LocalMin y c → |(if pass then 1 else 0) - sig y c| ≤ d2 := by
    rintro c (h | h)
    · exact (c1 c ((extremum_less y c).mpr h)).trans a2
    · exact c2 c ((extremum_greater y c).mpr h)
  by_cases hp : 0 < d2
  · rw [if_pos hp]
    refine ⟨hp.le, Or.inr ?_, hub⟩
    rcases b2 with e | ⟨c, hc, e⟩
    · rcases b1 with e' | ⟨c, hc, e'⟩
      · exfalso; rw [e, e'] at hp; linarith [zero_lt_one (α := K)]
      · exact ⟨c, Or.inl ((extremum_less y c).mp hc), by simp only [Option.getD_some]; rw [e, e']⟩
    · exact ⟨c, Or.inr ((extremum_greater y c).mp hc), e⟩
  · rw [if_neg hp]
    exact ⟨le_rfl, Or.inl rfl, fun c h => (hub c h).trans (not_lt.mp hp)⟩

/-- the interval search returns something, and never a negative parameter for an interval without negative numbers -/
def NonnegSearch (bisect : (K → K) → K → K → Out K) : Prop :=
  ∀ f a b, 0 ≤ a → 0 ≤ b → ∃ c, bisect f a b = .ok c ∧ 0 ≤ c

theorem fitBand_spec {loss : List K → Bool → Bool → K → K → K} {bisect : (K → K) → K → K → Out K} (hb : NonnegSearch bisect)
    (y : List K) (pass left : Bool) (threshold : K) : ∃ p, fitBand loss bisect y pass left threshold = .ok p ∧ 0 ≤ p := by
  unfold fitBand
  refine hb _ _ _ (by positivity) ?_
  split <;> positivity

theorem findBandEdgesFit_spec {loss : List K → Bool → Bool → K → K → K} {bisect : (K → K) → K → K → Out K} (hb : NonnegSearch bisect)
    (y : List K) (findLeft findRight pass : Bool) (threshold : K) :
    ∃ e, findBandEdgesFit loss bisect y findLeft findRight pass threshold = .ok e ∧
      (∀ l, e.1 = some l → 0 ≤ l ∧ l ≤ (y.length : K)) ∧ (∀ l, e.2 = some l → 0 ≤ l ∧ l ≤ (y.length : K)) := by
  obtain ⟨p, hp, hp0⟩ := fitBand_spec (loss := loss) hb y pass true threshold
  obtain ⟨q, hq, hq0⟩ := fitBand_spec (loss := loss) hb y pass false threshold
  have hn : (0 : K) ≤ (y.length : K) := by positivity
  have h1 : 0 ≤ min (y.length : K) (3 / 2 * p) ∧ min (y.length : K) (3 / 2 * p) ≤ y.length :=
    ⟨le_min hn (by positivity), min_le_left _ _⟩
  have h2 : 0 ≤ max 0 ((y.length : K) - 3 / 2 * q) ∧ max 0 ((y.length : K) - 3 / 2 * q) ≤ y.length :=
    ⟨le_max_left _ _, max_le hn (by have : 0 ≤ 3 / 2 * q := by positivity
                                    linarith)⟩
  refine ⟨(if findLeft then some (min (y.length : K) (3 / 2 * p)) else none,
    if findRight then some (max 0 ((y.length : K) - 3 / 2 * q)) else none), ?_, ?_, ?_⟩
  · cases findLeft <;> cases findRight <;> simp [findBandEdgesFit, hp, hq]
  · intro l hl
    cases findLeft
    · simp at hl
    · simp only [if_pos, Option.some.injEq] at hl
      rw [← hl]; exact h1
  · intro l hl
    cases findRight
    · simp at hl
    · simp only [if_pos, Option.some.injEq] at hl
      rw [← hl]; exact h2

theorem findBandEdgesRipple_spec (y : List K) (findLeft findRight pass : Bool) :
    ∃ e, findBandEdgesRipple y findLeft findRight pass = .ok e ∧
      (∀ l, e.1 = some l → 0 ≤ l ∧ l ≤ (y.length : K)) ∧ (∀ l, e.2 = some l → 0 ≤ l ∧ l ≤ (y.length : K)) := by
  have hc : StrictCmp (if pass then less else greater : K → K → Bool) := by
    cases pass
    · exact StrictCmp.greater
    · exact StrictCmp.less
  obtain ⟨p, hp, _, p2, _⟩ := findFirstExtremum_spec hc y 0
  obtain ⟨q, hq, _, q2, _⟩ := findFirstExtremum_spec hc y.reverse 0
  refine ⟨(if findLeft then (if p ≠ y.length then some (p : K) else none) else none,
    if findRight then (if q ≠ y.length then some ((y.length - q : ℕ) : K) else none) else none), ?_, ?_, ?_⟩
  · cases findLeft <;> cases findRight <;> simp [findBandEdgesRipple, hp, hq]
  · intro l hl
    cases findLeft
    · simp at hl
    · simp only [if_pos] at hl
      split at hl
      · simp only [Option.some.injEq] at hl
        rw [← hl]; exact ⟨by positivity, by exact_mod_cast p2⟩
      · simp at hl
  · intro l hl
    cases findRight
    · simp at hl
    · simp only [if_pos] at hl
      split at hl
      · simp only [Option.some.injEq] at hl
        rw [← hl]; exact ⟨by positivity, by exact_mod_cast Nat.sub_le _ _⟩
      · simp at hl

theorem minOptional_bound {a b : Option K} {L : K} (ha : ∀ l, a = some l → 0 ≤ l ∧ l ≤ L) (hb : ∀ l, b = some l → 0 ≤ l ∧ l ≤ L) :
    ∀ l, minOptional a b = some l → 0 ≤ l ∧ l ≤ L := by
  intro l hl
  cases a <;> cases b <;> simp only [minOptional] at hl
  · simp at hl
  · exact hb l hl
  · exact ha l hl
  · split at hl
    · exact ha l hl
    · exact hb l hl

theorem maxOptional_bound {a b : Option K} {L : K} (ha : ∀ l, a = some l → 0 ≤ l ∧ l ≤ L) (hb : ∀ l, b = some l → 0 ≤ l ∧ l ≤ L) :
    ∀ l, maxOptional a b = some l → 0 ≤ l ∧ l ≤ L := by
  intro l hl
  cases a <;> cases b <;> simp only [maxOptional] at hl
  · simp at hl
  · exact hb l hl
  · exact ha l hl
  · split at hl
    · exact ha l hl
    · exact hb l hl

theorem getD_bound {a : Option K} {L d : K} (ha : ∀ l, a = some l → 0 ≤ l ∧ l ≤ L) (hd : 0 ≤ d ∧ d ≤ L) : 0 ≤ a.getD d ∧ a.getD d ≤ L := by
  cases a
  · exact hd
  · exact ha _ rfl

/-- edges inside the band, in units of the whole axis; ripple of the band's samples -/
structure BandOk (x : List K) (first last : ℕ) (pass : Bool) (p : BandParameters K) : Prop where
  lower : (first : K) ≤ p.lowerEdge * x.length ∧ p.lowerEdge * x.length ≤ last
  upper : (first : K) ≤ p.upperEdge * x.length ∧ p.upperEdge * x.length ≤ last
  ripple : IsRipple (slice x first last) (if pass then 1 else 0) p.ripple

theorem parametrizeBand_spec {loss : List K → Bool → Bool → K → K → K} {bisect : (K → K) → K → K → Out K} (hb : NonnegSearch bisect)
    {x : List K} (hx : x ≠ []) (threshold : K) (b : Band) {last : ℕ} (h1 : b.first ≤ last) (h2 : last ≤ x.length) (findLeft findRight : Bool) :
    ∃ p, parametrizeBand loss bisect x threshold b last findLeft findRight = .ok p ∧ BandOk x b.first last b.pass p := by
  obtain ⟨e, he, e1, e2⟩ := findBandEdgesFit_spec (loss := loss) hb (slice x b.first last) findLeft findRight b.pass threshold
  obtain ⟨r, hr, r1, r2⟩ := findBandEdgesRipple_spec (slice x b.first last) findLeft findRight b.pass
  obtain ⟨o, ho, hrip⟩ := measureBandRipple_spec (slice x b.first last) b.pass
  have hlen : (slice x b.first last).length = last - b.first := by simp [slice]; omega
  have hN : (x.length : K) ≠ 0 := by
    have : 0 < x.length := List.length_pos_iff.mpr hx
    positivity
  have hcast : ((slice x b.first last).length : K) = (last : K) - b.first := by
    rw [hlen]; push_cast [h1]; ring
  have hL : (0 : K) ≤ (slice x b.first last).length := by positivity
  have m1 := getD_bound (minOptional_bound e1 r1) ⟨le_rfl, hL⟩
  have m2 := getD_bound (maxOptional_bound e2 r2) ⟨hL, le_rfl⟩
  rw [hcast] at m1 m2
  refine ⟨⟨((b.first : K) + (minOptional e.1 r.1).getD 0) / (x.length : K),
    ((b.first : K) + (maxOptional e.2 r.2).getD ((slice x b.first last).length : K)) / (x.length : K), o.getD 0⟩, ?_, ?_⟩
  · simp only [slice] at he hr ho ⊢
    simp only [parametrizeBand, h1, h2, and_self, if_true, he, hr, ho, Out.ok_bind, Out.pure_def]
  · rw [← hcast] at m2
    refine ⟨?_, ?_, hrip⟩
    · simp only [div_mul_cancel₀ _ hN]; constructor <;> linarith [m1.1, m1.2]
    · simp only [div_mul_cancel₀ _ hN]; rw [hcast] at m2 ⊢; constructor <;> linarith [m2.1, m2.2]

/-- where the band after `k` starts -/
def nextStart (x : List K) (bands : List Band) (k : ℕ) : ℕ := ((bands[k + 1]?).map Band.first).getD x.length

theorem parametrizeFilterBands_spec {loss : List K → Bool → Bool → K → K → K} {bisect : (K → K) → K → K → Out K}
    (hb : NonnegSearch bisect) {x : List K} (hx : x ≠ []) (threshold : K) :
    ∀ (bands : List Band) (findLeft : Bool), (∀ k b, bands[k]? = some b → b.first ≤ nextStart x bands k ∧ nextStart x bands k ≤ x.length) →
    ∃ ps, parametrizeFilterBands loss bisect x threshold bands findLeft = .ok ps ∧ ps.length = bands.length ∧
      ∀ k b p, bands[k]? = some b → ps[k]? = some p → BandOk x b.first (nextStart x bands k) b.pass p
  | [], _, _ => ⟨[], rfl, rfl, by simp⟩
  | [b], fl, h => by
    have h0 := h 0 b rfl
    simp only [nextStart] at h0
    obtain ⟨p, hp, hok⟩ := parametrizeBand_spec (loss := loss) hb hx threshold b h0.1 h0.2 fl false
    refine ⟨[p], by simp only [parametrizeFilterBands]; simp at hp; rw [hp]; rfl, rfl, ?_⟩
    intro k b' p' h1 h2
    cases k with
    | zero => simp at h1 h2; subst h1; subst h2; exact hok
    | succ k => simp at h1
  | b :: c :: bands, fl, h => by
    have h0 := h 0 b rfl
    obtain ⟨p, hp, hok⟩ := parametrizeBand_spec (loss := loss) hb hx threshold b h0.1 h0.2 fl true
    obtain ⟨ps, hps, hl, hall⟩ := parametrizeFilterBands_spec (loss := loss) hb hx threshold (c :: bands) true (fun k b' hb' => h (k + 1) b' hb')
    refine ⟨p :: ps, ?_, by simp [hl], ?_⟩
    · have e : nextStart x (b :: c :: bands) 0 = c.first := rfl
      rw [e] at hp
      simp only [parametrizeFilterBands, hp, hps, Out.ok_bind, Out.pure_def]
    · intro k b' p' h1 h2
      cases k with
      | zero => simp at h1 h2; subst h1; subst h2; exact hok
      | succ k => exact hall k b' p' h1 h2

theorem hasBands_eq (bands : List Band) (desired : List Bool) : hasBands bands desired = decide (pattern bands = desired) := by
  unfold hasBands pattern
  by_cases hl : desired.length = bands.length
  · rw [if_neg (by simpa using hl), Bool.eq_iff_iff, List.all_eq_true, decide_eq_true_eq]
    constructor
    · intro h
      apply List.ext_getElem?
      intro i
      rw [List.getElem?_map]
      by_cases hi : i < desired.length
      · have := h i (by simpa using hi)
        simpa using (by simpa using this : desired[i]? = _).symm
      · rw [List.getElem?_eq_none (by omega), List.getElem?_eq_none (by omega)]; rfl
    · intro h i _
      rw [← h, List.getElem?_map]; simp
  · rw [if_pos hl]
    symm
    simp only [decide_eq_false_iff_not]
    intro h
    exact hl (by rw [← h]; simp)

/-- start of band `k + 1` lies between the samples at which states `k` and `k + 1` are entered -/
theorem Segmentation.start_between {x : List K} {threshold noise : K} {bands : List Band} {s : ℕ → ℕ}
    (h : Segmentation x threshold noise bands s) {k : ℕ} {c : Band} (hc : bands[k + 1]? = some c) : s k ≤ c.first ∧ c.first ≤ s (k + 1) := by
  have hk : k + 1 < bands.length := (List.getElem?_eq_some_iff.mp hc).1
  obtain ⟨t, h1, h2, h3, _⟩ := h.start k bands[k] c (List.getElem?_eq_getElem (by omega)) hc
  have := h.advance k (by omega)
  omega

theorem Segmentation.le_length {x : List K} {threshold noise : K} {bands : List Band} {s : ℕ → ℕ}
    (h : Segmentation x threshold noise bands s) {k : ℕ} (hk : k ≤ bands.length) : s k ≤ x.length := by
  rw [← h.enterLast]
  have : ∀ d, k + d ≤ bands.length → s k ≤ s (k + d) := by
    intro d
    induction d with
    | zero => intro _; exact le_rfl
    | succ d ih => intro hd; exact (ih (by omega)).trans (h.advance (k + d) (by omega)).le
  have := this (bands.length - k) (by omega)
  rwa [Nat.add_sub_cancel' hk] at this

theorem Segmentation.first_le {x : List K} {threshold noise : K} {bands : List Band} {s : ℕ → ℕ}
    (h : Segmentation x threshold noise bands s) {k : ℕ} {b : Band} (hb : bands[k]? = some b) : b.first ≤ s k := by
  cases k with
  | zero => rw [h.startFirst b hb]; omega
  | succ k => exact (h.start_between hb).2

theorem Segmentation.le_next {x : List K} {threshold noise : K} {bands : List Band} {s : ℕ → ℕ}
    (h : Segmentation x threshold noise bands s) {k : ℕ} {b : Band} (hb : bands[k]? = some b) :
    b.first ≤ nextStart x bands k ∧ nextStart x bands k ≤ x.length := by
  have hk : k < bands.length := (List.getElem?_eq_some_iff.mp hb).1
  unfold nextStart
  cases hc : bands[k + 1]? with
  | none =>
    simp only [Option.map_none, Option.getD_none]
    exact ⟨(h.first_le hb).trans (h.le_length (by omega)), le_rfl⟩
  | some c =>
    simp only [Option.map_some, Option.getD_some]
    have hk : k + 1 < bands.length := (List.getElem?_eq_some_iff.mp hc).1
    exact ⟨(h.first_le hb).trans (h.start_between hc).1, (h.first_le hc).trans (h.le_length (by omega))⟩

theorem measureBands_spec {loss : List K → Bool → Bool → K → K → K} {bisect : (K → K) → K → K → Out K}
    (hb : NonnegSearch bisect) {x : List K} (hx : x ≠ []) :
    ∃ bands ps s, extractFilterBands x (1 / 2) (5 / 10000) = .ok bands ∧ measureBands loss bisect x = .ok (bands, ps) ∧
      Segmentation x (1 / 2) (5 / 10000) bands s ∧ ps.length = bands.length ∧
      ∀ k b p, bands[k]? = some b → ps[k]? = some p → BandOk x b.first (nextStart x bands k) b.pass p := by
  obtain ⟨bands, h1, s, hs⟩ := extractFilterBands_spec hx (1 / 2 : K) (noise := 5 / 10000) (by positivity)
  obtain ⟨ps, h2, h3, h4⟩ := parametrizeFilterBands_spec (loss := loss) hb hx (1 / 2) bands false (fun k b h => hs.le_next h)
  exact ⟨bands, ps, s, h1, by simp only [measureBands, h1, h2, Out.ok_bind, Out.pure_def], hs, h3, h4⟩

end Verif
