import Verif.Lemmas.Polyphase
import Verif.Props.Numeric

/-!
# Properties C28 and C29: polyphase views and decomposition
-/

set_option linter.unusedSectionVars false
set_option linter.unusedSimpArgs false

namespace Verif
open Finset

section
variable {R : Type} [CommRing R]

/-- **C28**: the phases of a view exist, laid end to end they are the buffer, their sizes are non-increasing and differ by at
most one, and `size_per_phase` is the largest of them. -/
theorem C28_partition (v : PolyphaseView R) (hP : 0 < v.numPhases) :
    ∃ phases : ℕ → List R, (∀ p < v.numPhases, v.phase p = .ok (phases p)) ∧
      (List.range v.numPhases).flatMap phases = v.buffer ∧
      (∀ p q, p ≤ q → q < v.numPhases → (phases q).length ≤ (phases p).length ∧ (phases p).length ≤ (phases q).length + 1) ∧
      v.sizePerPhase = .ok (phases 0).length := by
  have hP' : 0 < v.filterCount := hP
  refine ⟨v.phaseList, fun p hp => phase_ok v hp, ?_, ?_, ?_⟩
  · have key : ∀ q ≤ v.filterCount, (List.range q).flatMap v.phaseList =
        v.buffer.take (phaseOffset v.buffer.length v.filterCount q) := by
      intro q
      induction q with
      | zero => intro _; rw [phaseOffset_zero]; rfl
      | succ q ih =>
        intro hq
        rw [List.range_succ, List.flatMap_append, ih (by omega), phaseOffset_succ, List.take_add]
        simp [PolyphaseView.phaseList]
    have := key _ le_rfl
    rw [phaseOffset_all _ _ hP', List.take_length] at this
    exact this
  · intro p q hpq hq
    rw [phaseList_length v hq, phaseList_length v (lt_of_le_of_lt hpq hq)]
    unfold phaseSize
    split <;> split <;> omega
  · rw [phaseList_length v hP']
    unfold PolyphaseView.sizePerPhase phaseSize
    rw [if_neg hP'.ne']
    congr 1
    have e := Nat.div_add_mod v.buffer.length v.filterCount
    have hr := Nat.mod_lt v.buffer.length hP'
    generalize v.buffer.length / v.filterCount = q at *
    generalize v.buffer.length % v.filterCount = r at *
    rw [← e]
    by_cases h : 0 < r
    · rw [if_pos h, show v.filterCount * q + r + v.filterCount - 1 = (r - 1) + v.filterCount * (q + 1) by
        rw [mul_add]; omega, Nat.add_mul_div_left _ _ hP', Nat.div_eq_of_lt (by omega)]
      omega
    · rw [if_neg h, show v.filterCount * q + r + v.filterCount - 1 = (v.filterCount - 1) + v.filterCount * q by omega,
        Nat.add_mul_div_left _ _ hP', Nat.div_eq_of_lt (by omega)]
      omega

/-- **C28**: no other phase can be addressed. -/
theorem C28_rejects (v : PolyphaseView R) (p : ℕ) (h : v.numPhases ≤ p) : v.phase p = .assertFail := by
  unfold PolyphaseView.phase PolyphaseView.subsignalLocation
  rw [cassert, if_neg (by unfold PolyphaseView.numPhases at h; omega)]
  rfl

/-- **C29**: phase `p` of the decomposition of `h` holds the taps `p, p + P, p + 2 P, …` of `h`, last one first, scaled by
`P`; whatever the output buffer held before. -/
theorem C29_decompose (output h : List R) (P : ℕ) (hl : output.length = h.length) :
    ∃ v, polyphaseDecompose output h P = .ok v ∧ v.numPhases = P ∧ v.sizeOriginal = h.length ∧
      ∀ p < P, v.phase p = .ok ((tapsOfPhase h P p).map (fun x => (P : R) * x)).reverse := by
  unfold polyphaseDecompose
  rw [cassert_true hl, Out.ok_bind]
  obtain ⟨v, e1, e2, e3, e4⟩ := forN_inv (body := decomposePhase h P)
    (fun q (v : PolyphaseView R) => v.filterCount = P ∧ v.buffer.length = h.length ∧
      ∀ p < q, ∀ i < phaseSize h.length P p, sig v.buffer (phaseOffset h.length P p + i) =
        P * sig h (p + (phaseSize h.length P p - 1 - i) * P)) P ⟨output, P⟩ ⟨rfl, hl, fun p hp => by omega⟩ (by
    rintro q v hq ⟨h1, h2, h3⟩
    obtain ⟨w, f1, f2, f3, f4⟩ := decomposePhase_spec h P q v h1 h2 hq
    refine ⟨w, f1, f2, f3, ?_⟩
    intro p hp i hi
    rw [f4]
    by_cases e : p = q
    · subst e
      rw [if_pos ⟨by omega, by rw [phaseOffset_succ]; omega⟩, Nat.add_sub_cancel_left]
    · have := phaseOffset_mono h.length P (show p + 1 ≤ q by omega)
      rw [phaseOffset_succ] at this
      rw [if_neg (by omega), h3 p (by omega) i hi])
  refine ⟨v, e1, e2, e3, ?_⟩
  have hr := represents_of_sig v P (h.map (fun x => (P : R) * x)) e2 (by simpa using e3) (by
    intro p hp i hi
    rw [List.length_map] at hi ⊢
    rw [e4 p hp i hi]
    rw [sig_map_zero _ (mul_zero _)])
  intro p hp
  rw [hr.2.2 p hp, tapsOfPhase_eq _ _ _ hp, tapsOfPhase_eq _ _ _ hp, map_reg, List.length_map]
  congr 2
  apply reg_congr
  intro k hk
  rw [sig_map_zero _ (mul_zero _)]

/-- **C29**: a wrong output size is refused. -/
theorem C29_rejects (output h : List R) (P : ℕ) (hl : output.length ≠ h.length) :
    polyphaseDecompose output h P = .assertFail := by
  unfold polyphaseDecompose
  rw [cassert, if_neg hl]; rfl

theorem decompose_represents {output h : List R} {P : ℕ} (hl : output.length = h.length) :
    ∃ v, polyphaseDecompose output h P = .ok v ∧ v.Represents P (h.map (fun x => (P : R) * x)) := by
  obtain ⟨v, e1, e2, e3, e4⟩ := C29_decompose output h P hl
  refine ⟨v, e1, e2, by simpa using e3, fun p hp => ?_⟩
  rw [e4 p hp]
  congr 2
  rw [tapsOfPhase_eq _ _ _ hp, tapsOfPhase_eq _ _ _ hp, map_reg, List.length_map]
  apply reg_congr
  intro k hk
  rw [sig_map_zero _ (mul_zero _)]

end

section
variable {R : Type} [Field R] [DecidableEq R]

/-- **C29**, normalisation: every phase is divided by its sum (so it sums to one) and stays where it is, provided no sum is
zero. -/
theorem C29_normalize (sum : List R → Out R) (hsum : ∀ l, sum l = .ok l.sum) (v : PolyphaseView R)
    (phases : ℕ → List R) (hv : ∀ p < v.numPhases, v.phase p = .ok (phases p)) (h0 : ∀ p < v.numPhases, (phases p).sum ≠ 0) :
    ∃ w, polyphaseNormalize sum v = .ok w ∧ w.numPhases = v.numPhases ∧ w.sizeOriginal = v.sizeOriginal ∧
      ∀ p < v.numPhases, w.phase p = .ok ((phases p).map (· * (1 / (phases p).sum))) ∧
        ((phases p).map (· * (1 / (phases p).sum))).sum = 1 := by
  unfold polyphaseNormalize
  have hpl : ∀ p < v.filterCount, phases p = v.phaseList p := by
    intro p hp
    have := hv p hp
    rw [phase_ok v hp] at this
    injection this with this
    exact this.symm
  obtain ⟨w, e1, e2, e3, e4⟩ := forN_inv (body := fun i (v : PolyphaseView R) => do
      let ph ← v.phase i
      let s ← sum ph
      (if s = 0 then .ub else do
        let loc ← v.subsignalLocation i
        let b ← scaleRange v.buffer loc.1 loc.2 (1 / s)
        pure { v with buffer := b }))
    (fun q (w : PolyphaseView R) => w.filterCount = v.filterCount ∧ w.buffer.length = v.buffer.length ∧
      ∀ p < v.filterCount, w.phaseList p = if p < q then (phases p).map (· * (1 / (phases p).sum)) else phases p)
    v.numPhases v ⟨rfl, rfl, fun p hp => by rw [if_neg (by omega), hpl p hp]⟩ (by
    rintro q w hq ⟨h1, h2, h3⟩
    have hq' : q < v.filterCount := hq
    have hwq : w.phaseList q = phases q := by rw [h3 q hq', if_neg (by omega)]
    have hend := phaseOffset_end_le v.buffer.length v.filterCount q hq'
    obtain ⟨b, f1, f2, f3⟩ := scaleRange_spec w.buffer (phaseOffset w.buffer.length w.filterCount q)
      (phaseSize w.buffer.length w.filterCount q) (1 / (phases q).sum) (by rw [h1, h2]; exact hend)
    refine ⟨⟨b, w.filterCount⟩, ?_, h1, by simp only; omega, ?_⟩
    · rw [phase_ok w (by omega), Out.ok_bind, hsum, Out.ok_bind, hwq, if_neg (h0 q hq), location_ok w (by omega), Out.ok_bind,
        f1, Out.ok_bind]
      rfl
    · intro p hp
      have hlen : (PolyphaseView.phaseList ⟨b, w.filterCount⟩ p).length = (w.phaseList p).length := by
        rw [phaseList_length _ (by simp only; omega), phaseList_length _ (by omega)]
        simp only [f2]
      have hs : ∀ i, sig (PolyphaseView.phaseList ⟨b, w.filterCount⟩ p) i =
          if p = q then sig (w.phaseList p) i * (1 / (phases q).sum) else sig (w.phaseList p) i := by
        intro i
        rw [sig_phaseList, sig_phaseList]
        simp only [f2]
        by_cases hi : i < phaseSize w.buffer.length w.filterCount p
        · rw [if_pos hi, if_pos hi, f3]
          by_cases e : p = q
          · subst e
            rw [if_pos (by omega), if_pos rfl]
          · rw [if_neg e]
            have hne : ¬ (phaseOffset w.buffer.length w.filterCount q ≤ phaseOffset w.buffer.length w.filterCount p + i ∧
                phaseOffset w.buffer.length w.filterCount p + i <
                  phaseOffset w.buffer.length w.filterCount q + phaseSize w.buffer.length w.filterCount q) := by
              rcases Nat.lt_or_gt_of_ne e with h | h
              · have := phaseOffset_mono w.buffer.length w.filterCount (show p + 1 ≤ q from h)
                rw [phaseOffset_succ] at this
                omega
              · have := phaseOffset_mono w.buffer.length w.filterCount (show q + 1 ≤ p from h)
                rw [phaseOffset_succ] at this
                omega
            rw [if_neg hne]
        · rw [if_neg hi, if_neg hi]; simp
      apply list_ext_sig
      · rw [hlen, h3 p hp]
        split <;> split <;> simp
      · intro i hi
        rw [hs, h3 p hp]
        by_cases e : p = q
        · rw [if_pos e, if_neg (by omega), if_pos (by omega), e]
          rw [sig_map_zero (fun x => x * (1 / (phases q).sum)) (zero_mul _)]
        · rw [if_neg e]
          by_cases e2 : p < q
          · rw [if_pos e2, if_pos (by omega)]
          · rw [if_neg e2, if_neg (by omega)])
  refine ⟨w, e1, e2, e3, ?_⟩
  intro p hp
  refine ⟨?_, ?_⟩
  · rw [phase_ok w (by rw [e2]; exact hp), e4 p hp]
    unfold PolyphaseView.numPhases at hp
    rw [if_pos (by exact hp)]
  · rw [List.sum_map_mul_right, List.map_id', mul_one_div, div_self (h0 p hp)]

/-- **C29**: a phase that sums to zero is divided by zero. -/
theorem C29_normalize_zero (sum : List R → Out R) (hsum : ∀ l, sum l = .ok l.sum) (v : PolyphaseView R)
    (hP : 0 < v.numPhases) (ph : List R) (hv : v.phase 0 = .ok ph) (h0 : ph.sum = 0) :
    polyphaseNormalize sum v = .ub := by
  unfold polyphaseNormalize
  obtain ⟨n, hn⟩ : ∃ n, v.numPhases = n + 1 := ⟨v.numPhases - 1, by omega⟩
  rw [hn]
  have key : ∀ m, forN (m + 1) (fun i (v : PolyphaseView R) => do
      let ph ← v.phase i
      let s ← sum ph
      (if s = 0 then .ub else do
        let loc ← v.subsignalLocation i
        let b ← scaleRange v.buffer loc.1 loc.2 (1 / s)
        pure { v with buffer := b })) v = .ub := by
    intro m
    induction m with
    | zero =>
      simp only [forN, Out.ok_bind]
      rw [hv, Out.ok_bind, hsum, Out.ok_bind, if_pos h0]
    | succ m ih => rw [forN, ih]; rfl
  exact key n

end

/-- Non-vacuity: seven taps in three phases. -/
example : ∃ v, polyphaseDecomposeAlloc [(1 : ℤ), 2, 3, 4, 5, 6, 7] 3 = .ok v ∧
    v.buffer = [21, 12, 3, 15, 6, 18, 9] ∧ v.phase 0 = .ok [21, 12, 3] ∧ v.phase 1 = .ok [15, 6] ∧ v.phase 2 = .ok [18, 9] :=
  ⟨⟨[21, 12, 3, 15, 6, 18, 9], 3⟩, by decide +kernel⟩

example : polyphaseNormalize (fun l => .ok l.sum) ⟨[(3 : ℚ), 1, 2, 2], 2⟩ = .ok ⟨[3 / 4, 1 / 4, 1 / 2, 1 / 2], 2⟩ := by
  decide +kernel

end Verif
