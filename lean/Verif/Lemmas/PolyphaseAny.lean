import Verif.Lemmas.Polyphase

/-! # Polyphase decomposition for any type of samples (`Lemmas/Polyphase.lean` works in a commutative ring) -/

set_option linter.unusedSectionVars false
set_option linter.unusedSimpArgs false

namespace Verif
open Finset

section
variable {R : Type} [Zero R] [Mul R] [NatCast R]

theorem scaleRange_any (buf : List R) (o c : ℕ) (s : R) (h : o + c ≤ buf.length) :
    ∃ b, scaleRange buf o c s = .ok b ∧ b.length = buf.length ∧
      ∀ i, sig b i = if o ≤ i ∧ i < o + c then sig buf i * s else sig buf i := by
  unfold scaleRange
  have := forN_inv (body := fun k (buf : List R) => do
      let x ← rd buf ((o + k : Nat) : Int)
      wr buf ((o + k : Nat) : Int) (x * s))
    (fun k b => b.length = buf.length ∧ ∀ i, sig b i = if o ≤ i ∧ i < o + k then sig buf i * s else sig buf i)
    c buf ⟨rfl, fun i => by rw [if_neg (by omega)]⟩ ?_
  · exact this
  · rintro k b hk ⟨h1, h2⟩
    have hl : o + k < b.length := by omega
    refine ⟨b.set (o + k) (sig buf (o + k) * s), ?_, by simpa using h1, ?_⟩
    · rw [rd_sig (by omega) (by omega), Out.ok_bind, wr_eq (by omega) (by omega), sigI_nat, h2, if_neg (by omega)]
      rfl
    · intro i
      rw [sig_set _ _ _ _ hl]
      by_cases e : i = o + k
      · rw [if_pos e, if_pos (by omega), e]
      · rw [if_neg e, h2]
        by_cases e2 : o ≤ i ∧ i < o + k
        · rw [if_pos e2, if_pos (by omega)]
        · rw [if_neg e2, if_neg (by omega)]

theorem decomposePhase_any (filter : List R) (P p : ℕ) (v : PolyphaseView R) (hv : v.filterCount = P)
    (hl : v.buffer.length = filter.length) (hp : p < P) :
    ∃ w, decomposePhase filter P p v = .ok w ∧ w.filterCount = P ∧ w.buffer.length = filter.length ∧
      ∀ i, sig w.buffer i = if phaseOffset filter.length P p ≤ i ∧ i < phaseOffset filter.length P (p + 1)
        then sig filter (p + (phaseSize filter.length P p - 1 - (i - phaseOffset filter.length P p)) * P) * (P : R)
        else sig v.buffer i := by
  unfold decomposePhase
  rw [location_ok v (by omega), Out.ok_bind]
  simp only
  have hend := phaseOffset_end_le filter.length P p hp
  rw [hl, hv]
  set o := phaseOffset filter.length P p with ho
  set c := phaseSize filter.length P p with hc
  obtain ⟨b, e1, e2, e3⟩ := forN_inv (body := fun coeffIdx (buf : List R) => do
      let x ← rd filter ((p + coeffIdx * P : Nat) : Int)
      wr buf ((o : Int) + (c : Int) - 1 - (coeffIdx : Int)) x)
    (fun k b => b.length = filter.length ∧ ∀ i, sig b i = if o + c ≤ i + k ∧ i < o + c then
        sig filter (p + (c - 1 - (i - o)) * P) else sig v.buffer i)
    c v.buffer ⟨hl, fun i => by rw [if_neg (by omega)]⟩ (by
      rintro k b hk ⟨h1, h2⟩
      have ht := (phaseSize_lt filter.length P p k hp).1 hk
      refine ⟨b.set (o + c - 1 - k) (sig filter (p + k * P)), ?_, by simpa using h1, ?_⟩
      · rw [rd_sig (by omega) (by exact_mod_cast ht), Out.ok_bind, wr_eq (by omega) (by omega), sigI_nat]
        congr 2
        omega
      · intro i
        rw [sig_set _ _ _ _ (by omega)]
        by_cases e : i = o + c - 1 - k
        · rw [if_pos e, if_pos (by omega)]
          congr 3
          omega
        · rw [if_neg e, h2]
          by_cases e2 : o + c ≤ i + k ∧ i < o + c
          · rw [if_pos e2, if_pos (by omega)]
          · rw [if_neg e2, if_neg (by omega)])
  rw [e1, Out.ok_bind]
  obtain ⟨b', f1, f2, f3⟩ := scaleRange_any b o c (P : R) (by omega)
  rw [f1, Out.ok_bind]
  refine ⟨_, rfl, rfl, by simp only; omega, ?_⟩
  intro i
  simp only
  rw [f3, phaseOffset_succ, ← ho, ← hc]
  by_cases e : o ≤ i ∧ i < o + c
  · rw [if_pos e, if_pos e, e3, if_pos (by omega)]
  · rw [if_neg e, if_neg e, e3, if_neg (by omega)]

theorem decompose_any (output h : List R) (P : ℕ) (hl : output.length = h.length) :
    ∃ v, polyphaseDecompose output h P = .ok v ∧ v.Represents P (h.map (fun a => a * (P : R))) := by
  unfold polyphaseDecompose
  rw [cassert_true hl, Out.ok_bind]
  obtain ⟨v, e1, e2, e3, e4⟩ := forN_inv (body := decomposePhase h P)
    (fun q (v : PolyphaseView R) => v.filterCount = P ∧ v.buffer.length = h.length ∧
      ∀ p < q, ∀ i < phaseSize h.length P p, sig v.buffer (phaseOffset h.length P p + i) =
        sig h (p + (phaseSize h.length P p - 1 - i) * P) * (P : R)) P ⟨output, P⟩ ⟨rfl, hl, fun p hp => by omega⟩ (by
    rintro q v hq ⟨h1, h2, h3⟩
    obtain ⟨w, f1, f2, f3, f4⟩ := decomposePhase_any h P q v h1 h2 hq
    refine ⟨w, f1, f2, f3, ?_⟩
    intro p hp i hi
    rw [f4]
    by_cases e : p = q
    · subst e
      rw [if_pos ⟨by omega, by rw [phaseOffset_succ]; omega⟩, Nat.add_sub_cancel_left]
    · have := phaseOffset_mono h.length P (show p + 1 ≤ q by omega)
      rw [phaseOffset_succ] at this
      rw [if_neg (by omega), h3 p (by omega) i hi])
  refine ⟨v, e1, e2, by rw [List.length_map]; exact e3, fun p hp => ?_⟩
  rw [phase_ok v (by omega)]
  congr 1
  apply list_ext_sig
  · rw [phaseList_length v (by omega), tapsOfPhase_eq _ _ _ hp, List.length_reverse, reg_length, e3, e2, List.length_map]
  · intro i hi
    rw [phaseList_length v (by omega), e3, e2] at hi
    have hrev : ∀ (l : List R) (i : ℕ), i < l.length → sig l.reverse i = sig l (l.length - 1 - i) := by
      intro l i h
      rw [sig_of_lt (by simpa using h), sig_of_lt (by omega)]
      simp [List.getElem_reverse]
    have ht := (phaseSize_lt h.length P p (phaseSize h.length P p - 1 - i) hp).1 (by omega)
    rw [sig_phaseList, e3, e2, if_pos hi, tapsOfPhase_eq _ _ _ hp, hrev _ _ (by rw [reg_length, List.length_map]; exact hi), sig_reg, reg_length,
      List.length_map, if_pos (by omega), e4 p hp i hi, sig_of_lt ht, sig_of_lt (by simpa using ht), List.getElem_map]

end
end Verif
