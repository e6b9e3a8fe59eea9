import Verif.Lemmas.OverlapAdd
import Verif.Spec.RoundedSum
import Mathlib.Analysis.Complex.ExponentialBounds

/-! # Overlap-add sample by sample, for an arbitrary addition -/

set_option linter.unusedSimpArgs false
set_option linter.unusedSectionVars false
set_option linter.unusedTactic false

namespace Verif
open Finset

section
variable {R : Type} [Add R] [Mul R] [Zero R]

/-- An invariant `I k j x` ("after `k` chunks sample `j` is `x`") kept by every chunk holds at the end. -/
theorem overlapAddOrdered_fold (auto : ℕ → ℕ → Out ℕ) {cc : List R → List R → Out (List R)}
    (out u v : List R) (offset chunkSize K : ℕ) (clear : Bool)
    (hauto : (if chunkSize = 0 then auto u.length v.length else pure chunkSize) = .ok K)
    (hlen : v.length ≤ u.length) (hv : 0 < v.length) (hK : 2 * v.length - 1 ≤ K)
    (hb : offset + out.length ≤ convLengthFull u.length v.length)
    (first : ℤ) (hfirst : first = max 0 ((offset : ℤ) + 1 - v.length))
    (I : ℕ → ℕ → R → Prop)
    (h0 : ∀ j, j < out.length → I 0 j (if !clear then sig out j else 0))
    (hstep : ∀ (k : ℕ) (c : List R), c.length = K →
      (∀ j, sig c j = if j < v.length then sigI u (first + k * v.length + j) else 0) →
      ∃ cf, cc c (v ++ List.replicate (K - v.length) 0) = .ok cf ∧ cf.length = K ∧
        ∀ j x, j < out.length → I k j x →
          (∀ m : ℕ, (m : ℤ) = (offset : ℤ) + j - (first + k * v.length) → m < K → I (k + 1) j (x + sig cf m)) ∧
          ((∀ m : ℕ, (m : ℤ) = (offset : ℤ) + j - (first + k * v.length) → ¬ m < K) → I (k + 1) j x)) :
    ∃ (out' : List R) (M : ℕ), overlapAddOrdered auto cc out u v offset chunkSize clear = .ok out' ∧ out'.length = out.length ∧
      (offset : ℤ) + out.length ≤ first + M * v.length ∧ ∀ j, j < out.length → I M j (sig out' j) := by
  unfold overlapAddOrdered
  rw [hauto, Out.ok_bind, cassert_true (by rw [usub, if_pos (by omega)]; exact hK), Out.ok_bind,
    cassert_true hb, Out.ok_bind]
  set base := if clear then out.map fun _ => 0 else out with hbase
  have hbl : base.length = out.length := by rw [hbase]; split <;> simp
  have hbs : ∀ j, sig base j = if !clear then sig out j else 0 := by
    intro j
    rw [hbase]
    cases clear with
    | false => simp
    | true => simp only [if_true, Bool.not_true]; unfold sig; by_cases h : j < out.length <;> simp [h]
  set F := v.length with hF
  set N := u.length with hN
  set L := out.length with hL
  have hfull : convLengthFull N F = N + F - 1 := by
    unfold convLengthFull; rw [if_neg (by omega)]; omega
  rw [hfull] at hb
  simp only [hbl, ← hL]
  rcases Nat.eq_zero_or_pos L with hL0 | hLpos
  · -- empty output
    refine ⟨base, offset + 1, ?_, hbl, ?_, by intro k hk; omega⟩
    · have : ∀ p : ℤ, Interval.isDisjoint ⟨p, p + (K : ℤ)⟩ ⟨(offset : ℤ), (offset : ℤ) + L⟩ = true := by
        intro p
        simp only [Interval.isDisjoint, Bool.not_eq_true', decide_eq_false_iff_not]
        omega
      simp [whileN, this]
    · have : offset + 1 ≤ (offset + 1) * F := Nat.le_mul_of_pos_right _ hv
      have : (offset : ℤ) + 1 ≤ ((offset + 1 : ℕ) : ℤ) * F := by exact_mod_cast this
      push_cast at this ⊢
      omega
  have hloop : (Interval.intersection ⟨0, (N : ℤ)⟩ (Interval.encompassingUnion
      ⟨(offset : ℤ), (offset : ℤ) + L⟩ ((Interval.shift ⟨(offset : ℤ), (offset : ℤ) + L⟩ 1).unshift
        (F : ℤ)))).first = first := by
    rw [inter_of_lt (by simp only [Interval.encompassingUnion, Interval.shift, Interval.unshift]; omega)]
    simp only [Interval.encompassingUnion, Interval.shift, Interval.unshift]
    omega
  rw [hloop]
  -- number of blocks
  set M := (((offset : ℤ) + L - first).toNat + F - 1) / F with hM
  have hMF1 : (offset : ℤ) + L ≤ first + M * F := by
    have := Nat.lt_div_mul_add (a := ((offset : ℤ) + L - first).toNat + F - 1) hv
    rw [← hM] at this
    have h2 : (((offset : ℤ) + L - first).toNat) ≤ M * F := by omega
    have : ((((offset : ℤ) + L - first).toNat : ℕ) : ℤ) ≤ ((M * F : ℕ) : ℤ) := by exact_mod_cast h2
    push_cast at this
    omega
  have hMF2 : ∀ k, k < M → first + k * F < (offset : ℤ) + L := by
    intro k hk
    have h1 : (k + 1) * F ≤ ((offset : ℤ) + L - first).toNat + F - 1 := by
      calc (k + 1) * F ≤ M * F := Nat.mul_le_mul_right _ hk
        _ ≤ _ := Nat.div_mul_le_self _ _
    have e : (k + 1) * F = k * F + F := by ring
    rw [e] at h1
    have h3 : k * F < ((offset : ℤ) + L - first).toNat := by omega
    have : ((k * F : ℕ) : ℤ) < (((offset : ℤ) + L - first).toNat : ℤ) := by exact_mod_cast h3
    push_cast at this
    omega
  have hML : M < L + 1 := by
    have : M ≤ L := by
      rw [hM]
      apply Nat.le_of_lt_succ
      rw [Nat.div_lt_iff_lt_mul hv]
      have : L + F ≤ L * F + 1 := by nlinarith [Nat.mul_le_mul hLpos hv]
      have e : (L + 1) * F = L * F + F := by ring
      rw [e]
      omega
    omega
  set filter := v ++ List.replicate (K - F) (0 : R) with hfilter
  obtain ⟨s, hs, hi1, hi2, hi3⟩ := whileN_inv (cond := fun s : List R × Int =>
      !(Interval.isDisjoint ⟨s.2, s.2 + (K : Int)⟩ ⟨(offset : ℤ), (offset : ℤ) + L⟩))
    (body := fun s => do
      let out' ← olaStep cc u filter F K offset s.1 s.2
      pure (out', s.2 + (F : Int)))
    (fun k s => s.1.length = L ∧ s.2 = first + k * F ∧ ∀ j, j < L → I k j (sig s.1 j)) M
    (by
      rintro k ⟨s, pos⟩ hk ⟨hsl, hpos, hs⟩
      simp only at hsl hpos hs
      have hlt := hMF2 k hk
      rw [← hpos] at hlt
      have hkF : 0 ≤ (k : ℤ) * F := by positivity
      have hnd : max pos (offset : ℤ) < min (pos + (K : ℤ)) ((offset : ℤ) + L) := by omega
      refine ⟨by simp [Interval.isDisjoint, -lt_inf_iff, -sup_lt_iff]; exact hnd, ?_⟩
      obtain ⟨c, hc1, hc2, hc3⟩ := fillChunk_eq K u pos F (by omega) (by omega)
      obtain ⟨cf, g0, g1, g2⟩ := hstep k c hc2 (by rw [← hpos]; exact hc3)
      obtain ⟨o, ho1, ho2, ho3⟩ := subsignalAdd_done s cf
        (max pos (offset : ℤ) - offset)
        (min (pos + (K : ℤ)) ((offset : ℤ) + L) - offset - (max pos (offset : ℤ) - offset))
        (max pos (offset : ℤ) - pos) (by omega) (by omega) (by omega) (by omega) (by omega)
      have hstep : olaStep cc u filter F K offset s pos = .ok o := by
        unfold olaStep
        rw [← hN, hsl] at *
        simp only
        rw [hc1, Out.ok_bind]
        simp only [Interval.intersection, Interval.unshift, Interval.size]
        rw [if_pos hnd, g0]
        exact ho1
      simp only
      rw [hstep]
      refine ⟨_, rfl, by rw [ho2, hsl], ?_, fun j hj => ?_⟩
      · simp only [hpos]; push_cast; ring
      · simp only
        rw [ho3]
        obtain ⟨w1, w2⟩ := g2 j _ hj (hs j hj)
        rw [← hpos] at w1 w2
        split
        · rename_i hr
          have e : max pos (offset : ℤ) - pos + (j - (max pos (offset : ℤ) - offset)) =
              (((offset : ℤ) + j - pos).toNat : ℤ) := by omega
          rw [e, sigI_nat]
          exact w1 _ (by omega) (by omega)
        · rename_i hr
          apply w2
          intro m hm hmK
          omega)
    (by
      rintro ⟨s, pos⟩ ⟨_, hpos, _⟩
      simp only at hpos
      simp only [Interval.isDisjoint, Bool.not_not, decide_eq_false_iff_not]
      omega)
    (L + 1) 0 (base, first) (Nat.zero_le _) (by simpa using hML)
      ⟨hbl, by simp, fun j hj => by simp only; rw [hbs]; exact h0 j hj⟩
  exact ⟨s.1, M, by rw [hs]; rfl, hi1, hMF1, hi3⟩

end
end Verif
