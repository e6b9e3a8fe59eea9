import Verif.Model.Convolution
import Verif.Spec.Convolution
import Mathlib.Tactic.Ring
import Mathlib.Tactic.Linarith

set_option linter.unusedSimpArgs false
set_option linter.unusedSectionVars false

namespace Verif
open Finset

section
variable {R : Type u} [Zero R]

theorem sigI_nat (u : List R) (i : ℕ) : sigI u (i : ℤ) = sig u i := by simp [sigI]

theorem sig_of_ge {u : List R} {i : ℕ} (h : u.length ≤ i) : sig u i = 0 := by
  simp [sig, h]

theorem sig_of_lt {u : List R} {i : ℕ} (h : i < u.length) : sig u i = u[i] := by
  simp [sig, h]

theorem sigI_neg {u : List R} {i : ℤ} (h : i < 0) : sigI u i = 0 := by
  simp [sigI]; omega

theorem sigI_ge {u : List R} {i : ℤ} (h : (u.length : ℤ) ≤ i) : sigI u i = 0 := by
  unfold sigI; split
  · exact sig_of_ge (by omega)
  · rfl

theorem rd_sig {u : List R} {i : ℤ} (h0 : 0 ≤ i) (h : i < u.length) : rd u i = .ok (sigI u i) := by
  rw [rd_eq h0 h]; simp [sigI, h0, sig]
  rw [List.getElem?_eq_getElem (by omega)]; rfl

theorem sig_set (u : List R) (i j : ℕ) (x : R) (h : i < u.length) :
    sig (u.set i x) j = if j = i then x else sig u j := by
  unfold sig
  simp only [List.getD_eq_getElem?_getD, List.getElem?_set]
  by_cases e : i = j
  · subst e; simp [h]
  · have : ¬ j = i := fun h => e h.symm
    simp [e, this]

theorem list_ext_sig {a b : List R} (h : a.length = b.length) (h' : ∀ i, i < a.length → sig a i = sig b i) :
    a = b := by
  apply List.ext_getElem h
  intro i h1 h2
  have := h' i h1
  rwa [sig_of_lt h1, sig_of_lt h2] at this

/-! ### registers -/

/-- a register given by its lanes -/
def reg (W : ℕ) (f : ℕ → R) : List R := (List.range W).map f

@[simp] theorem reg_length (W : ℕ) (f : ℕ → R) : (reg W f).length = W := by simp [reg]

theorem sig_reg (W : ℕ) (f : ℕ → R) (i : ℕ) : sig (reg W f) i = if i < W then f i else 0 := by
  unfold sig reg
  by_cases h : i < W <;> simp [h]

theorem reg_congr {W : ℕ} {f g : ℕ → R} (h : ∀ i, i < W → f i = g i) : reg W f = reg W g := by
  unfold reg
  apply List.map_congr_left
  intro i hi
  exact h i (by simpa using hi)

theorem reg_of_length {W : ℕ} {l : List R} (h : l.length = W) : l = reg W (sig l) := by
  apply list_ext_sig (by simp [h])
  intro i hi
  rw [sig_reg, if_pos (by omega)]

theorem zipWith_reg (op : R → R → R) (W : ℕ) (f g : ℕ → R) :
    List.zipWith op (reg W f) (reg W g) = reg W (fun i => op (f i) (g i)) := by
  unfold reg
  rw [List.zipWith_map]
  simp

theorem map_reg (op : R → R) (W : ℕ) (f : ℕ → R) :
    (reg W f).map op = reg W (fun i => op (f i)) := by
  unfold reg; simp

theorem replicate_reg (W : ℕ) (c : R) : List.replicate W c = reg W (fun _ => c) := by
  unfold reg; simp

theorem loadV_reg {W : ℕ} {mem : List R} {p : ℕ} (h : p + W ≤ mem.length) :
    loadV W mem p = .ok (reg W (fun i => sig mem (p + i))) := by
  rw [loadV, if_pos h]
  congr 1
  apply list_ext_sig (by simp; omega)
  intro i hi
  have hi' : i < W := by simp at hi; omega
  rw [sig_reg, if_pos hi']
  unfold sig
  simp [List.getElem?_take, hi', List.getElem?_drop]

theorem loadVI_reg {W : ℕ} {mem : List R} {p : ℤ} (h0 : 0 ≤ p) (h : p + W ≤ mem.length) :
    loadVI W mem p = .ok (reg W (fun i => sigI mem (p + i))) := by
  rw [loadVI, if_pos h0, loadV_reg (by omega)]
  congr 1
  apply reg_congr
  intro i _
  rw [sigI, if_pos (by omega)]
  congr 1
  omega

theorem storeV_sig {mem v : List R} {p : ℕ} (h : p + v.length ≤ mem.length) :
    ∃ mem', storeV mem p v = .ok mem' ∧ mem'.length = mem.length ∧
      ∀ j, sig mem' j = if p ≤ j ∧ j < p + v.length then sig v (j - p) else sig mem j := by
  refine ⟨_, by rw [storeV, if_pos h], by simp; omega, fun j => ?_⟩
  unfold sig
  simp only [List.getD_eq_getElem?_getD]
  by_cases h1 : j < p
  · have : ¬ (p ≤ j ∧ j < p + v.length) := by omega
    rw [List.append_assoc, List.getElem?_append_left (by simp; omega), if_neg this, List.getElem?_take]
    simp [h1]
  · by_cases h2 : j < p + v.length
    · rw [if_pos ⟨by omega, h2⟩, List.getElem?_append_left (by simp; omega),
        List.getElem?_append_right (by simp; omega)]
      simp
      congr 2; omega
    · have : ¬ (p ≤ j ∧ j < p + v.length) := by omega
      rw [if_neg this, List.getElem?_append_right (by simp; omega)]
      simp [List.getElem?_drop]
      congr 2; omega

theorem mapM_ok {α : Type w} {β : Type u} {f : α → Out β} {g : α → β} :
    ∀ (l : List α), (∀ x ∈ l, f x = .ok (g x)) → l.mapM f = .ok (l.map g)
  | [], _ => rfl
  | x :: l, h => by
    rw [List.mapM_cons, h x (by simp), mapM_ok l (fun y hy => h y (by simp [hy]))]
    rfl

end

section
variable {R : Type u} [CommRing R]

/-- The term of the convolution sum. -/
theorem convAt_window (u v : List R) (N a c : ℕ) (ha : a = 0 ∨ a + v.length ≤ N + 1)
    (hb : u.length ≤ a + c ∨ N + 1 ≤ a + c) :
    ∑ k ∈ range c, sigI u ((a : ℤ) + k) * sigI v ((N : ℤ) - (a + k)) = convAt u v N := by
  set F : ℕ → R := fun i => sig u i * sigI v ((N : ℤ) - i) with hF
  have h1 : convAt u v N = ∑ i ∈ range (N + 1), F i := by
    unfold convAt
    apply sum_congr rfl
    intro i hi
    have : i ≤ N := by simpa using Nat.lt_succ_iff.1 (mem_range.1 hi)
    simp only [hF]
    rw [← Int.ofNat_sub this, sigI_nat]
  have hbig : ∀ i, u.length ≤ i ∨ N + 1 ≤ i → F i = 0 := by
    rintro i (h | h)
    · simp [hF, sig_of_ge h]
    · have : sigI v ((N : ℤ) - i) = 0 := sigI_neg (by omega)
      simp [hF, this]
  have hsmall : ∀ i, i < a → F i = 0 := by
    intro i h
    have : sigI v ((N : ℤ) - i) = 0 := sigI_ge (by omega)
    simp [hF, this]
  have h2 : ∑ i ∈ range (N + 1), F i = ∑ i ∈ range (a + c), F i := by
    rcases le_total (N + 1) (a + c) with h | h
    · apply sum_subset (by simpa using h)
      intro i _ hi
      exact hbig i (Or.inr (by simpa using hi))
    · symm
      apply sum_subset (by simpa using h)
      intro i _ hi
      have hi' : a + c ≤ i := by simpa using hi
      exact hbig i (by omega)
  rw [h1, h2, sum_range_add]
  rw [show ∑ x ∈ range a, F x = 0 from sum_eq_zero fun i hi => hsmall i (by simpa using hi), zero_add]
  apply sum_congr rfl
  intro k _
  simp only [hF]
  rw [← sigI_nat u]
  push_cast
  rfl

theorem convAt_comm (u v : List R) (n : ℕ) : convAt u v n = convAt v u n := by
  unfold convAt
  rw [← Finset.sum_range_reflect]
  apply sum_congr rfl
  intro i hi
  have : i ≤ n := by simpa using Nat.lt_succ_iff.1 (mem_range.1 hi)
  have e1 : n + 1 - 1 - i = n - i := by omega
  have e2 : n - (n - i) = i := by omega
  rw [e1, e2, mul_comm]

theorem convAt_beyond (u v : List R) (n : ℕ) (h : convLengthFull u.length v.length ≤ n) :
    convAt u v n = 0 := by
  unfold convAt
  apply sum_eq_zero
  intro i hi
  have : i ≤ n := by simpa using Nat.lt_succ_iff.1 (mem_range.1 hi)
  unfold convLengthFull at h
  by_cases h1 : u.length ≤ i
  · rw [sig_of_ge h1, zero_mul]
  · rw [sig_of_ge (u := v), mul_zero]
    split at h <;> omega

/-- postcondition of every kernel -/
def ConvDone (acc : Bool) (u v out out' : List R) (n : ℕ) : Prop :=
  out'.length = out.length ∧
    ∀ k, k < out.length → sig out' k = (if acc then sig out k else 0) + convAt u v (n + k)

/-! ### naive kernel -/

theorem naiveInner_eq (u v : List R) (n mF mL : ℤ) (acc : R) (h0 : 0 ≤ mF) (h1 : mL ≤ u.length)
    (h2 : n - mF < v.length) (h3 : mL ≤ n + 1) :
    naiveInner u v n mF mL acc =
      .ok (acc + ∑ k ∈ range (mL - mF).toNat, sigI u (mF + k) * sigI v (n - (mF + k))) := by
  obtain ⟨s, hs, hi⟩ := forN_inv (body := fun k acc => do
    let a ← rd u (mF + k)
    let b ← rd v (n - (mF + k))
    pure (acc + a * b)) (fun k s => s = acc + ∑ k ∈ range k, sigI u (mF + k) * sigI v (n - (mF + k)))
    (mL - mF).toNat acc (by simp) (by
      intro k s hk hs
      apply exists_ok
      · rw [rd_sig (by omega) (by omega), Out.ok_bind, rd_sig (by omega) (by omega), Out.ok_bind]
        rfl
      · rw [hs, sum_range_succ, add_assoc])
  unfold naiveInner
  rw [hs, hi]

theorem convolutionNaive_done (u v out : List R) (n : ℕ) (acc : Bool) :
    ∃ out', convolutionNaive u v out n acc = .ok out' ∧ ConvDone acc u v out out' n := by
  unfold convolutionNaive
  obtain ⟨s, hs, hl, hi⟩ := forN_inv (body := fun k (out : List R) => do
    let n : ℤ := (n : ℤ) + (k : ℕ)
    let a ← (if acc then rd out (k : Int) else pure 0)
    let mLast := min (u.length : ℤ) (n + 1)
    let mFirst := max 0 (n - v.length + 1)
    let a ← naiveInner u v n mFirst mLast a
    wr out (k : Int) a)
    (fun k s => s.length = out.length ∧ ∀ j, sig s j =
      if j < k then (if acc then sig out j else 0) + convAt u v (n + j) else sig out j)
    out.length out (by simp) (by
      rintro k s hk ⟨hl, hs⟩
      have hr : (if acc = true then rd s (k : ℤ) else pure 0) = .ok (if acc then sig out k else 0) := by
        split
        · rw [rd_sig (by omega) (by omega), sigI_nat, hs, if_neg (by omega)]
        · rfl
      apply exists_ok
      · simp only
        rw [hr, Out.ok_bind, naiveInner_eq _ _ _ _ _ _ (by omega) (by omega) (by omega) (by omega),
          Out.ok_bind, wr_eq (by omega) (by omega)]
      · simp only [Int.toNat_natCast]
        refine ⟨by simp [hl], fun j => ?_⟩
        rw [sig_set _ _ _ _ (by omega), hs]
        have hw := convAt_window u v (n + k) (max 0 ((n : ℤ) + k - v.length + 1)).toNat
          (min (u.length : ℤ) ((n : ℤ) + k + 1) - max 0 ((n : ℤ) + k - v.length + 1)).toNat
          (by omega) (by omega)
        have e : (((max 0 ((n : ℤ) + k - v.length + 1)).toNat : ℕ) : ℤ) =
          max 0 ((n : ℤ) + k - v.length + 1) := by omega
        rw [e] at hw
        push_cast at hw
        rw [hw]
        by_cases hj : j = k
        · subst hj; simp
        · by_cases hj' : j < k
          · simp [hj, hj', Nat.lt_succ_of_lt hj']
          · have : ¬ j < k + 1 := by omega
            simp [hj, hj', this])
  exact ⟨s, hs, hl, fun k hk => by rw [hi, if_pos hk]⟩

end
end Verif
