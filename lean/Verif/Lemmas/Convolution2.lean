import Verif.Lemmas.Convolution

set_option linter.unusedSimpArgs false
set_option linter.unusedSectionVars false
set_option linter.unusedTactic false

namespace Verif
open Finset

section
variable {R : Type u} [Zero R] [Add R] [Mul R] [Fma R]

/-! ### sliding kernel -/

theorem fmaTransform_steps (vec : Bool) (W : ℕ) (mult : R) (v out : List R) (pout : ℤ) (count : ℕ)
    (p2 : ℤ) (h : count = 0 ∨ (0 ≤ pout ∧ 0 ≤ p2 ∧ pout + count ≤ out.length ∧ p2 + count ≤ v.length)) :
    ∃ out', fmaTransform vec W mult v out pout count p2 = .ok out' ∧ out'.length = out.length ∧
      ∀ j : ℕ, if pout ≤ j ∧ (j : ℤ) < pout + count
        then sig out' j = Fma.lane (sigI v (p2 + (j - pout))) mult (sig out j) ∨
          sig out' j = Fma.scalar (sigI v (p2 + (j - pout))) mult (sig out j)
        else sig out' j = sig out j := by
  rcases h with rfl | ⟨h1, h2, h3, h4⟩
  · refine ⟨out, ?_, rfl, fun j => ?_⟩
    · unfold fmaTransform
      cases vec <;> simp [forN]
    · rw [if_neg (by omega)]
  · unfold fmaTransform
    set vc := if vec then count / W else 0 with hvc
    have hvcle : vc * W ≤ count := by
      rw [hvc]; split
      · exact Nat.div_mul_le_self _ _
      · simp
    obtain ⟨s, hs, hl, hi⟩ := forN_inv (body := fun k (out : List R) => do
      let a ← loadVI W out (pout + (k * W : ℕ))
      let b ← loadVI W v (p2 + (k * W : ℕ))
      storeV out (pout + (k * W : ℕ)).toNat (List.zipWith (fun a b => Fma.lane b mult a) a b))
      (fun k s => s.length = out.length ∧ ∀ j : ℕ, sig s j =
        if pout ≤ j ∧ (j : ℤ) < pout + (k * W : ℕ)
        then Fma.lane (sigI v (p2 + (j - pout))) mult (sig out j) else sig out j) vc out
      (by refine ⟨rfl, fun j => ?_⟩; rw [if_neg (by push_cast; omega)]) (by
        rintro k s hk ⟨hl, hs⟩
        have hkW : k * W + W ≤ vc * W := by
          calc k * W + W = (k + 1) * W := by ring
            _ ≤ vc * W := Nat.mul_le_mul_right _ hk
        obtain ⟨s', e1, e2, e3⟩ := storeV_sig (mem := s) (p := (pout + (k * W : ℕ)).toNat)
          (v := reg W (fun i => Fma.lane (sigI v (p2 + (k * W : ℕ) + i)) mult (sigI s (pout + (k * W : ℕ) + i))))
          (by rw [reg_length, hl]; omega)
        refine ⟨s', ?_, by rw [e2, hl], fun j => ?_⟩
        · rw [loadVI_reg (by omega) (by omega), Out.ok_bind, loadVI_reg (by omega) (by omega), Out.ok_bind,
            zipWith_reg, e1]
        · rw [e3, reg_length, sig_reg]
          have e : ((k + 1) * W : ℕ) = k * W + W := by ring
          rw [e]
          push_cast
          have hkW0 : 0 ≤ (k : ℤ) * W := by positivity
          by_cases c1 : (pout + (k * W : ℕ)).toNat ≤ j ∧ j < (pout + (k * W : ℕ)).toNat + W
          · push_cast at c1
            rw [if_pos (by push_cast; exact c1), if_pos (by push_cast; omega), if_pos (by omega)]
            have e1 : p2 + (k : ℤ) * W + ((j - (pout + k * W).toNat : ℕ) : ℤ) = p2 + (j - pout) := by omega
            have e2 : pout + (k : ℤ) * W + ((j - (pout + k * W).toNat : ℕ) : ℤ) = j := by omega
            rw [e1, e2, sigI_nat, hs, if_neg (by push_cast; omega)]
          · push_cast at c1
            rw [if_neg (by push_cast; exact c1), hs]
            push_cast
            by_cases c2 : pout ≤ (j : ℤ) ∧ (j : ℤ) < pout + k * W
            · rw [if_pos c2, if_pos (by omega)]
            · rw [if_neg c2, if_neg (by omega)])
    simp only
    rw [hs, Out.ok_bind]
    obtain ⟨t, ht, htl, hti⟩ := forN_inv (body := fun k (out : List R) => do
      let a ← rd out (pout + (vc * W + k : ℕ))
      let b ← rd v (p2 + (vc * W + k : ℕ))
      wr out (pout + (vc * W + k : ℕ)) (Fma.scalar b mult a))
      (fun k s => s.length = out.length ∧ ∀ j : ℕ, sig s j =
        if pout ≤ j ∧ (j : ℤ) < pout + (vc * W + k : ℕ)
        then (if (j : ℤ) < pout + (vc * W : ℕ) then Fma.lane (sigI v (p2 + (j - pout))) mult (sig out j)
          else Fma.scalar (sigI v (p2 + (j - pout))) mult (sig out j)) else sig out j) (count - vc * W) s
      (by
        refine ⟨hl, fun j => ?_⟩
        rw [hi j, Nat.add_zero]
        by_cases c : pout ≤ (j : ℤ) ∧ (j : ℤ) < pout + (vc * W : ℕ)
        · rw [if_pos c, if_pos c, if_pos c.2]
        · rw [if_neg c, if_neg c]) (by
        rintro k s hk ⟨hl, hs⟩
        apply exists_ok
        · rw [rd_sig (by omega) (by omega), Out.ok_bind, rd_sig (by omega) (by omega), Out.ok_bind,
            wr_eq (by omega) (by omega)]
        · refine ⟨by simp [hl], fun j => ?_⟩
          rw [sig_set _ _ _ _ (by omega)]
          by_cases c1 : j = (pout + (vc * W + k : ℕ)).toNat
          · rw [if_pos c1, if_pos (by omega), if_neg (show ¬ (j : ℤ) < pout + (vc * W : ℕ) by omega)]
            have e1 : p2 + ((vc * W + k : ℕ) : ℤ) = p2 + (j - pout) := by omega
            have e2 : pout + ((vc * W + k : ℕ) : ℤ) = j := by omega
            rw [e1, e2, sigI_nat, hs, if_neg (by omega)]
          · rw [if_neg c1, hs]
            by_cases c2 : pout ≤ (j : ℤ) ∧ (j : ℤ) < pout + (vc * W + k : ℕ)
            · rw [if_pos c2, if_pos (show pout ≤ (j : ℤ) ∧ (j : ℤ) < pout + (vc * W + (k + 1) : ℕ) by omega)]
            · rw [if_neg c2, if_neg (show ¬ (pout ≤ (j : ℤ) ∧ (j : ℤ) < pout + (vc * W + (k + 1) : ℕ)) by omega)])
    refine ⟨t, ht, htl, fun j => ?_⟩
    have hc : vc * W + (count - vc * W) = count := by omega
    have hj := hti j
    rw [hc] at hj
    by_cases c : pout ≤ (j : ℤ) ∧ (j : ℤ) < pout + count
    · rw [if_pos c] at hj ⊢
      rw [hj]
      split
      · exact Or.inl rfl
      · exact Or.inr rfl
    · rw [if_neg c] at hj ⊢
      exact hj

end

section
variable {R : Type u} [CommRing R]

theorem fmaTransform_done (vec : Bool) (W : ℕ) (mult : R) (v out : List R) (pout : ℤ) (count : ℕ)
    (p2 : ℤ) (h : count = 0 ∨ (0 ≤ pout ∧ 0 ≤ p2 ∧ pout + count ≤ out.length ∧ p2 + count ≤ v.length)) :
    ∃ out', fmaTransform vec W mult v out pout count p2 = .ok out' ∧ out'.length = out.length ∧
      ∀ j : ℕ, sig out' j = if pout ≤ j ∧ (j : ℤ) < pout + count
        then sigI v (p2 + (j - pout)) * mult + sig out j else sig out j := by
  obtain ⟨out', h1, h2, h3⟩ := fmaTransform_steps vec W mult v out pout count p2 h
  refine ⟨out', h1, h2, fun j => ?_⟩
  have := h3 j
  split at this
  · rw [if_pos ‹_›]
    rcases this with e | e <;> exact e
  · rw [if_neg ‹_›]; exact this

theorem slideSwaps_swap {a b : ℕ} (h : slideSwaps a b = true) : slideSwaps b a = false := by
  unfold slideSwaps at h ⊢
  rw [min_comm]
  split at h <;> simp_all <;> omega

theorem convolutionSlide_done' (vec : Bool) (W : ℕ) (u v out : List R) (n : ℕ) (acc : Bool)
    (hns : slideSwaps u.length v.length = false) :
    ∃ out', convolutionSlide vec W u v out n acc = .ok out' ∧ ConvDone acc u v out out' n := by
  rw [convolutionSlide, if_neg (by simp [hns])]
  set base := if acc then out else out.map fun _ => 0 with hbase
  have hbl : base.length = out.length := by rw [hbase]; split <;> simp
  have hbs : ∀ j, sig base j = if acc then sig out j else 0 := by
    intro j
    rw [hbase]; split
    · rfl
    · unfold sig; by_cases h : j < out.length <;> simp [h]
  set mF : ℤ := max 0 ((n : ℤ) - v.length + 1) with hmF
  set mL : ℤ := min (u.length : ℤ) (n + out.length) with hmL
  obtain ⟨s, hs, hl, hi⟩ := forN_inv (body := fun k (out' : List R) => do
      let slidingRange : Interval Int := ⟨mF + k, mF + v.length + k⟩
      let multiplier ← rd u slidingRange.first
      let writeRange := (Interval.mk (n : ℤ) ((n : ℤ) + out.length)).intersection slidingRange
      let writeRangeOut := writeRange.unshift n
      let writeFirst2 := writeRange.first - slidingRange.first
      fmaTransform vec W multiplier v out' writeRangeOut.first
        (writeRangeOut.last - writeRangeOut.first).toNat writeFirst2)
    (fun k s => s.length = out.length ∧ ∀ j : ℕ, j < out.length → sig s j = sig base j +
      ∑ i ∈ range k, sigI u (mF + i) * sigI v ((n : ℤ) + j - (mF + i)))
    (mL - mF).toNat base ⟨hbl, by simp⟩ (by
      rintro k s hk ⟨hl, hs⟩
      have hrd : rd u (mF + k) = .ok (sigI u (mF + k)) := rd_sig (by omega) (by omega)
      simp only [Interval.intersection, Interval.unshift]
      rw [hrd, Out.ok_bind]
      split
      · rename_i hlt
        simp only
        obtain ⟨s', e1, e2, e3⟩ := fmaTransform_done vec W (sigI u (mF + k)) v s
          (max (n : ℤ) (mF + k) - n) (min ((n : ℤ) + out.length) (mF + v.length + k) - n -
            (max (n : ℤ) (mF + k) - n)).toNat (max (n : ℤ) (mF + k) - (mF + k)) (by
            right
            refine ⟨by omega, by omega, by rw [hl]; omega, by omega⟩)
        refine ⟨s', e1, by rw [e2, hl], fun j hj => ?_⟩
        rw [e3, sum_range_succ, hs j hj]
        split
        · have : max (n : ℤ) (mF + k) - (mF + k) + (j - (max (n : ℤ) (mF + k) - n)) =
            (n : ℤ) + j - (mF + k) := by omega
          rw [this]; ring
        · rename_i hr
          have : sigI v ((n : ℤ) + j - (mF + k)) = 0 := by
            by_cases c : (n : ℤ) + j - (mF + k) < 0
            · exact sigI_neg c
            · exact sigI_ge (by omega)
          rw [this]; ring
      · rename_i hnlt
        simp only
        obtain ⟨s', e1, e2, e3⟩ := fmaTransform_done vec W (sigI u (mF + k)) v s (0 - (n : ℤ))
          (0 - (n : ℤ) - (0 - (n : ℤ))).toNat (0 - (mF + k)) (Or.inl (by omega))
        refine ⟨s', e1, by rw [e2, hl], fun j hj => ?_⟩
        rw [e3, if_neg (by omega), sum_range_succ, hs j hj]
        have : sigI v ((n : ℤ) + j - (mF + k)) = 0 := by
          by_cases c : (n : ℤ) + j - (mF + k) < 0
          · exact sigI_neg c
          · exact sigI_ge (by omega)
        rw [this]; ring)
  refine ⟨s, hs, hl, fun j hj => ?_⟩
  rw [hi j hj, hbs]
  congr 1
  have hw := convAt_window u v (n + j) mF.toNat (mL - mF).toNat (by omega) (by omega)
  have e : ((mF.toNat : ℕ) : ℤ) = mF := by omega
  rw [e] at hw
  push_cast at hw
  exact hw

theorem ConvDone.comm {acc : Bool} {u v out out' : List R} {n : ℕ} (h : ConvDone acc u v out out' n) :
    ConvDone acc v u out out' n :=
  ⟨h.1, fun k hk => by rw [h.2 k hk, convAt_comm]⟩

theorem convolutionSlide_done (vec : Bool) (W : ℕ) (u v out : List R) (n : ℕ) (acc : Bool) :
    ∃ out', convolutionSlide vec W u v out n acc = .ok out' ∧ ConvDone acc u v out out' n := by
  cases hs : slideSwaps u.length v.length with
  | false => exact convolutionSlide_done' vec W u v out n acc hs
  | true =>
    rw [convolutionSlide, if_pos hs]
    obtain ⟨o, h1, h2⟩ := convolutionSlide_done' vec W v u out n acc (slideSwaps_swap hs)
    exact ⟨o, h1, h2.comm⟩

/-! ### register reducing kernel -/

theorem reduceBlock_eq (u v : List R) (n : ℕ) :
    reduceBlock u v n = .ok (reg 8 (fun i => convAt u v (n + i))) := by
  unfold reduceBlock
  set mF : ℤ := max 0 ((n : ℤ) - v.length + 1) with hmF
  set mL : ℤ := min (u.length : ℤ) (n + 8) with hmL
  have key : ∀ k s, k < (mL - mF).toNat →
      s = reg 8 (fun i => ∑ k ∈ range k, sigI u (mF + k) * sigI v ((n : ℤ) + i - (mF + k))) →
      ∃ s', (do
        let m := mF + (k : ℕ)
        let data ← (List.range 8).mapM (fun (i : Nat) => do
          let access : Int := (n : ℤ) + i - m
          if access ≥ 0 ∧ access < v.length then rd v access else pure 0)
        let x ← rd u m
        pure (List.zipWith (fun a d => a + x * d) s data)) = .ok s' ∧
      s' = reg 8 (fun i => ∑ k ∈ range (k + 1), sigI u (mF + k) * sigI v ((n : ℤ) + i - (mF + k))) := by
    rintro k s hk rfl
    have hm : (List.range 8).mapM (fun (i : Nat) => do
          let access : Int := (n : ℤ) + i - (mF + k)
          if access ≥ 0 ∧ access < v.length then rd v access else pure 0) =
        .ok (reg 8 (fun i => sigI v ((n : ℤ) + i - (mF + k)))) := by
      apply mapM_ok
      intro i _
      simp only
      split
      · exact rd_sig (by omega) (by omega)
      · rename_i h
        have : sigI v ((n : ℤ) + i - (mF + k)) = 0 := by
          by_cases c : (n : ℤ) + i - (mF + k) < 0
          · exact sigI_neg c
          · exact sigI_ge (by omega)
        rw [this]; rfl
    refine ⟨_, ?_, rfl⟩
    simp only
    rw [hm, Out.ok_bind, rd_sig (by omega) (by omega), Out.ok_bind, zipWith_reg]
    simp only [Out.pure_def]
    congr 1
    apply reg_congr
    intro i _
    rw [sum_range_succ]
  obtain ⟨s, hs, hi⟩ := forN_inv (fun k s =>
      s = reg 8 (fun i => ∑ k ∈ range k, sigI u (mF + k) * sigI v ((n : ℤ) + i - (mF + k))))
    (mL - mF).toNat (List.replicate 8 0) (by rw [replicate_reg]; simp) key
  refine hs.trans ?_
  rw [hi]
  congr 1
  apply reg_congr
  intro i hi
  have hw := convAt_window u v (n + i) mF.toNat (mL - mF).toNat (by omega) (by omega)
  have e : ((mF.toNat : ℕ) : ℤ) = mF := by omega
  rw [e] at hw
  push_cast at hw
  exact hw

theorem convolutionReduce_done (u v out : List R) (n : ℕ) :
    ∃ out', convolutionReduce u v out n false = .ok out' ∧ ConvDone false u v out out' n := by
  unfold convolutionReduce
  simp only [cassert_true, Out.ok_bind]
  obtain ⟨s, hs, hl, hi⟩ := forN_inv (body := fun k (out : List R) => do
      let acc ← reduceBlock u v ((n : ℤ) + (8 * k : Nat))
      storeV out (8 * k) (acc.take (out.length - 8 * k)))
    (fun k s => s.length = out.length ∧ ∀ j, j < out.length → j < 8 * k → sig s j = convAt u v (n + j))
    ((out.length + 7) / 8) out ⟨rfl, by intro j _ h; omega⟩ (by
      rintro k s hk ⟨hl, hs⟩
      have hb : reduceBlock u v ((n : ℤ) + (8 * k : Nat)) =
          .ok (reg 8 (fun i => convAt u v (n + 8 * k + i))) := by
        rw [← reduceBlock_eq]; push_cast; rfl
      obtain ⟨s', e1, e2, e3⟩ := storeV_sig (mem := s) (p := 8 * k)
        (v := (reg 8 (fun i => convAt u v (n + 8 * k + i))).take (s.length - 8 * k)) (by simp; omega)
      refine ⟨s', by rw [hb, Out.ok_bind]; exact e1, by rw [e2, hl], fun j hj hj' => ?_⟩
      rw [e3]
      by_cases c : j < 8 * k
      · rw [if_neg (by omega)]; exact hs j hj c
      · have hlen : ((reg 8 (fun i => convAt u v (n + 8 * k + i))).take (s.length - 8 * k)).length =
            min (s.length - 8 * k) 8 := by simp
        rw [if_pos (by rw [hlen]; omega)]
        have : sig ((reg 8 (fun i => convAt u v (n + 8 * k + i))).take (s.length - 8 * k)) (j - 8 * k) =
            sig (reg 8 (fun i => convAt u v (n + 8 * k + i))) (j - 8 * k) := by
          unfold sig
          simp only [List.getD_eq_getElem?_getD, List.getElem?_take]
          rw [if_pos (by omega)]
        rw [this, sig_reg, if_pos (by omega)]
        congr 1; omega)
  exact ⟨s, hs, hl, fun j hj => by simp [hi j hj (by omega)]⟩

end
end Verif
