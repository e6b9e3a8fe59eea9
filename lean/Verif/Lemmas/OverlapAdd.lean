import Verif.Model.OverlapAdd
import Verif.Spec.CircularConvolution
import Verif.Lemmas.Convolution2
import Mathlib.Analysis.SpecialFunctions.Log.Basic
import Mathlib.Analysis.Complex.ExponentialBounds

set_option linter.unusedSimpArgs false
set_option linter.unusedSectionVars false
set_option linter.unusedTactic false

namespace Verif
open Finset

section
variable {R : Type} [Add R] [Mul R] [Zero R]

theorem subsignalAdd_done (out chunk : List R) (p n q : ℤ) (h1 : 0 ≤ p) (h2 : 0 ≤ n)
    (h3 : p + n ≤ out.length) (h4 : 0 ≤ q) (h5 : q + n ≤ chunk.length) :
    ∃ out', subsignalAdd out p n chunk q = .ok out' ∧ out'.length = out.length ∧
      ∀ j : ℕ, sig out' j = if p ≤ j ∧ (j : ℤ) < p + n then sig out j + sigI chunk (q + (j - p))
        else sig out j := by
  unfold subsignalAdd
  rw [cassert_true ⟨h1, h2, h3⟩, Out.ok_bind, cassert_true ⟨h4, h5⟩, Out.ok_bind]
  obtain ⟨s, hs, hl, hi⟩ := forN_inv (body := fun k (out : List R) => do
    let a ← rd out (p + k)
    let b ← rd chunk (q + k)
    wr out (p + k) (a + b)) (fun k s => s.length = out.length ∧ ∀ j : ℕ, sig s j =
      if p ≤ j ∧ (j : ℤ) < p + k then sig out j + sigI chunk (q + (j - p)) else sig out j)
    n.toNat out ⟨rfl, by intro j; rw [if_neg (by omega)]⟩ (by
      rintro k s hk ⟨hl, hs⟩
      apply exists_ok
      · rw [rd_sig (by omega) (by omega), Out.ok_bind, rd_sig (by omega) (by omega), Out.ok_bind,
          wr_eq (by omega) (by omega)]
      · refine ⟨by simp [hl], fun j => ?_⟩
        rw [sig_set _ _ _ _ (by omega)]
        by_cases c : j = (p + (k : ℤ)).toNat
        · rw [if_pos c, if_pos (by omega)]
          have e1 : p + (k : ℤ) = j := by omega
          have e2 : q + (k : ℤ) = q + (j - p) := by omega
          rw [e1, e2, sigI_nat, hs, if_neg (by omega)]
        · rw [if_neg c, hs]
          by_cases c2 : p ≤ (j : ℤ) ∧ (j : ℤ) < p + k
          · rw [if_pos c2, if_pos (by omega)]
          · rw [if_neg c2, if_neg (by omega)])
  refine ⟨s, hs, hl, fun j => ?_⟩
  rw [hi]
  have : ((n.toNat : ℕ) : ℤ) = n := by omega
  rw [this]

theorem fillChunk_eq (K : ℕ) (u : List R) (pos : ℤ) (F : ℕ) (hF : F ≤ K) (hpos : 0 ≤ pos) :
    ∃ c, fillChunk K u ((Interval.mk pos (pos + F)).intersection ⟨0, u.length⟩) = .ok c ∧ c.length = K ∧
      ∀ j, sig c j = if j < F then sigI u (pos + j) else 0 := by
  unfold fillChunk Interval.intersection
  have hmem : ∀ (part : List R) (j : ℕ), sig (part ++ List.replicate (K - part.length) (0 : R)) j =
      sig part j := by
    intro part j
    unfold sig
    simp only [List.getD_eq_getElem?_getD, List.getElem?_append]
    split
    · rfl
    · rename_i h
      rw [List.getElem?_eq_none (l := part) (by omega), List.getElem?_replicate]
      split <;> rfl
  simp only
  split
  · rename_i h
    simp only
    rw [loadVI_reg (by omega) (by omega), Out.ok_bind]
    simp only [reg_length]
    rw [if_pos (by omega)]
    refine ⟨_, rfl, by simp; omega, fun j => ?_⟩
    have := hmem (reg (min (pos + (F : ℤ)) u.length - max pos 0).toNat
      (fun i => sigI u (max pos 0 + i))) j
    rw [reg_length] at this
    rw [this, sig_reg]
    have e : max pos 0 = pos := by omega
    rw [e]
    by_cases c : j < (min (pos + (F : ℤ)) u.length - pos).toNat
    · rw [if_pos c, if_pos (by omega)]
    · rw [if_neg c]
      split
      · rw [sigI_ge (by omega)]
      · rfl
  · rename_i h
    simp only
    rw [loadVI_reg (by omega) (by omega), Out.ok_bind]
    simp only [reg_length]
    rw [if_pos (by omega)]
    refine ⟨_, rfl, by simp, fun j => ?_⟩
    have := hmem (reg (0 - 0 : ℤ).toNat (fun i => sigI u (0 + (i : ℕ)))) j
    rw [reg_length] at this
    rw [this, sig_reg, if_neg (by omega)]
    split
    · rw [sigI_ge (by omega)]
    · rfl

end

section
variable {R : Type} [CommRing R]

/-- circular convolution of two short signals in a long enough buffer is linear convolution -/
theorem cc_linear {cc : List R → List R → Out (List R)} (hcc : IsCircularConvolution cc) (a b : List R)
    (F K : ℕ) (ha : a.length = K) (hb : b.length = K) (hK : 2 * F ≤ K + 1) (hK0 : 0 < K)
    (ha' : ∀ j, F ≤ j → sig a j = 0) (hb' : ∀ j, F ≤ j → sig b j = 0) :
    ∃ c, cc a b = .ok c ∧ c.length = K ∧ ∀ k, k < K → sig c k =
      ∑ t ∈ range F, sig a t * sigI b ((k : ℤ) - t) := by
  obtain ⟨c, h0, h1, h2⟩ := hcc a b (List.ne_nil_of_length_pos (by omega)) (by rw [ha, hb])
  refine ⟨c, h0, by rw [h1, ha], fun k hk => ?_⟩
  rw [h2 k (by omega), ha]
  have hterm : ∀ i, i < K → sig a i * sig b ((k + K - i) % K) = sig a i * sigI b ((k : ℤ) - i) := by
    intro i hi
    by_cases c : F ≤ i
    · rw [ha' i c]; ring
    · congr 1
      by_cases c2 : i ≤ k
      · have e : (k + K - i) % K = k - i := by
          rw [show k + K - i = (k - i) + K by omega, Nat.add_mod_right, Nat.mod_eq_of_lt (by omega)]
        rw [e, ← sigI_nat]
        congr 1; omega
      · have e : (k + K - i) % K = k + K - i := Nat.mod_eq_of_lt (by omega)
        rw [e, hb' _ (by omega), sigI_neg (by omega)]
  rw [sum_congr rfl (fun i hi => hterm i (mem_range.1 hi))]
  rcases le_total F K with h | h
  · symm
    apply sum_subset (by simpa using h)
    intro i _ hi
    rw [ha' i (by simpa using hi)]; ring
  · apply sum_subset (by simpa using h)
    intro i _ hi
    have : K ≤ i := by simpa using hi
    rw [sig_of_ge (by omega)]; ring

theorem inter_of_lt {a b : Interval ℤ} (h : max a.first b.first < min a.last b.last) :
    a.intersection b = ⟨max a.first b.first, min a.last b.last⟩ := by
  unfold Interval.intersection
  simp only [h, if_true]

theorem sum_blocks (g : ℕ → R) (F : ℕ) : ∀ n, ∑ b ∈ range n, ∑ t ∈ range F, g (b * F + t) =
    ∑ i ∈ range (n * F), g i
  | 0 => by simp
  | n + 1 => by
    rw [sum_range_succ, sum_blocks g F n, Nat.succ_mul, sum_range_add]

theorem overlapAddOrdered_done (auto : ℕ → ℕ → Out ℕ) {cc : List R → List R → Out (List R)}
    (hcc : IsCircularConvolution cc) (out u v : List R) (offset chunkSize K : ℕ) (clear : Bool)
    (hauto : (if chunkSize = 0 then auto u.length v.length else pure chunkSize) = .ok K)
    (hlen : v.length ≤ u.length) (hv : 0 < v.length) (hK : 2 * v.length - 1 ≤ K)
    (hb : offset + out.length ≤ convLengthFull u.length v.length) :
    ∃ out', overlapAddOrdered auto cc out u v offset chunkSize clear = .ok out' ∧
      ConvDone (!clear) u v out out' offset := by
  unfold overlapAddOrdered
  rw [hauto, Out.ok_bind, cassert_true (by rw [usub, if_pos (by omega)]; exact hK), Out.ok_bind,
    cassert_true hb, Out.ok_bind]
  set base := if clear then out.map fun _ => 0 else out with hbase
  have hbl : base.length = out.length := by rw [hbase]; split <;> simp
  have hbs : ∀ j, sig base j = if !clear then sig out j else 0 := by
    intro j
    rw [hbase]
    cases clear with
    | false => simp
    | true => simp only [if_true, Bool.not_true]; unfold sig; by_cases h : j < out.length <;> simp [h]
  set F := v.length with hF
  set N := u.length with hN
  set L := out.length with hL
  have hfull : convLengthFull N F = N + F - 1 := by
    unfold convLengthFull; rw [if_neg (by omega)]; omega
  rw [hfull] at hb
  simp only [hbl, ← hL]
  rcases Nat.eq_zero_or_pos L with hL0 | hLpos
  · -- empty output
    refine ⟨base, ?_, hbl, by intro k hk; omega⟩
    have : ∀ p : ℤ, Interval.isDisjoint ⟨p, p + (K : ℤ)⟩ ⟨(offset : ℤ), (offset : ℤ) + L⟩ = true := by
      intro p
      simp only [Interval.isDisjoint, Bool.not_eq_true', decide_eq_false_iff_not]
      omega
    simp [whileN, this]
  set first : ℤ := max 0 ((offset : ℤ) + 1 - F) with hfirst
  have hloop : (Interval.intersection ⟨0, (N : ℤ)⟩ (Interval.encompassingUnion
      ⟨(offset : ℤ), (offset : ℤ) + L⟩ ((Interval.shift ⟨(offset : ℤ), (offset : ℤ) + L⟩ 1).unshift
        (F : ℤ)))).first = first := by
    rw [inter_of_lt (by simp only [Interval.encompassingUnion, Interval.shift, Interval.unshift]; omega)]
    simp only [Interval.encompassingUnion, Interval.shift, Interval.unshift]
    omega
  rw [hloop]
  -- number of blocks
  set M := (((offset : ℤ) + L - first).toNat + F - 1) / F with hM
  have hMF1 : (offset : ℤ) + L ≤ first + M * F := by
    have := Nat.lt_div_mul_add (a := ((offset : ℤ) + L - first).toNat + F - 1) hv
    rw [← hM] at this
    have h2 : (((offset : ℤ) + L - first).toNat) ≤ M * F := by omega
    have : ((((offset : ℤ) + L - first).toNat : ℕ) : ℤ) ≤ ((M * F : ℕ) : ℤ) := by exact_mod_cast h2
    push_cast at this
    omega
  have hMF2 : ∀ k, k < M → first + k * F < (offset : ℤ) + L := by
    intro k hk
    have h1 : (k + 1) * F ≤ ((offset : ℤ) + L - first).toNat + F - 1 := by
      calc (k + 1) * F ≤ M * F := Nat.mul_le_mul_right _ hk
        _ ≤ _ := Nat.div_mul_le_self _ _
    have e : (k + 1) * F = k * F + F := by ring
    rw [e] at h1
    have h3 : k * F < ((offset : ℤ) + L - first).toNat := by omega
    have : ((k * F : ℕ) : ℤ) < (((offset : ℤ) + L - first).toNat : ℤ) := by exact_mod_cast h3
    push_cast at this
    omega
  have hML : M < L + 1 := by
    have : M ≤ L := by
      rw [hM]
      apply Nat.le_of_lt_succ
      rw [Nat.div_lt_iff_lt_mul hv]
      have : L + F ≤ L * F + 1 := by nlinarith [Nat.mul_le_mul hLpos hv]
      have e : (L + 1) * F = L * F + F := by ring
      rw [e]
      omega
    omega
  set filter := v ++ List.replicate (K - F) (0 : R) with hfilter
  have hfl : filter.length = K := by rw [hfilter]; simp; omega
  have hfs : ∀ j, sig filter j = sig v j := by
    intro j
    rw [hfilter]
    unfold sig
    simp only [List.getD_eq_getElem?_getD, List.getElem?_append]
    split
    · rfl
    · rename_i h
      rw [List.getElem?_eq_none (l := v) (by omega), List.getElem?_replicate]
      split <;> rfl
  set T : ℕ → ℕ → R := fun j i => sigI u (first + i) * sigI v ((offset : ℤ) + j - (first + i)) with hT
  obtain ⟨s, hs, hi1, hi2, hi3⟩ := whileN_inv (cond := fun s : List R × Int =>
      !(Interval.isDisjoint ⟨s.2, s.2 + (K : Int)⟩ ⟨(offset : ℤ), (offset : ℤ) + L⟩))
    (body := fun s => do
      let out' ← olaStep cc u filter F K offset s.1 s.2
      pure (out', s.2 + (F : Int)))
    (fun k s => s.1.length = L ∧ s.2 = first + k * F ∧ ∀ j, j < L → sig s.1 j = sig base j +
      ∑ b ∈ range k, ∑ t ∈ range F, T j (b * F + t)) M
    (by
      rintro k ⟨s, pos⟩ hk ⟨hsl, hpos, hs⟩
      simp only at hsl hpos hs
      have hlt := hMF2 k hk
      rw [← hpos] at hlt
      have hkF : 0 ≤ (k : ℤ) * F := by positivity
      have hnd : max pos (offset : ℤ) < min (pos + (K : ℤ)) ((offset : ℤ) + L) := by omega
      refine ⟨by simp [Interval.isDisjoint, -lt_inf_iff, -sup_lt_iff]; exact hnd, ?_⟩
      obtain ⟨c, hc1, hc2, hc3⟩ := fillChunk_eq K u pos F (by omega) (by omega)
      obtain ⟨cf, g0, g1, g2⟩ := cc_linear hcc c filter F K hc2 hfl (by omega) (by omega)
        (fun j hj => by rw [hc3, if_neg (by omega)]) (fun j hj => by rw [hfs, sig_of_ge (by omega)])
      obtain ⟨o, ho1, ho2, ho3⟩ := subsignalAdd_done s cf
        (max pos (offset : ℤ) - offset)
        (min (pos + (K : ℤ)) ((offset : ℤ) + L) - offset - (max pos (offset : ℤ) - offset))
        (max pos (offset : ℤ) - pos) (by omega) (by omega) (by omega) (by omega) (by omega)
      have hstep : olaStep cc u filter F K offset s pos = .ok o := by
        unfold olaStep
        rw [← hN, hsl] at *
        simp only
        rw [hc1, Out.ok_bind]
        simp only [Interval.intersection, Interval.unshift, Interval.size]
        rw [if_pos hnd, g0]
        exact ho1
      simp only
      rw [hstep]
      refine ⟨_, rfl, by rw [ho2, hsl], ?_, fun j hj => ?_⟩
      · simp only [hpos]; push_cast; ring
      · simp only
        rw [ho3, sum_range_succ, hs j hj]
        have hblk : ∀ m : ℕ, (m : ℤ) = (offset : ℤ) + j - pos → m < K →
            sig cf m = ∑ t ∈ range F, T j (k * F + t) := by
          intro m hm hmK
          rw [g2 m hmK]
          apply sum_congr rfl
          intro t ht
          rw [hc3, if_pos (mem_range.1 ht)]
          simp only [hT]
          have e1 : pos + (t : ℤ) = first + ((k * F + t : ℕ) : ℤ) := by push_cast; omega
          have e2 : (m : ℤ) - t = (offset : ℤ) + j - (first + ((k * F + t : ℕ) : ℤ)) := by
            push_cast; omega
          rw [e1, e2]
          congr 1
          unfold sigI
          split
          · exact hfs _
          · rfl
        split
        · rename_i hr
          rw [add_assoc]
          congr 2
          have e : max pos (offset : ℤ) - pos + (j - (max pos (offset : ℤ) - offset)) =
              (((offset : ℤ) + j - pos).toNat : ℤ) := by omega
          rw [e, sigI_nat]
          exact hblk _ (by omega) (by omega)
        · rename_i hr
          have : ∑ t ∈ range F, T j (k * F + t) = 0 := by
            apply sum_eq_zero
            intro t ht
            have ht' := mem_range.1 ht
            simp only [hT]
            have e2 : (offset : ℤ) + j - (first + ((k * F + t : ℕ) : ℤ)) = offset + j - pos - t := by
              push_cast; omega
            rw [e2]
            by_cases c : (offset : ℤ) + j - pos - t < 0
            · rw [sigI_neg c]; ring
            · rw [sigI_ge (u := v) (by omega)]; ring
          rw [this, add_zero])
    (by
      rintro ⟨s, pos⟩ ⟨_, hpos, _⟩
      simp only at hpos
      simp only [Interval.isDisjoint, Bool.not_not, decide_eq_false_iff_not]
      omega)
    (L + 1) 0 (base, first) (Nat.zero_le _) (by simpa using hML) ⟨hbl, by simp, by simp⟩
  refine ⟨s.1, by rw [hs]; rfl, hi1, fun j hj => ?_⟩
  rw [hi3 j hj, hbs, sum_blocks (T j) F M]
  congr 1
  have hw := convAt_window u v (offset + j) first.toNat (M * F) (by omega)
    (by right; have : (first.toNat : ℤ) + ((M * F : ℕ) : ℤ) ≥ offset + L := by push_cast; omega
        omega)
  have e : ((first.toNat : ℕ) : ℤ) = first := by omega
  rw [e] at hw
  push_cast at hw
  exact hw

theorem overlapAdd_done (auto : ℕ → ℕ → Out ℕ) {cc : List R → List R → Out (List R)}
    (hcc : IsCircularConvolution cc) (out u v : List R) (offset chunkSize K : ℕ) (clear : Bool)
    (hauto : (if chunkSize = 0 then auto (max u.length v.length) (min u.length v.length)
      else pure chunkSize) = .ok K)
    (hu : 0 < u.length) (hv : 0 < v.length) (hK : 2 * min u.length v.length - 1 ≤ K)
    (hb : offset + out.length ≤ convLengthFull u.length v.length) :
    ∃ out', overlapAdd auto cc out u v offset chunkSize clear = .ok out' ∧
      ConvDone (!clear) u v out out' offset := by
  unfold overlapAdd
  split
  · rename_i h
    have e1 : max u.length v.length = v.length := by omega
    have e2 : min u.length v.length = u.length := by omega
    rw [e1, e2] at hauto
    have hb' : offset + out.length ≤ convLengthFull v.length u.length := by
      have : convLengthFull v.length u.length = convLengthFull u.length v.length := by
        unfold convLengthFull; split <;> split <;> omega
      omega
    obtain ⟨o, h1, h2⟩ := overlapAddOrdered_done auto hcc out v u offset chunkSize K clear hauto
      (by omega) hu (by omega) hb'
    exact ⟨o, h1, h2.comm⟩
  · rename_i h
    have e1 : max u.length v.length = u.length := by omega
    have e2 : min u.length v.length = v.length := by omega
    rw [e1, e2] at hauto
    exact overlapAddOrdered_done auto hcc out u v offset chunkSize K clear hauto (by omega) hv
      (by omega) hb

end
end Verif
