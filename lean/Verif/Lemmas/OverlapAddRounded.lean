import Verif.Lemmas.OverlapAddFold

/-! # Overlap-add with rounded additions and inexact chunk convolutions -/

set_option linter.unusedSimpArgs false
set_option linter.unusedSectionVars false
set_option linter.unusedTactic false

namespace Verif
open Finset

theorem sig_map_val {R : Type} [Zero R] [Add R] (A : RoundedAdd R) (l : List R) (j : ℕ) :
    sig (l.map A.val) j = A.val (sig l j) := by
  unfold sig
  simp only [List.getD_eq_getElem?_getD, List.getElem?_map]
  cases l[j]? with
  | none => simp [A.val_zero]
  | some x => simp

theorem sigI_map_val {R : Type} [Zero R] [Add R] (A : RoundedAdd R) (l : List R) (j : ℤ) :
    sigI (l.map A.val) j = A.val (sigI l j) := by
  unfold sigI
  split
  · exact sig_map_val A l _
  · exact A.val_zero.symm

theorem fin_sig {R : Type} [Zero R] [Add R] (A : RoundedAdd R) {l : List R} {X : ℝ} (hX : 0 ≤ X)
    (h : ∀ x ∈ l, A.finite x ∧ ‖A.val x‖ ≤ X) (j : ℕ) : A.finite (sig l j) ∧ ‖A.val (sig l j)‖ ≤ X := by
  unfold sig
  by_cases hj : j < l.length
  · rw [List.getD_eq_getElem?_getD, List.getElem?_eq_getElem hj]
    exact h _ (List.getElem_mem hj)
  · rw [List.getD_eq_getElem?_getD, List.getElem?_eq_none (by omega)]
    simp only [Option.getD_none, A.val_zero, norm_zero]
    exact ⟨A.zero_finite, hX⟩

theorem fin_sigI {R : Type} [Zero R] [Add R] (A : RoundedAdd R) {l : List R} {X : ℝ} (hX : 0 ≤ X)
    (h : ∀ x ∈ l, A.finite x ∧ ‖A.val x‖ ≤ X) (j : ℤ) : A.finite (sigI l j) ∧ ‖A.val (sigI l j)‖ ≤ X := by
  unfold sigI
  split
  · exact fin_sig A hX h _
  · simp only [A.val_zero, norm_zero]
    exact ⟨A.zero_finite, hX⟩

theorem mem_sig {R : Type} [Zero R] {l : List R} {x : R} (h : x ∈ l) : ∃ j, j < l.length ∧ sig l j = x := by
  obtain ⟨j, hj, e⟩ := List.getElem_of_mem h
  refine ⟨j, hj, ?_⟩
  unfold sig
  rw [List.getD_eq_getElem?_getD, List.getElem?_eq_getElem hj]
  exact e

/-- a window of a finitely supported non-negative sequence sums to at most the whole -/
theorem window_sum_le (v : List ℂ) (c : ℤ) (n : ℕ) :
    ∑ i ∈ range n, ‖sigI v (c - i)‖ ≤ ∑ m ∈ range v.length, ‖sig v m‖ := by
  classical
  have h1 : ∑ i ∈ range n, ‖sigI v (c - i)‖ =
      ∑ i ∈ (range n).filter (fun i : ℕ => 0 ≤ c - i ∧ c - i < v.length), ‖sig v (c - i).toNat‖ := by
    rw [sum_filter]
    apply sum_congr rfl
    intro i _
    split
    · rename_i h
      unfold sigI; rw [if_pos h.1]
    · rename_i h
      by_cases hc : c - (i : ℤ) < 0
      · rw [sigI_neg hc, norm_zero]
      · rw [sigI_ge (by omega), norm_zero]
  rw [h1]
  rw [← sum_image (s := (range n).filter (fun i : ℕ => 0 ≤ c - i ∧ c - i < v.length))
    (g := fun i : ℕ => (c - (i : ℤ)).toNat) (f := fun m => ‖sig v m‖)]
  · apply sum_le_sum_of_subset_of_nonneg
    · intro m hm
      simp only [mem_image, mem_filter, mem_range] at hm ⊢
      obtain ⟨i, hi, rfl⟩ := hm
      omega
    · intros; positivity
  · intro a ha b hb hab
    simp only [coe_filter, mem_range, Set.mem_ofPred_eq] at ha hb
    simp only at hab
    omega

/-- chunks whose (long) result covers one given sample -/
theorem hits_card (a : ℤ) (F K n : ℕ) (hF : 0 < F) (hK : 0 < K) :
    ((range n).filter (fun b : ℕ => (b : ℤ) * F ≤ a ∧ a < b * F + K)).card ≤ (K - 1) / F + 1 := by
  classical
  set S := (range n).filter (fun b : ℕ => (b : ℤ) * F ≤ a ∧ a < b * F + K) with hS
  rcases S.eq_empty_or_nonempty with h | h
  · rw [h]; simp
  · have hm := S.min'_mem h
    set b0 := S.min' h with hb0
    have hsub : S ⊆ Icc b0 (b0 + (K - 1) / F) := by
      intro b hb
      have hle : b0 ≤ b := S.min'_le b hb
      rw [mem_Icc]
      refine ⟨hle, ?_⟩
      have h1 := (mem_filter.1 hm).2
      have h2 := (mem_filter.1 hb).2
      obtain ⟨d, rfl⟩ := Nat.exists_eq_add_of_le hle
      have h3 : (d : ℤ) * F ≤ K - 1 := by
        have := h2.1; have := h1.2
        push_cast at *
        nlinarith
      have h4 : d * F ≤ K - 1 := by
        have : ((d * F : ℕ) : ℤ) ≤ ((K - 1 : ℕ) : ℤ) := by push_cast; omega
        exact_mod_cast this
      have := (Nat.le_div_iff_mul_le hF).2 h4
      omega
    calc S.card ≤ (Icc b0 (b0 + (K - 1) / F)).card := card_le_card hsub
      _ = _ := by
        rw [Nat.card_Icc]
        generalize (K - 1) / F = q
        omega

theorem pow_le_two {u : ℝ} {c : ℕ} (hu : 0 ≤ u) (h : 2 * c * u ≤ 1) : (1 + u) ^ c ≤ 2 := by
  have h1 : (1 + u) ^ c ≤ Real.exp (1 / 2) := by
    calc (1 + u) ^ c ≤ (Real.exp u) ^ c := by
          apply pow_le_pow_left₀ (by linarith)
          have := Real.add_one_le_exp u
          linarith
      _ = Real.exp (c * u) := by rw [← Real.exp_nat_mul]
      _ ≤ _ := Real.exp_le_exp.2 (by linarith)
  have h2 : Real.exp (1 / 2) * Real.exp (1 / 2) = Real.exp 1 := by rw [← Real.exp_add]; norm_num
  have h3 := Real.exp_one_lt_d9
  have h4 := Real.exp_pos (1 / 2)
  nlinarith

/-- one more rounded addition of an inexact term -/
theorem add_step {R : Type} [Zero R] [Add R] (A : RoundedAdd R) {x y : R} {E b : ℂ} {ε S : ℝ} {c B : ℕ}
    (hε : 0 ≤ ε) (hS : 0 ≤ S) (fx : A.finite x) (fy : A.finite y)
    (hx : ‖A.val x - E‖ ≤ c * (1 + A.u) ^ c * (ε + A.u * S)) (hy : ‖A.val y - b‖ ≤ ε) (hE : ‖E + b‖ ≤ S)
    (hc : c + 1 ≤ B) (hB : 2 * B * A.u ≤ 1) (hH : S + 2 * B * (ε + A.u * S) + ε ≤ A.huge) :
    A.finite (x + y) ∧ ‖A.val (x + y) - (E + b)‖ ≤ (c + 1 : ℕ) * (1 + A.u) ^ (c + 1) * (ε + A.u * S) := by
  have u0 := A.u_nonneg
  have hcB : (c : ℝ) ≤ B := by exact_mod_cast (by omega : c ≤ B)
  have hp2 : (1 + A.u) ^ c ≤ 2 := pow_le_two u0 (by nlinarith)
  have hp1 : 1 ≤ (1 + A.u) ^ c := one_le_pow₀ (by linarith)
  obtain ⟨p, hp⟩ : ∃ p, p = (1 + A.u) ^ c := ⟨_, rfl⟩
  obtain ⟨D, hD⟩ : ∃ D, D = ε + A.u * S := ⟨_, rfl⟩
  have hD0 : 0 ≤ D := by rw [hD]; positivity
  rw [← hp] at hp1 hp2 hx
  rw [← hD] at hx hH ⊢
  rw [pow_succ, ← hp]
  have d1 : ‖A.val x + A.val y - (E + b)‖ ≤ c * p * D + ε := by
    calc ‖A.val x + A.val y - (E + b)‖ = ‖(A.val x - E) + (A.val y - b)‖ := by congr 1; ring
      _ ≤ _ := (norm_add_le _ _).trans (add_le_add hx hy)
  have d2 : ‖A.val x + A.val y‖ ≤ S + (c * p * D + ε) := by
    calc ‖A.val x + A.val y‖ = ‖(E + b) + (A.val x + A.val y - (E + b))‖ := by congr 1; ring
      _ ≤ _ := (norm_add_le _ _).trans (add_le_add hE d1)
  have c0 : (0 : ℝ) ≤ c := Nat.cast_nonneg c
  have d3 : c * p * D ≤ 2 * B * D := by
    apply mul_le_mul_of_nonneg_right _ hD0
    nlinarith
  obtain ⟨f, e⟩ := A.add x y fx fy (by linarith)
  refine ⟨f, ?_⟩
  have d4 : ‖A.val (x + y) - (E + b)‖ ≤ A.u * (S + (c * p * D + ε)) + (c * p * D + ε) := by
    calc ‖A.val (x + y) - (E + b)‖ = ‖(A.val (x + y) - (A.val x + A.val y)) + (A.val x + A.val y - (E + b))‖ := by
          congr 1; ring
      _ ≤ _ := (norm_add_le _ _).trans (add_le_add (e.trans (mul_le_mul_of_nonneg_left d2 u0)) d1)
  refine d4.trans ?_
  push_cast
  have q1 : A.u * ε ≤ A.u * D := mul_le_mul_of_nonneg_left (by rw [hD]; nlinarith) u0
  have q2 : D + A.u * D ≤ p * (1 + A.u) * D := by
    have : 1 * ((1 + A.u) * D) ≤ p * ((1 + A.u) * D) := mul_le_mul_of_nonneg_right hp1 (by positivity)
    linarith
  have q3 : A.u * (S + (c * p * D + ε)) + (c * p * D + ε) = c * p * D * (1 + A.u) + (A.u * ε + D) := by
    rw [hD]; ring
  rw [q3]
  have : (c + 1 : ℝ) * (p * (1 + A.u)) * D = c * p * D * (1 + A.u) + p * (1 + A.u) * D := by ring
  rw [this]
  linarith

/-- exact circular convolution as a list -/
noncomputable def exactCC (a b : List ℂ) : Out (List ℂ) :=
  .ok (reg a.length fun k => ∑ i ∈ range a.length, sig a i * sig b ((k + a.length - i) % a.length))

theorem exactCC_ok : IsCircularConvolution exactCC := by
  intro a b ha hab
  refine ⟨_, rfl, by simp, fun k hk => ?_⟩
  rw [sig_reg, if_pos hk]

section
variable {R : Type} [Add R] [Mul R] [Zero R]

theorem overlapAddOrdered_near (A : RoundedAdd R) (auto : ℕ → ℕ → Out ℕ) {cc : List R → List R → Out (List R)}
    (out u v : List R) (offset chunkSize K : ℕ) (clear : Bool) (A0 U V ε : ℝ)
    (hcc : ApproxCircularConvolution A cc K U V ε)
    (hauto : (if chunkSize = 0 then auto u.length v.length else pure chunkSize) = .ok K)
    (hlen : v.length ≤ u.length) (hv : 0 < v.length) (hK : 2 * v.length - 1 ≤ K)
    (hb : offset + out.length ≤ convLengthFull u.length v.length)
    (hU : ∀ x ∈ u, A.finite x ∧ ‖A.val x‖ ≤ U) (hV : ∀ x ∈ v, A.finite x ∧ ‖A.val x‖ ≤ V)
    (hA : 0 ≤ A0) (ho : clear = false → ∀ x ∈ out, A.finite x ∧ ‖A.val x‖ ≤ A0)
    (S : ℝ) (hS : S = A0 + U * ∑ m ∈ range v.length, ‖A.val (sig v m)‖)
    (B : ℕ) (hBdef : B = (K - 1) / v.length + 1) (hB : 2 * B * A.u ≤ 1)
    (hH : S + 2 * B * (ε + A.u * S) + ε ≤ A.huge) :
    ∃ out', overlapAddOrdered auto cc out u v offset chunkSize clear = .ok out' ∧ out'.length = out.length ∧
      ∀ j, j < out.length → A.finite (sig out' j) ∧
        ‖A.val (sig out' j) - ((if clear then 0 else A.val (sig out j)) +
          convAt (u.map A.val) (v.map A.val) (offset + j))‖ ≤ 2 * B * (ε + A.u * S) := by
  classical
  have u0 := A.u_nonneg
  have hK0 : 0 < K := by omega
  have hU0 : 0 ≤ U := by
    obtain ⟨x, hx⟩ := List.exists_mem_of_length_pos (by omega : 0 < u.length)
    exact (norm_nonneg _).trans (hU x hx).2
  have hV0 : 0 ≤ V := by
    obtain ⟨x, hx⟩ := List.exists_mem_of_length_pos hv
    exact (norm_nonneg _).trans (hV x hx).2
  have hε : 0 ≤ ε := by
    obtain ⟨c, _, _, h⟩ := hcc (List.replicate K 0) (List.replicate K 0) (by simp) (by simp)
      (fun x hx => by rw [List.eq_of_mem_replicate hx, A.val_zero, norm_zero]; exact ⟨A.zero_finite, hU0⟩)
      (fun x hx => by rw [List.eq_of_mem_replicate hx, A.val_zero, norm_zero]; exact ⟨A.zero_finite, hV0⟩)
    exact (norm_nonneg _).trans (h 0 hK0).2
  have hS0 : 0 ≤ S := by rw [hS]; have : 0 ≤ ∑ m ∈ range v.length, ‖A.val (sig v m)‖ := by positivity
                         positivity
  set F := v.length with hF
  obtain ⟨first, hfirst⟩ : ∃ f : ℤ, f = max 0 ((offset : ℤ) + 1 - F) := ⟨_, rfl⟩
  set T : ℕ → ℕ → ℂ := fun j i => sigI (u.map A.val) (first + i) * sigI (v.map A.val) ((offset : ℤ) + j - (first + i)) with hT
  set base : ℕ → ℂ := fun j => if clear then 0 else A.val (sig out j) with hbase
  set E : ℕ → ℕ → ℂ := fun k j => base j + ∑ b ∈ range k, ∑ t ∈ range F, T j (b * F + t) with hE
  set hit : ℕ → ℕ → Finset ℕ := fun k j => (range k).filter (fun b : ℕ => (b : ℤ) * F ≤ (offset : ℤ) + j - first ∧
    (offset : ℤ) + j - first < b * F + K) with hhit
  have hcard : ∀ k j, (hit k j).card ≤ B := fun k j => by rw [hBdef]; exact hits_card _ F K k hv hK0
  have hbn : ∀ j, j < out.length → ‖base j‖ ≤ A0 := by
    intro j hj
    simp only [hbase]
    cases clear with
    | true => simpa using hA
    | false => simpa using (fin_sig A hA (ho rfl) j).2
  have hES : ∀ k j, j < out.length → ‖E k j‖ ≤ S := by
    intro k j hj
    simp only [hE]
    rw [sum_blocks (T j) F k, hS]
    refine (norm_add_le _ _).trans (add_le_add (hbn j hj) ?_)
    refine (norm_sum_le _ _).trans ?_
    have h1 : ∀ i ∈ range (k * F), ‖T j i‖ ≤ U * ‖sigI (v.map A.val) (((offset : ℤ) + j - first) - i)‖ := by
      intro i _
      simp only [hT]
      rw [norm_mul, sigI_map_val A u, show (offset : ℤ) + j - (first + i) = ((offset : ℤ) + j - first) - i by ring]
      exact mul_le_mul_of_nonneg_right (fin_sigI A hU0 hU _).2 (norm_nonneg _)
    refine (sum_le_sum h1).trans ?_
    rw [← mul_sum]
    apply mul_le_mul_of_nonneg_left _ hU0
    have := window_sum_le (v.map A.val) ((offset : ℤ) + j - first) (k * F)
    simpa [sig_map_val] using this
  obtain ⟨out', M, h1, h2, h3, h4⟩ := overlapAddOrdered_fold auto (cc := cc) out u v offset chunkSize K clear hauto hlen hv hK hb
    first hfirst
    (fun k j x => A.finite x ∧ ‖A.val x - E k j‖ ≤ (hit k j).card * (1 + A.u) ^ (hit k j).card * (ε + A.u * S))
    (by
      intro j hj
      cases clear with
      | true => simp [hE, hbase, hhit, A.zero_finite, A.val_zero]
      | false => simpa [hE, hbase, hhit] using (fin_sig A hA (ho rfl) j).1)
    (by
      intro k c hc1 hc2
      have hfs : ∀ j, sig (v ++ List.replicate (K - F) (0 : R)) j = sig v j := by
        intro j
        unfold sig
        simp only [List.getD_eq_getElem?_getD, List.getElem?_append]
        split
        · rfl
        · rename_i h
          rw [List.getElem?_eq_none (l := v) (by omega), List.getElem?_replicate]
          split <;> rfl
      set filter := v ++ List.replicate (K - F) (0 : R) with hfilter
      have hfl : filter.length = K := by rw [hfilter]; simp; omega
      have hcs : ∀ j, A.finite (sig c j) ∧ ‖A.val (sig c j)‖ ≤ U := by
        intro j
        rw [hc2]
        split
        · exact fin_sigI A hU0 hU _
        · rw [A.val_zero, norm_zero]; exact ⟨A.zero_finite, hU0⟩
      obtain ⟨cf, g0, g1, g2⟩ := hcc c filter hc1 hfl
        (fun x hx => by obtain ⟨j, _, e⟩ := mem_sig hx; rw [← e]; exact hcs j)
        (fun x hx => by obtain ⟨j, _, e⟩ := mem_sig hx; rw [← e, hfs]; exact fin_sig A hV0 hV j)
      refine ⟨cf, g0, g1, fun j x hj hI => ?_⟩
      obtain ⟨cx, e0, e1, e2⟩ := cc_linear exactCC_ok (c.map A.val) (filter.map A.val) F K (by simpa using hc1)
        (by simpa using hfl) (by omega) hK0
        (fun j hj => by rw [sig_map_val, hc2, if_neg (by omega), A.val_zero])
        (fun j hj => by rw [sig_map_val, hfs, sig_of_ge (by omega), A.val_zero])
      have e0' : cx = reg K fun k => ∑ i ∈ range K, sig (c.map A.val) i * sig (filter.map A.val) ((k + K - i) % K) := by
        unfold exactCC at e0
        rw [List.length_map, hc1] at e0
        exact (Out.ok.inj e0).symm
      have hsucc : E (k + 1) j = E k j + ∑ t ∈ range F, T j (k * F + t) := by
        simp only [hE]; rw [sum_range_succ]; ring
      refine ⟨fun m hm hmK => ?_, fun hmiss => ?_⟩
      · rw [← hF] at hm
        have hblk : ∑ i ∈ range K, A.val (sig c i) * A.val (sig filter ((m + K - i) % K)) =
            ∑ t ∈ range F, T j (k * F + t) := by
          have := e2 m hmK
          rw [e0', sig_reg, if_pos hmK] at this
          simp only [sig_map_val] at this
          rw [this]
          apply sum_congr rfl
          intro t ht
          rw [hc2, if_pos (mem_range.1 ht)]
          simp only [hT]
          have q1 : first + (k : ℤ) * F + t = first + ((k * F + t : ℕ) : ℤ) := by push_cast; ring
          have q2 : (m : ℤ) - t = (offset : ℤ) + j - (first + ((k * F + t : ℕ) : ℤ)) := by
            push_cast; omega
          rw [q1, q2, ← sigI_map_val]
          congr 1
          unfold sigI
          split
          · rw [sig_map_val, sig_map_val, hfs]
          · rfl
        obtain ⟨fy, hy⟩ := g2 m hmK
        rw [hblk] at hy
        have hc : (hit (k + 1) j).card = (hit k j).card + 1 := by
          simp only [hhit]
          rw [range_add_one, filter_insert, if_pos (by constructor <;> omega), card_insert_of_notMem (by simp)]
        have hle : (hit k j).card + 1 ≤ B := hc ▸ hcard (k + 1) j
        have := add_step A hε hS0 hI.1 fy hI.2 hy (hsucc ▸ hES (k + 1) j hj) hle hB hH
        rw [hsucc, hc]
        exact this
      · rw [← hF] at hmiss
        have hc : hit (k + 1) j = hit k j := by
          simp only [hhit]
          rw [range_add_one, filter_insert, if_neg]
          rintro ⟨q1, q2⟩
          have := hmiss ((offset : ℤ) + j - (first + (k : ℤ) * F)).toNat (by omega)
          omega
        have hz : ∑ t ∈ range F, T j (k * F + t) = 0 := by
          apply sum_eq_zero
          intro t ht
          have ht' := mem_range.1 ht
          simp only [hT]
          have q2 : (offset : ℤ) + j - (first + ((k * F + t : ℕ) : ℤ)) = offset + j - (first + k * F) - t := by
            push_cast; ring
          rw [q2]
          by_cases c1 : (offset : ℤ) + j - (first + k * F) - t < 0
          · rw [sigI_neg c1, mul_zero]
          · rw [sigI_ge (u := v.map A.val), mul_zero]
            have := hmiss ((offset : ℤ) + j - (first + (k : ℤ) * F)).toNat (by omega)
            rw [List.length_map]
            omega
        rw [hsucc, hz, add_zero, hc]
        exact hI)
  rw [← hF] at h3
  refine ⟨out', h1, h2, fun j hj => ?_⟩
  obtain ⟨q1, q2⟩ := h4 j hj
  refine ⟨q1, ?_⟩
  have hw := convAt_window (u.map A.val) (v.map A.val) (offset + j) first.toNat (M * F) (by rw [List.length_map]; omega)
    (by right; have : (first.toNat : ℤ) + ((M * F : ℕ) : ℤ) ≥ offset + out.length := by push_cast; omega
        omega)
  have e : ((first.toNat : ℕ) : ℤ) = first := by omega
  rw [e] at hw
  push_cast at hw
  have hEM : E M j = base j + convAt (u.map A.val) (v.map A.val) (offset + j) := by
    simp only [hE]
    rw [sum_blocks (T j) F M, ← hw]
  rw [hEM] at q2
  refine q2.trans ?_
  have hD0 : 0 ≤ ε + A.u * S := by positivity
  apply mul_le_mul_of_nonneg_right _ hD0
  have c1 : ((hit M j).card : ℝ) ≤ B := by exact_mod_cast hcard M j
  have c2 : (1 + A.u) ^ (hit M j).card ≤ 2 := pow_le_two u0 (by nlinarith)
  have c0 : (0 : ℝ) ≤ (hit M j).card := Nat.cast_nonneg _
  nlinarith

end
end Verif
