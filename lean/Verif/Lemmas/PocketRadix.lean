import Verif.Lemmas.PocketRows

/-! # The radices 2, 3, 4, 5 of the transforms of real data -/

set_option linter.unusedSimpArgs false
set_option linter.unusedSectionVars false
set_option linter.unusedVariables false
set_option linter.unreachableTactic false
set_option linter.unusedTactic false
set_option linter.unnecessarySeqFocus false

namespace Verif.Pocket
open Complex

theorem cI_true (n m : ℕ) : cI true n m = -cI false n m := by simp [cI]

theorem dtw_zero (ip ido l1 : ℕ) (X : ℕ → ℕ → ℂ) (k c : ℕ) : X (k + l1 * 0) c = dtw ip ido l1 X k c 0 := by
  unfold dtw
  rw [Nat.mul_zero c, w_zero, one_mul]

/-- Evaluates a short transform. -/
macro "evalsft" n:num : tactic => `(tactic| (
  unfold sft
  unroll $n
  try simp only [cR_2, cI_2, cR_41, cI_41, cR_42, cI_42]
  simp [rearrange, mulpm, cI_true]
  try ring))

/-- The same at the middle of a row of even length. -/
macro "evalmid" n:num m:num : tactic => `(tactic| (
  unfold sft
  unroll $n
  simp only [w_fold _ $m _ (by norm_num)]
  norm_num only [Nat.reduceMul, Nat.reduceMod, Nat.reduceSub, Nat.reduceLeDiff, if_true, if_false]
  simp only [cR_zero, cI_zero, neg_zero, cR_2, cI_2, cR_41, cI_41, cR_42, cI_42, cR_81, cI_81, cR_82, cI_82, cR_83, cI_83]
  simp
  try ring))

section fwd
variable {ido l1 : ℕ} {X : ℕ → ℕ → ℂ} {wa ch : List ℝ}

theorem radf2_ok (hido : 0 < ido) (hX : ∀ r, Herm ido (X r)) (hw : TwOk wa 2 ido)
    (hc : ch.length = ido * 2 * l1) :
    radf2 ido l1 (tab (ido * 2 * l1) (rows ido X)) ch wa
      = .ok (tab (ido * 2 * l1) (rows (ido * 2) (fstage 2 ido l1 X))) := by
  unfold radf2
  have hip : 0 < 2 := by norm_num
  refine radfLoop_ok hip hido (Or.inl rfl) ?_ ?_ ?_ hc
  · intro k hk
    simp (disch := omega) only [ld_short_0 hido hk, Out.ok_bind]
    apply Fills.mono
    · stores
      · exact ix_lt (by omega) (by omega) hk
      · refine Eq.trans ?_ (fv_00 hip hido hX).symm
        evalsft 2
      · exact ix_lt (by omega) (by omega) hk
      · refine Eq.trans ?_ (fv_last (b := 1) hip hido hX (by norm_num) (by norm_num)).symm
        evalsft 2
    · rintro n _ (rfl | ⟨b, h1, h2, rfl⟩ | ⟨b, h1, h2, rfl⟩)
      · simp
      · have : b ≤ 1 := by omega
        interval_cases b <;> simp
      · have : b ≤ 0 := by omega
        interval_cases b <;> simp
  · intro k m hk hm0 hm _
    simp (disch := omega) only [ld_short_mid hk _ hm0 hm, Out.ok_bind]
    apply Fills.mono
    · stores
      · exact ix_lt (by omega) (by omega) hk
      · refine Eq.trans ?_ (fv_mid_im (b := 0) hip hido hX hm (by norm_num)).symm
        evalmid 2 4
      · exact ix_lt (by omega) (by omega) hk
      · refine Eq.trans ?_ (fv_mid_re (b := 0) hip hido hX hm (by norm_num)).symm
        evalmid 2 4
    · rintro n _ (⟨b, h1, rfl⟩ | ⟨b, h1, rfl⟩)
      · have : b ≤ 0 := by omega
        interval_cases b <;> simp
      · have : b ≤ 0 := by omega
        interval_cases b <;> simp
  · intro k c hk hc0 hc
    simp (disch := omega) only [mulCC_ok hw hk _ hc0 hc, ld_short_re hk _ hc0 hc, ld_short_im hk _ hc0 hc, Out.ok_bind]
    rw [dtw_zero 2 ido l1 X k c]
    apply Fills.mono
    · stores
      · exact ix_lt (by omega) (by omega) hk
      · refine Eq.trans ?_ (fv_up_re (b := 0) hip hido hX (by norm_num) hc0 hc).symm
        generalize dtw 2 ido l1 X k c = d
        evalsft 2
      · exact ix_lt (by omega) (by omega) hk
      · refine Eq.trans ?_ (fv_down_re (b := 1) hip hido hX (by norm_num) (by norm_num) hc0 hc).symm
        generalize dtw 2 ido l1 X k c = d
        evalsft 2
      · exact ix_lt (by omega) (by omega) hk
      · refine Eq.trans ?_ (fv_up_im (b := 0) hip hido hX (by norm_num) hc0 hc).symm
        generalize dtw 2 ido l1 X k c = d
        evalsft 2
      · exact ix_lt (by omega) (by omega) hk
      · refine Eq.trans ?_ (fv_down_im (b := 1) hip hido hX (by norm_num) (by norm_num) hc0 hc).symm
        generalize dtw 2 ido l1 X k c = d
        evalsft 2
    · rintro n _ (⟨b, h1, h⟩ | ⟨b, h1, h2, h⟩)
      · have : b ≤ 0 := by omega
        interval_cases b <;> simp at h ⊢ <;> tauto
      · have : b ≤ 1 := by omega
        interval_cases b <;> simp at h ⊢ <;> tauto

theorem radf3_ok (hido : 0 < ido) (hodd : ido % 2 = 1) (hX : ∀ r, Herm ido (X r)) (hw : TwOk wa 3 ido)
    (hc : ch.length = ido * 3 * l1) :
    radf3 ido l1 (tab (ido * 3 * l1) (rows ido X)) ch wa
      = .ok (tab (ido * 3 * l1) (rows (ido * 3) (fstage 3 ido l1 X))) := by
  unfold radf3
  have hip : 0 < 3 := by norm_num
  refine radfLoop_ok hip hido (Or.inr hodd) ?_ ?_ ?_ hc
  · intro k hk
    simp (disch := omega) only [ld_short_0 hido hk, Out.ok_bind]
    apply Fills.mono
    · stores
      · exact ix_lt (by omega) (by omega) hk
      · refine Eq.trans ?_ (fv_00 hip hido hX).symm
        evalsft 3
      · exact ix_lt (by omega) (by omega) hk
      · refine Eq.trans ?_ (fv_first (b := 1) hip hido hX (by norm_num) (by norm_num)).symm
        evalsft 3
      · exact ix_lt (by omega) (by omega) hk
      · refine Eq.trans ?_ (fv_last (b := 1) hip hido hX (by norm_num) (by norm_num)).symm
        evalsft 3
    · rintro n _ (rfl | ⟨b, h1, h2, rfl⟩ | ⟨b, h1, h2, rfl⟩)
      · simp
      · have : b ≤ 1 := by omega
        interval_cases b <;> simp
      · have : b ≤ 1 := by omega
        interval_cases b <;> simp
  · intro k m hk hm0 hm h
    exact absurd h (by decide)
  · intro k c hk hc0 hc
    simp (disch := omega) only [mulCC_ok hw hk _ hc0 hc, ld_short_re hk _ hc0 hc, ld_short_im hk _ hc0 hc, Out.ok_bind]
    rw [dtw_zero 3 ido l1 X k c]
    apply Fills.mono
    · stores
      · exact ix_lt (by omega) (by omega) hk
      · refine Eq.trans ?_ (fv_up_re (b := 0) hip hido hX (by norm_num) hc0 hc).symm
        generalize dtw 3 ido l1 X k c = d
        evalsft 3
      · exact ix_lt (by omega) (by omega) hk
      · refine Eq.trans ?_ (fv_up_im (b := 0) hip hido hX (by norm_num) hc0 hc).symm
        generalize dtw 3 ido l1 X k c = d
        evalsft 3
      · exact ix_lt (by omega) (by omega) hk
      · refine Eq.trans ?_ (fv_up_re (b := 1) hip hido hX (by norm_num) hc0 hc).symm
        generalize dtw 3 ido l1 X k c = d
        evalsft 3
      · exact ix_lt (by omega) (by omega) hk
      · refine Eq.trans ?_ (fv_down_re (b := 1) hip hido hX (by norm_num) (by norm_num) hc0 hc).symm
        generalize dtw 3 ido l1 X k c = d
        evalsft 3
      · exact ix_lt (by omega) (by omega) hk
      · refine Eq.trans ?_ (fv_up_im (b := 1) hip hido hX (by norm_num) hc0 hc).symm
        generalize dtw 3 ido l1 X k c = d
        evalsft 3
      · exact ix_lt (by omega) (by omega) hk
      · refine Eq.trans ?_ (fv_down_im (b := 1) hip hido hX (by norm_num) (by norm_num) hc0 hc).symm
        generalize dtw 3 ido l1 X k c = d
        evalsft 3
    · rintro n _ (⟨b, h1, h⟩ | ⟨b, h1, h2, h⟩)
      · have : b ≤ 1 := by omega
        interval_cases b <;> simp at h ⊢ <;> tauto
      · have : b ≤ 1 := by omega
        interval_cases b <;> simp at h ⊢ <;> tauto

theorem radf4_ok (hido : 0 < ido) (hX : ∀ r, Herm ido (X r)) (hw : TwOk wa 4 ido)
    (hc : ch.length = ido * 4 * l1) :
    radf4 ido l1 (tab (ido * 4 * l1) (rows ido X)) ch wa
      = .ok (tab (ido * 4 * l1) (rows (ido * 4) (fstage 4 ido l1 X))) := by
  unfold radf4
  have hip : 0 < 4 := by norm_num
  refine radfLoop_ok hip hido (Or.inl rfl) ?_ ?_ ?_ hc
  · intro k hk
    simp (disch := omega) only [ld_short_0 hido hk, Out.ok_bind]
    apply Fills.mono
    · stores
      · exact ix_lt (by omega) (by omega) hk
      · refine Eq.trans ?_ (fv_first (b := 1) hip hido hX (by norm_num) (by norm_num)).symm
        evalsft 4
      · exact ix_lt (by omega) (by omega) hk
      · refine Eq.trans ?_ (fv_last (b := 1) hip hido hX (by norm_num) (by norm_num)).symm
        evalsft 4
      · exact ix_lt (by omega) (by omega) hk
      · refine Eq.trans ?_ (fv_00 hip hido hX).symm
        evalsft 4
      · exact ix_lt (by omega) (by omega) hk
      · refine Eq.trans ?_ (fv_last (b := 2) hip hido hX (by norm_num) (by norm_num)).symm
        evalsft 4
    · rintro n _ (rfl | ⟨b, h1, h2, rfl⟩ | ⟨b, h1, h2, rfl⟩)
      · simp
      · have : b ≤ 2 := by omega
        interval_cases b <;> simp
      · have : b ≤ 1 := by omega
        interval_cases b <;> simp
  · intro k m hk hm0 hm _
    simp (disch := omega) only [ld_short_mid hk _ hm0 hm, Out.ok_bind]
    apply Fills.mono
    · stores
      · exact ix_lt (by omega) (by omega) hk
      · refine Eq.trans ?_ (fv_mid_re (b := 0) hip hido hX hm (by norm_num)).symm
        evalmid 4 8
      · exact ix_lt (by omega) (by omega) hk
      · refine Eq.trans ?_ (fv_mid_re (b := 1) hip hido hX hm (by norm_num)).symm
        evalmid 4 8
      · exact ix_lt (by omega) (by omega) hk
      · refine Eq.trans ?_ (fv_mid_im (b := 1) hip hido hX hm (by norm_num)).symm
        evalmid 4 8
      · exact ix_lt (by omega) (by omega) hk
      · refine Eq.trans ?_ (fv_mid_im (b := 0) hip hido hX hm (by norm_num)).symm
        evalmid 4 8
    · rintro n _ (⟨b, h1, rfl⟩ | ⟨b, h1, rfl⟩)
      · have : b ≤ 1 := by omega
        interval_cases b <;> simp
      · have : b ≤ 1 := by omega
        interval_cases b <;> simp
  · intro k c hk hc0 hc
    simp (disch := omega) only [mulCC_ok hw hk _ hc0 hc, ld_short_re hk _ hc0 hc, ld_short_im hk _ hc0 hc, Out.ok_bind]
    rw [dtw_zero 4 ido l1 X k c]
    apply Fills.mono
    · stores
      · exact ix_lt (by omega) (by omega) hk
      · refine Eq.trans ?_ (fv_up_re (b := 0) hip hido hX (by norm_num) hc0 hc).symm
        generalize dtw 4 ido l1 X k c = d
        evalsft 4
      · exact ix_lt (by omega) (by omega) hk
      · refine Eq.trans ?_ (fv_down_re (b := 2) hip hido hX (by norm_num) (by norm_num) hc0 hc).symm
        generalize dtw 4 ido l1 X k c = d
        evalsft 4
      · exact ix_lt (by omega) (by omega) hk
      · refine Eq.trans ?_ (fv_up_im (b := 0) hip hido hX (by norm_num) hc0 hc).symm
        generalize dtw 4 ido l1 X k c = d
        evalsft 4
      · exact ix_lt (by omega) (by omega) hk
      · refine Eq.trans ?_ (fv_down_im (b := 2) hip hido hX (by norm_num) (by norm_num) hc0 hc).symm
        generalize dtw 4 ido l1 X k c = d
        evalsft 4
      · exact ix_lt (by omega) (by omega) hk
      · refine Eq.trans ?_ (fv_up_re (b := 1) hip hido hX (by norm_num) hc0 hc).symm
        generalize dtw 4 ido l1 X k c = d
        evalsft 4
      · exact ix_lt (by omega) (by omega) hk
      · refine Eq.trans ?_ (fv_down_re (b := 1) hip hido hX (by norm_num) (by norm_num) hc0 hc).symm
        generalize dtw 4 ido l1 X k c = d
        evalsft 4
      · exact ix_lt (by omega) (by omega) hk
      · refine Eq.trans ?_ (fv_up_im (b := 1) hip hido hX (by norm_num) hc0 hc).symm
        generalize dtw 4 ido l1 X k c = d
        evalsft 4
      · exact ix_lt (by omega) (by omega) hk
      · refine Eq.trans ?_ (fv_down_im (b := 1) hip hido hX (by norm_num) (by norm_num) hc0 hc).symm
        generalize dtw 4 ido l1 X k c = d
        evalsft 4
    · rintro n _ (⟨b, h1, h⟩ | ⟨b, h1, h2, h⟩)
      · have : b ≤ 1 := by omega
        interval_cases b <;> simp at h ⊢ <;> tauto
      · have : b ≤ 2 := by omega
        interval_cases b <;> simp at h ⊢ <;> tauto

theorem radf5_ok (hido : 0 < ido) (hodd : ido % 2 = 1) (hX : ∀ r, Herm ido (X r)) (hw : TwOk wa 5 ido)
    (hc : ch.length = ido * 5 * l1) :
    radf5 ido l1 (tab (ido * 5 * l1) (rows ido X)) ch wa
      = .ok (tab (ido * 5 * l1) (rows (ido * 5) (fstage 5 ido l1 X))) := by
  unfold radf5
  have hip : 0 < 5 := by norm_num
  refine radfLoop_ok hip hido (Or.inr hodd) ?_ ?_ ?_ hc
  · intro k hk
    simp (disch := omega) only [ld_short_0 hido hk, Out.ok_bind]
    apply Fills.mono
    · stores
      · exact ix_lt (by omega) (by omega) hk
      · refine Eq.trans ?_ (fv_00 hip hido hX).symm
        evalsft 5
      · exact ix_lt (by omega) (by omega) hk
      · refine Eq.trans ?_ (fv_last (b := 1) hip hido hX (by norm_num) (by norm_num)).symm
        evalsft 5
      · exact ix_lt (by omega) (by omega) hk
      · refine Eq.trans ?_ (fv_first (b := 1) hip hido hX (by norm_num) (by norm_num)).symm
        evalsft 5
      · exact ix_lt (by omega) (by omega) hk
      · refine Eq.trans ?_ (fv_last (b := 2) hip hido hX (by norm_num) (by norm_num)).symm
        evalsft 5
      · exact ix_lt (by omega) (by omega) hk
      · refine Eq.trans ?_ (fv_first (b := 2) hip hido hX (by norm_num) (by norm_num)).symm
        evalsft 5
    · rintro n _ (rfl | ⟨b, h1, h2, rfl⟩ | ⟨b, h1, h2, rfl⟩)
      · simp
      · have : b ≤ 2 := by omega
        interval_cases b <;> simp
      · have : b ≤ 2 := by omega
        interval_cases b <;> simp
  · intro k m hk hm0 hm h
    exact absurd h (by decide)
  · intro k c hk hc0 hc
    simp (disch := omega) only [mulCC_ok hw hk _ hc0 hc, ld_short_re hk _ hc0 hc, ld_short_im hk _ hc0 hc, Out.ok_bind]
    rw [dtw_zero 5 ido l1 X k c]
    apply Fills.mono
    · stores
      · exact ix_lt (by omega) (by omega) hk
      · refine Eq.trans ?_ (fv_up_re (b := 0) hip hido hX (by norm_num) hc0 hc).symm
        generalize dtw 5 ido l1 X k c = d
        evalsft 5
      · exact ix_lt (by omega) (by omega) hk
      · refine Eq.trans ?_ (fv_up_im (b := 0) hip hido hX (by norm_num) hc0 hc).symm
        generalize dtw 5 ido l1 X k c = d
        evalsft 5
      · exact ix_lt (by omega) (by omega) hk
      · refine Eq.trans ?_ (fv_up_re (b := 1) hip hido hX (by norm_num) hc0 hc).symm
        generalize dtw 5 ido l1 X k c = d
        evalsft 5
      · exact ix_lt (by omega) (by omega) hk
      · refine Eq.trans ?_ (fv_down_re (b := 1) hip hido hX (by norm_num) (by norm_num) hc0 hc).symm
        generalize dtw 5 ido l1 X k c = d
        evalsft 5
      · exact ix_lt (by omega) (by omega) hk
      · refine Eq.trans ?_ (fv_up_im (b := 1) hip hido hX (by norm_num) hc0 hc).symm
        generalize dtw 5 ido l1 X k c = d
        evalsft 5
      · exact ix_lt (by omega) (by omega) hk
      · refine Eq.trans ?_ (fv_down_im (b := 1) hip hido hX (by norm_num) (by norm_num) hc0 hc).symm
        generalize dtw 5 ido l1 X k c = d
        evalsft 5
      · exact ix_lt (by omega) (by omega) hk
      · refine Eq.trans ?_ (fv_up_re (b := 2) hip hido hX (by norm_num) hc0 hc).symm
        generalize dtw 5 ido l1 X k c = d
        evalsft 5
      · exact ix_lt (by omega) (by omega) hk
      · refine Eq.trans ?_ (fv_down_re (b := 2) hip hido hX (by norm_num) (by norm_num) hc0 hc).symm
        generalize dtw 5 ido l1 X k c = d
        evalsft 5
      · exact ix_lt (by omega) (by omega) hk
      · refine Eq.trans ?_ (fv_up_im (b := 2) hip hido hX (by norm_num) hc0 hc).symm
        generalize dtw 5 ido l1 X k c = d
        evalsft 5
      · exact ix_lt (by omega) (by omega) hk
      · refine Eq.trans ?_ (fv_down_im (b := 2) hip hido hX (by norm_num) (by norm_num) hc0 hc).symm
        generalize dtw 5 ido l1 X k c = d
        evalsft 5
    · rintro n _ (⟨b, h1, h⟩ | ⟨b, h1, h2, h⟩)
      · have : b ≤ 2 := by omega
        interval_cases b <;> simp at h ⊢ <;> tauto
      · have : b ≤ 2 := by omega
        interval_cases b <;> simp at h ⊢ <;> tauto

end fwd

/-! ### backward -/

theorem herm_first {ip ido : ℕ} {Y : ℕ → ℕ → ℂ} (hY : ∀ r, Herm (ido * ip) (Y r)) (hido : 0 < ido) {k b : ℕ}
    (hb : b ≤ ip) : Y k (ido * (ip - b)) = (starRingEnd ℂ) (Y k (ido * b)) := by
  rw [Nat.mul_sub]
  exact (hY k).2 _ (Nat.mul_le_mul_left _ hb)

theorem herm_mid {ip ido m : ℕ} {Y : ℕ → ℕ → ℂ} (hY : ∀ r, Herm (ido * ip) (Y r)) (hm : ido = 2 * m) {k b : ℕ}
    (hb : b < ip) : Y k (m + ido * (ip - 1 - b)) = (starRingEnd ℂ) (Y k (m + ido * b)) := by
  have h : ido * (ip - 1 - b) + ido * b + ido = ido * ip := by
    rw [← Nat.mul_add, ← Nat.mul_succ]
    congr 1
    omega
  rw [← (hY k).2 _ (by omega)]
  congr 1
  omega

theorem sqrt_two_hsqt2 : Real.sqrt 2 = 2 * hsqt2 := by rw [hsqt2_eq]; ring

/-- Evaluates a short transform, with the relations between its inputs. -/
macro "evalb" n:num "[" hs:Lean.Parser.Tactic.simpLemma,* "]" : tactic => `(tactic| (
  unfold sft
  unroll $n
  try simp only [cR_2, cI_2, cR_41, cI_41, cR_42, cI_42]
  simp [mulpm, $hs,*]
  try ring))

/-- The same at the middle of a row of even length. -/
macro "evalbm" n:num m:num "[" hs:Lean.Parser.Tactic.simpLemma,* "]" : tactic => `(tactic| (
  unfold sft
  unroll $n
  simp only [w_fold _ $m _ (by norm_num)]
  norm_num only [Nat.reduceMul, Nat.reduceMod, Nat.reduceSub, Nat.reduceLeDiff, if_true, if_false]
  simp only [cR_zero, cI_zero, neg_zero, cR_2, cI_2, cR_41, cI_41, cR_42, cI_42, cR_81, cI_81, cR_82, cI_82, cR_83, cI_83]
  simp [sqrt_two_hsqt2, $hs,*]
  try ring))

section bwd
variable {ido l1 : ℕ} {Y : ℕ → ℕ → ℂ} {wa ch : List ℝ}

theorem radb2_ok (hido : 0 < ido) (hY : ∀ r, Herm (ido * 2) (Y r)) (hw : TwOk wa 2 ido)
    (hc : ch.length = ido * 2 * l1) :
    radb2 ido l1 (tab (ido * 2 * l1) (rows (ido * 2) Y)) ch wa
      = .ok (tab (ido * 2 * l1) (rows ido (bstage 2 ido l1 Y))) := by
  unfold radb2
  have hip : 0 < 2 := by norm_num
  refine radbLoop_ok hip hido (Or.inl rfl) ?_ ?_ ?_ hc
  · intro k hk
    obtain ⟨u, hu⟩ : ∃ u : ℕ → ℂ, u = fun b => Y k (ido * b) := ⟨_, rfl⟩
    have r0 : ld (tab (ido * 2 * l1) (rows (ido * 2) Y)) (ix ido 2 0 0 k) = .ok (u 0).re := by
      rw [hu]; exact ld_long_00 hk hido hip
    have e1 : ld (tab (ido * 2 * l1) (rows (ido * 2) Y)) (ix ido 2 (ido - 1) 1 k) = .ok (u 1).re := by
      rw [hu]; exact ld_long_last (b := 1) hk hido (by norm_num) (by norm_num)
    have z0 : (u 0).im = 0 := by rw [hu]; exact (hY k).real0
    have zh : (u 1).im = 0 := by rw [hu]; exact (hY k).realMid (by ring)
    simp only [r0, e1, Out.ok_bind]
    apply Fills.mono
    · stores
      · rw [Nat.mul_right_comm]; exact ix_lt (by omega) hk (by norm_num)
      · refine Eq.trans ?_ (bv_0 (j := 0) hido hk).symm
        rw [← hu]
        evalb 2 [z0, zh]
      · rw [Nat.mul_right_comm]; exact ix_lt (by omega) hk (by norm_num)
      · refine Eq.trans ?_ (bv_0 (j := 1) hido hk).symm
        rw [← hu]
        evalb 2 [z0, zh]
    · rintro n _ ⟨j, hj, h⟩
      interval_cases j <;> first | tauto | (simp at h ⊢; tauto)
  · intro k m hk hm0 hm _
    obtain ⟨u, hu⟩ : ∃ u : ℕ → ℂ, u = fun b => Y k (m + ido * b) := ⟨_, rfl⟩
    have e0 : ld (tab (ido * 2 * l1) (rows (ido * 2) Y)) (ix ido 2 (ido - 1) 0 k) = .ok (u 0).re := by
      rw [hu]; exact ld_long_mid_re (b := 0) hk hm0 hm (by norm_num)
    have f0 : ld (tab (ido * 2 * l1) (rows (ido * 2) Y)) (ix ido 2 0 1 k) = .ok (u 0).im := by
      rw [hu]; exact ld_long_mid_im (b := 0) hk hm0 hm (by norm_num)
    have g0 : u 1 = (starRingEnd ℂ) (u 0) := by rw [hu]; exact herm_mid hY hm (b := 0) (by norm_num)
    simp only [e0, f0, Out.ok_bind]
    apply Fills.mono
    · stores
      · rw [Nat.mul_right_comm]; exact ix_lt (by omega) hk (by norm_num)
      · refine Eq.trans ?_ (bv_mid (j := 0) hk hm0 hm).symm
        rw [← hu]
        evalbm 2 4 [g0]
      · rw [Nat.mul_right_comm]; exact ix_lt (by omega) hk (by norm_num)
      · refine Eq.trans ?_ (bv_mid (j := 1) hk hm0 hm).symm
        rw [← hu]
        evalbm 2 4 [g0]
    · rintro n _ ⟨j, hj, h⟩
      interval_cases j <;> first | tauto | (simp at h ⊢; tauto)
  · intro k c hk hc0 hc
    obtain ⟨u, hu⟩ : ∃ u : ℕ → ℂ, u = fun b => Y k (c + ido * b) := ⟨_, rfl⟩
    have p0 : ld (tab (ido * 2 * l1) (rows (ido * 2) Y)) (ix ido 2 (2 * c - 1) 0 k) = .ok (u 0).re := by
      rw [hu]; exact ld_long_up_re (b := 0) hk (by norm_num) hc0 hc
    have q0 : ld (tab (ido * 2 * l1) (rows (ido * 2) Y)) (ix ido 2 (2 * c) 0 k) = .ok (u 0).im := by
      rw [hu]; exact ld_long_up_im (b := 0) hk (by norm_num) hc0 hc
    have s1 : ld (tab (ido * 2 * l1) (rows (ido * 2) Y)) (ix ido 2 (ido - 2 * c - 1) 1 k) = .ok (u 1).re := by
      rw [hu]; exact ld_long_down_re hY (b := 1) hk (by norm_num) (by norm_num) hc0 hc
    have t1 : ld (tab (ido * 2 * l1) (rows (ido * 2) Y)) (ix ido 2 (ido - 2 * c) 1 k) = .ok (-(u 1).im) := by
      rw [hu]; exact ld_long_down_im hY (b := 1) hk (by norm_num) (by norm_num) hc0 hc
    simp only [p0, q0, s1, t1, Out.ok_bind]
    apply Fills.mono
    · apply fills_st_bind
      · rw [Nat.mul_right_comm]; exact ix_lt (by omega) hk (by norm_num)
      · refine Eq.trans ?_ (bv_re (j := 0) hk hc0 hc).symm
        rw [← hu, Nat.mul_zero, w_zero, one_mul]
        evalb 2 []
      · apply fills_st_bind
        · rw [Nat.mul_right_comm]; exact ix_lt (by omega) hk (by norm_num)
        · refine Eq.trans ?_ (bv_im (j := 0) hk hc0 hc).symm
          rw [← hu, Nat.mul_zero, w_zero, one_mul]
          evalb 2 []
        · refine mulCH_fills hw hk (by norm_num) hc0 hc ?_
          rw [← hu]
          apply Complex.ext
          · evalb 2 []
          · evalb 2 []
    · rintro n _ ⟨j, hj, h⟩
      interval_cases j <;> first | tauto | (simp at h ⊢; tauto)

theorem radb3_ok (hido : 0 < ido) (hodd : ido % 2 = 1) (hY : ∀ r, Herm (ido * 3) (Y r)) (hw : TwOk wa 3 ido)
    (hc : ch.length = ido * 3 * l1) :
    radb3 ido l1 (tab (ido * 3 * l1) (rows (ido * 3) Y)) ch wa
      = .ok (tab (ido * 3 * l1) (rows ido (bstage 3 ido l1 Y))) := by
  unfold radb3
  have hip : 0 < 3 := by norm_num
  refine radbLoop_ok hip hido (Or.inr hodd) ?_ ?_ ?_ hc
  · intro k hk
    obtain ⟨u, hu⟩ : ∃ u : ℕ → ℂ, u = fun b => Y k (ido * b) := ⟨_, rfl⟩
    have r0 : ld (tab (ido * 3 * l1) (rows (ido * 3) Y)) (ix ido 3 0 0 k) = .ok (u 0).re := by
      rw [hu]; exact ld_long_00 hk hido hip
    have e1 : ld (tab (ido * 3 * l1) (rows (ido * 3) Y)) (ix ido 3 (ido - 1) 1 k) = .ok (u 1).re := by
      rw [hu]; exact ld_long_last (b := 1) hk hido (by norm_num) (by norm_num)
    have f1 : ld (tab (ido * 3 * l1) (rows (ido * 3) Y)) (ix ido 3 0 2 k) = .ok (u 1).im := by
      rw [hu]; exact ld_long_first (b := 1) hk hido (by norm_num) (by norm_num)
    have z0 : (u 0).im = 0 := by rw [hu]; exact (hY k).real0
    have g1 : u 2 = (starRingEnd ℂ) (u 1) := by rw [hu]; exact herm_first hY hido (b := 1) (by norm_num)
    simp only [r0, e1, f1, Out.ok_bind]
    apply Fills.mono
    · stores
      · rw [Nat.mul_right_comm]; exact ix_lt (by omega) hk (by norm_num)
      · refine Eq.trans ?_ (bv_0 (j := 0) hido hk).symm
        rw [← hu]
        evalb 3 [z0, g1]
      · rw [Nat.mul_right_comm]; exact ix_lt (by omega) hk (by norm_num)
      · refine Eq.trans ?_ (bv_0 (j := 2) hido hk).symm
        rw [← hu]
        evalb 3 [z0, g1]
      · rw [Nat.mul_right_comm]; exact ix_lt (by omega) hk (by norm_num)
      · refine Eq.trans ?_ (bv_0 (j := 1) hido hk).symm
        rw [← hu]
        evalb 3 [z0, g1]
    · rintro n _ ⟨j, hj, h⟩
      interval_cases j <;> first | tauto | (simp at h ⊢; tauto)
  · intro k m hk hm0 hm h
    exact absurd h (by decide)
  · intro k c hk hc0 hc
    obtain ⟨u, hu⟩ : ∃ u : ℕ → ℂ, u = fun b => Y k (c + ido * b) := ⟨_, rfl⟩
    have p0 : ld (tab (ido * 3 * l1) (rows (ido * 3) Y)) (ix ido 3 (2 * c - 1) 0 k) = .ok (u 0).re := by
      rw [hu]; exact ld_long_up_re (b := 0) hk (by norm_num) hc0 hc
    have q0 : ld (tab (ido * 3 * l1) (rows (ido * 3) Y)) (ix ido 3 (2 * c) 0 k) = .ok (u 0).im := by
      rw [hu]; exact ld_long_up_im (b := 0) hk (by norm_num) hc0 hc
    have p1 : ld (tab (ido * 3 * l1) (rows (ido * 3) Y)) (ix ido 3 (2 * c - 1) 2 k) = .ok (u 1).re := by
      rw [hu]; exact ld_long_up_re (b := 1) hk (by norm_num) hc0 hc
    have q1 : ld (tab (ido * 3 * l1) (rows (ido * 3) Y)) (ix ido 3 (2 * c) 2 k) = .ok (u 1).im := by
      rw [hu]; exact ld_long_up_im (b := 1) hk (by norm_num) hc0 hc
    have s1 : ld (tab (ido * 3 * l1) (rows (ido * 3) Y)) (ix ido 3 (ido - 2 * c - 1) 1 k) = .ok (u 2).re := by
      rw [hu]; exact ld_long_down_re hY (b := 1) hk (by norm_num) (by norm_num) hc0 hc
    have t1 : ld (tab (ido * 3 * l1) (rows (ido * 3) Y)) (ix ido 3 (ido - 2 * c) 1 k) = .ok (-(u 2).im) := by
      rw [hu]; exact ld_long_down_im hY (b := 1) hk (by norm_num) (by norm_num) hc0 hc
    simp only [p0, q0, p1, q1, s1, t1, Out.ok_bind]
    apply Fills.mono
    · apply fills_st_bind
      · rw [Nat.mul_right_comm]; exact ix_lt (by omega) hk (by norm_num)
      · refine Eq.trans ?_ (bv_re (j := 0) hk hc0 hc).symm
        rw [← hu, Nat.mul_zero, w_zero, one_mul]
        evalb 3 []
      · apply fills_st_bind
        · rw [Nat.mul_right_comm]; exact ix_lt (by omega) hk (by norm_num)
        · refine Eq.trans ?_ (bv_im (j := 0) hk hc0 hc).symm
          rw [← hu, Nat.mul_zero, w_zero, one_mul]
          evalb 3 []
        · apply fills_bind
          · refine mulCH_fills hw hk (by norm_num) hc0 hc ?_
            rw [← hu]
            apply Complex.ext
            · evalb 3 []
            · evalb 3 []
          · refine mulCH_fills hw hk (by norm_num) hc0 hc ?_
            rw [← hu]
            apply Complex.ext
            · evalb 3 []
            · evalb 3 []
    · rintro n _ ⟨j, hj, h⟩
      interval_cases j <;> first | tauto | (simp at h ⊢; tauto)

theorem radb4_ok (hido : 0 < ido) (hY : ∀ r, Herm (ido * 4) (Y r)) (hw : TwOk wa 4 ido)
    (hc : ch.length = ido * 4 * l1) :
    radb4 ido l1 (tab (ido * 4 * l1) (rows (ido * 4) Y)) ch wa
      = .ok (tab (ido * 4 * l1) (rows ido (bstage 4 ido l1 Y))) := by
  unfold radb4
  have hip : 0 < 4 := by norm_num
  refine radbLoop_ok hip hido (Or.inl rfl) ?_ ?_ ?_ hc
  · intro k hk
    obtain ⟨u, hu⟩ : ∃ u : ℕ → ℂ, u = fun b => Y k (ido * b) := ⟨_, rfl⟩
    have r0 : ld (tab (ido * 4 * l1) (rows (ido * 4) Y)) (ix ido 4 0 0 k) = .ok (u 0).re := by
      rw [hu]; exact ld_long_00 hk hido hip
    have e1 : ld (tab (ido * 4 * l1) (rows (ido * 4) Y)) (ix ido 4 (ido - 1) 1 k) = .ok (u 1).re := by
      rw [hu]; exact ld_long_last (b := 1) hk hido (by norm_num) (by norm_num)
    have e2 : ld (tab (ido * 4 * l1) (rows (ido * 4) Y)) (ix ido 4 (ido - 1) 3 k) = .ok (u 2).re := by
      rw [hu]; exact ld_long_last (b := 2) hk hido (by norm_num) (by norm_num)
    have f1 : ld (tab (ido * 4 * l1) (rows (ido * 4) Y)) (ix ido 4 0 2 k) = .ok (u 1).im := by
      rw [hu]; exact ld_long_first (b := 1) hk hido (by norm_num) (by norm_num)
    have z0 : (u 0).im = 0 := by rw [hu]; exact (hY k).real0
    have g1 : u 3 = (starRingEnd ℂ) (u 1) := by rw [hu]; exact herm_first hY hido (b := 1) (by norm_num)
    have zh : (u 2).im = 0 := by rw [hu]; exact (hY k).realMid (by ring)
    simp only [r0, e1, e2, f1, Out.ok_bind]
    apply Fills.mono
    · stores
      · rw [Nat.mul_right_comm]; exact ix_lt (by omega) hk (by norm_num)
      · refine Eq.trans ?_ (bv_0 (j := 0) hido hk).symm
        rw [← hu]
        evalb 4 [z0, g1, zh]
      · rw [Nat.mul_right_comm]; exact ix_lt (by omega) hk (by norm_num)
      · refine Eq.trans ?_ (bv_0 (j := 2) hido hk).symm
        rw [← hu]
        evalb 4 [z0, g1, zh]
      · rw [Nat.mul_right_comm]; exact ix_lt (by omega) hk (by norm_num)
      · refine Eq.trans ?_ (bv_0 (j := 3) hido hk).symm
        rw [← hu]
        evalb 4 [z0, g1, zh]
      · rw [Nat.mul_right_comm]; exact ix_lt (by omega) hk (by norm_num)
      · refine Eq.trans ?_ (bv_0 (j := 1) hido hk).symm
        rw [← hu]
        evalb 4 [z0, g1, zh]
    · rintro n _ ⟨j, hj, h⟩
      interval_cases j <;> first | tauto | (simp at h ⊢; tauto)
  · intro k m hk hm0 hm _
    obtain ⟨u, hu⟩ : ∃ u : ℕ → ℂ, u = fun b => Y k (m + ido * b) := ⟨_, rfl⟩
    have e0 : ld (tab (ido * 4 * l1) (rows (ido * 4) Y)) (ix ido 4 (ido - 1) 0 k) = .ok (u 0).re := by
      rw [hu]; exact ld_long_mid_re (b := 0) hk hm0 hm (by norm_num)
    have e1 : ld (tab (ido * 4 * l1) (rows (ido * 4) Y)) (ix ido 4 (ido - 1) 2 k) = .ok (u 1).re := by
      rw [hu]; exact ld_long_mid_re (b := 1) hk hm0 hm (by norm_num)
    have f0 : ld (tab (ido * 4 * l1) (rows (ido * 4) Y)) (ix ido 4 0 1 k) = .ok (u 0).im := by
      rw [hu]; exact ld_long_mid_im (b := 0) hk hm0 hm (by norm_num)
    have f1 : ld (tab (ido * 4 * l1) (rows (ido * 4) Y)) (ix ido 4 0 3 k) = .ok (u 1).im := by
      rw [hu]; exact ld_long_mid_im (b := 1) hk hm0 hm (by norm_num)
    have g0 : u 3 = (starRingEnd ℂ) (u 0) := by rw [hu]; exact herm_mid hY hm (b := 0) (by norm_num)
    have g1 : u 2 = (starRingEnd ℂ) (u 1) := by rw [hu]; exact herm_mid hY hm (b := 1) (by norm_num)
    simp only [e0, e1, f0, f1, Out.ok_bind]
    apply Fills.mono
    · stores
      · rw [Nat.mul_right_comm]; exact ix_lt (by omega) hk (by norm_num)
      · refine Eq.trans ?_ (bv_mid (j := 0) hk hm0 hm).symm
        rw [← hu]
        evalbm 4 8 [g0, g1]
      · rw [Nat.mul_right_comm]; exact ix_lt (by omega) hk (by norm_num)
      · refine Eq.trans ?_ (bv_mid (j := 1) hk hm0 hm).symm
        rw [← hu]
        evalbm 4 8 [g0, g1]
      · rw [Nat.mul_right_comm]; exact ix_lt (by omega) hk (by norm_num)
      · refine Eq.trans ?_ (bv_mid (j := 2) hk hm0 hm).symm
        rw [← hu]
        evalbm 4 8 [g0, g1]
      · rw [Nat.mul_right_comm]; exact ix_lt (by omega) hk (by norm_num)
      · refine Eq.trans ?_ (bv_mid (j := 3) hk hm0 hm).symm
        rw [← hu]
        evalbm 4 8 [g0, g1]
    · rintro n _ ⟨j, hj, h⟩
      interval_cases j <;> first | tauto | (simp at h ⊢; tauto)
  · intro k c hk hc0 hc
    obtain ⟨u, hu⟩ : ∃ u : ℕ → ℂ, u = fun b => Y k (c + ido * b) := ⟨_, rfl⟩
    have p0 : ld (tab (ido * 4 * l1) (rows (ido * 4) Y)) (ix ido 4 (2 * c - 1) 0 k) = .ok (u 0).re := by
      rw [hu]; exact ld_long_up_re (b := 0) hk (by norm_num) hc0 hc
    have q0 : ld (tab (ido * 4 * l1) (rows (ido * 4) Y)) (ix ido 4 (2 * c) 0 k) = .ok (u 0).im := by
      rw [hu]; exact ld_long_up_im (b := 0) hk (by norm_num) hc0 hc
    have p1 : ld (tab (ido * 4 * l1) (rows (ido * 4) Y)) (ix ido 4 (2 * c - 1) 2 k) = .ok (u 1).re := by
      rw [hu]; exact ld_long_up_re (b := 1) hk (by norm_num) hc0 hc
    have q1 : ld (tab (ido * 4 * l1) (rows (ido * 4) Y)) (ix ido 4 (2 * c) 2 k) = .ok (u 1).im := by
      rw [hu]; exact ld_long_up_im (b := 1) hk (by norm_num) hc0 hc
    have s1 : ld (tab (ido * 4 * l1) (rows (ido * 4) Y)) (ix ido 4 (ido - 2 * c - 1) 1 k) = .ok (u 3).re := by
      rw [hu]; exact ld_long_down_re hY (b := 1) hk (by norm_num) (by norm_num) hc0 hc
    have t1 : ld (tab (ido * 4 * l1) (rows (ido * 4) Y)) (ix ido 4 (ido - 2 * c) 1 k) = .ok (-(u 3).im) := by
      rw [hu]; exact ld_long_down_im hY (b := 1) hk (by norm_num) (by norm_num) hc0 hc
    have s2 : ld (tab (ido * 4 * l1) (rows (ido * 4) Y)) (ix ido 4 (ido - 2 * c - 1) 3 k) = .ok (u 2).re := by
      rw [hu]; exact ld_long_down_re hY (b := 2) hk (by norm_num) (by norm_num) hc0 hc
    have t2 : ld (tab (ido * 4 * l1) (rows (ido * 4) Y)) (ix ido 4 (ido - 2 * c) 3 k) = .ok (-(u 2).im) := by
      rw [hu]; exact ld_long_down_im hY (b := 2) hk (by norm_num) (by norm_num) hc0 hc
    simp only [p0, q0, p1, q1, s1, t1, s2, t2, Out.ok_bind]
    apply Fills.mono
    · apply fills_st_bind
      · rw [Nat.mul_right_comm]; exact ix_lt (by omega) hk (by norm_num)
      · refine Eq.trans ?_ (bv_re (j := 0) hk hc0 hc).symm
        rw [← hu, Nat.mul_zero, w_zero, one_mul]
        evalb 4 []
      · apply fills_st_bind
        · rw [Nat.mul_right_comm]; exact ix_lt (by omega) hk (by norm_num)
        · refine Eq.trans ?_ (bv_im (j := 0) hk hc0 hc).symm
          rw [← hu, Nat.mul_zero, w_zero, one_mul]
          evalb 4 []
        · apply fills_bind
          · refine mulCH_fills hw hk (by norm_num) hc0 hc ?_
            rw [← hu]
            apply Complex.ext
            · evalb 4 []
            · evalb 4 []
          · apply fills_bind
            · refine mulCH_fills hw hk (by norm_num) hc0 hc ?_
              rw [← hu]
              apply Complex.ext
              · evalb 4 []
              · evalb 4 []
            · refine mulCH_fills hw hk (by norm_num) hc0 hc ?_
              rw [← hu]
              apply Complex.ext
              · evalb 4 []
              · evalb 4 []
    · rintro n _ ⟨j, hj, h⟩
      interval_cases j <;> first | tauto | (simp at h ⊢; tauto)

theorem radb5_ok (hido : 0 < ido) (hodd : ido % 2 = 1) (hY : ∀ r, Herm (ido * 5) (Y r)) (hw : TwOk wa 5 ido)
    (hc : ch.length = ido * 5 * l1) :
    radb5 ido l1 (tab (ido * 5 * l1) (rows (ido * 5) Y)) ch wa
      = .ok (tab (ido * 5 * l1) (rows ido (bstage 5 ido l1 Y))) := by
  unfold radb5
  have hip : 0 < 5 := by norm_num
  refine radbLoop_ok hip hido (Or.inr hodd) ?_ ?_ ?_ hc
  · intro k hk
    obtain ⟨u, hu⟩ : ∃ u : ℕ → ℂ, u = fun b => Y k (ido * b) := ⟨_, rfl⟩
    have r0 : ld (tab (ido * 5 * l1) (rows (ido * 5) Y)) (ix ido 5 0 0 k) = .ok (u 0).re := by
      rw [hu]; exact ld_long_00 hk hido hip
    have e1 : ld (tab (ido * 5 * l1) (rows (ido * 5) Y)) (ix ido 5 (ido - 1) 1 k) = .ok (u 1).re := by
      rw [hu]; exact ld_long_last (b := 1) hk hido (by norm_num) (by norm_num)
    have e2 : ld (tab (ido * 5 * l1) (rows (ido * 5) Y)) (ix ido 5 (ido - 1) 3 k) = .ok (u 2).re := by
      rw [hu]; exact ld_long_last (b := 2) hk hido (by norm_num) (by norm_num)
    have f1 : ld (tab (ido * 5 * l1) (rows (ido * 5) Y)) (ix ido 5 0 2 k) = .ok (u 1).im := by
      rw [hu]; exact ld_long_first (b := 1) hk hido (by norm_num) (by norm_num)
    have f2 : ld (tab (ido * 5 * l1) (rows (ido * 5) Y)) (ix ido 5 0 4 k) = .ok (u 2).im := by
      rw [hu]; exact ld_long_first (b := 2) hk hido (by norm_num) (by norm_num)
    have z0 : (u 0).im = 0 := by rw [hu]; exact (hY k).real0
    have g1 : u 4 = (starRingEnd ℂ) (u 1) := by rw [hu]; exact herm_first hY hido (b := 1) (by norm_num)
    have g2 : u 3 = (starRingEnd ℂ) (u 2) := by rw [hu]; exact herm_first hY hido (b := 2) (by norm_num)
    simp only [r0, e1, e2, f1, f2, Out.ok_bind]
    apply Fills.mono
    · stores
      · rw [Nat.mul_right_comm]; exact ix_lt (by omega) hk (by norm_num)
      · refine Eq.trans ?_ (bv_0 (j := 0) hido hk).symm
        rw [← hu]
        evalb 5 [z0, g1, g2]
      · rw [Nat.mul_right_comm]; exact ix_lt (by omega) hk (by norm_num)
      · refine Eq.trans ?_ (bv_0 (j := 4) hido hk).symm
        rw [← hu]
        evalb 5 [z0, g1, g2]
      · rw [Nat.mul_right_comm]; exact ix_lt (by omega) hk (by norm_num)
      · refine Eq.trans ?_ (bv_0 (j := 1) hido hk).symm
        rw [← hu]
        evalb 5 [z0, g1, g2]
      · rw [Nat.mul_right_comm]; exact ix_lt (by omega) hk (by norm_num)
      · refine Eq.trans ?_ (bv_0 (j := 3) hido hk).symm
        rw [← hu]
        evalb 5 [z0, g1, g2]
      · rw [Nat.mul_right_comm]; exact ix_lt (by omega) hk (by norm_num)
      · refine Eq.trans ?_ (bv_0 (j := 2) hido hk).symm
        rw [← hu]
        evalb 5 [z0, g1, g2]
    · rintro n _ ⟨j, hj, h⟩
      interval_cases j <;> first | tauto | (simp at h ⊢; tauto)
  · intro k m hk hm0 hm h
    exact absurd h (by decide)
  · intro k c hk hc0 hc
    obtain ⟨u, hu⟩ : ∃ u : ℕ → ℂ, u = fun b => Y k (c + ido * b) := ⟨_, rfl⟩
    have p0 : ld (tab (ido * 5 * l1) (rows (ido * 5) Y)) (ix ido 5 (2 * c - 1) 0 k) = .ok (u 0).re := by
      rw [hu]; exact ld_long_up_re (b := 0) hk (by norm_num) hc0 hc
    have q0 : ld (tab (ido * 5 * l1) (rows (ido * 5) Y)) (ix ido 5 (2 * c) 0 k) = .ok (u 0).im := by
      rw [hu]; exact ld_long_up_im (b := 0) hk (by norm_num) hc0 hc
    have p1 : ld (tab (ido * 5 * l1) (rows (ido * 5) Y)) (ix ido 5 (2 * c - 1) 2 k) = .ok (u 1).re := by
      rw [hu]; exact ld_long_up_re (b := 1) hk (by norm_num) hc0 hc
    have q1 : ld (tab (ido * 5 * l1) (rows (ido * 5) Y)) (ix ido 5 (2 * c) 2 k) = .ok (u 1).im := by
      rw [hu]; exact ld_long_up_im (b := 1) hk (by norm_num) hc0 hc
    have p2 : ld (tab (ido * 5 * l1) (rows (ido * 5) Y)) (ix ido 5 (2 * c - 1) 4 k) = .ok (u 2).re := by
      rw [hu]; exact ld_long_up_re (b := 2) hk (by norm_num) hc0 hc
    have q2 : ld (tab (ido * 5 * l1) (rows (ido * 5) Y)) (ix ido 5 (2 * c) 4 k) = .ok (u 2).im := by
      rw [hu]; exact ld_long_up_im (b := 2) hk (by norm_num) hc0 hc
    have s1 : ld (tab (ido * 5 * l1) (rows (ido * 5) Y)) (ix ido 5 (ido - 2 * c - 1) 1 k) = .ok (u 4).re := by
      rw [hu]; exact ld_long_down_re hY (b := 1) hk (by norm_num) (by norm_num) hc0 hc
    have t1 : ld (tab (ido * 5 * l1) (rows (ido * 5) Y)) (ix ido 5 (ido - 2 * c) 1 k) = .ok (-(u 4).im) := by
      rw [hu]; exact ld_long_down_im hY (b := 1) hk (by norm_num) (by norm_num) hc0 hc
    have s2 : ld (tab (ido * 5 * l1) (rows (ido * 5) Y)) (ix ido 5 (ido - 2 * c - 1) 3 k) = .ok (u 3).re := by
      rw [hu]; exact ld_long_down_re hY (b := 2) hk (by norm_num) (by norm_num) hc0 hc
    have t2 : ld (tab (ido * 5 * l1) (rows (ido * 5) Y)) (ix ido 5 (ido - 2 * c) 3 k) = .ok (-(u 3).im) := by
      rw [hu]; exact ld_long_down_im hY (b := 2) hk (by norm_num) (by norm_num) hc0 hc
    simp only [p0, q0, p1, q1, p2, q2, s1, t1, s2, t2, Out.ok_bind]
    apply Fills.mono
    · apply fills_st_bind
      · rw [Nat.mul_right_comm]; exact ix_lt (by omega) hk (by norm_num)
      · refine Eq.trans ?_ (bv_re (j := 0) hk hc0 hc).symm
        rw [← hu, Nat.mul_zero, w_zero, one_mul]
        evalb 5 []
      · apply fills_st_bind
        · rw [Nat.mul_right_comm]; exact ix_lt (by omega) hk (by norm_num)
        · refine Eq.trans ?_ (bv_im (j := 0) hk hc0 hc).symm
          rw [← hu, Nat.mul_zero, w_zero, one_mul]
          evalb 5 []
        · apply fills_bind
          · refine mulCH_fills hw hk (by norm_num) hc0 hc ?_
            rw [← hu]
            apply Complex.ext
            · evalb 5 []
            · evalb 5 []
          · apply fills_bind
            · refine mulCH_fills hw hk (by norm_num) hc0 hc ?_
              rw [← hu]
              apply Complex.ext
              · evalb 5 []
              · evalb 5 []
            · apply fills_bind
              · refine mulCH_fills hw hk (by norm_num) hc0 hc ?_
                rw [← hu]
                apply Complex.ext
                · evalb 5 []
                · evalb 5 []
              · refine mulCH_fills hw hk (by norm_num) hc0 hc ?_
                rw [← hu]
                apply Complex.ext
                · evalb 5 []
                · evalb 5 []
    · rintro n _ ⟨j, hj, h⟩
      interval_cases j <;> first | tauto | (simp at h ⊢; tauto)

end bwd
end Verif.Pocket
