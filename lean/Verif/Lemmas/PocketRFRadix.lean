import Verif.Lemmas.PocketRFNear

/-! # Rounding errors of one pass of the real transform: the radices -/

set_option linter.unusedSimpArgs false
set_option linter.unusedSectionVars false
set_option linter.unusedVariables false
set_option linter.unusedTactic false
set_option linter.unreachableTactic false

namespace Verif.PocketF
open Verif.Pocket (ld st ix rwx tab w cR cI hsqt2)

variable {F : Type} [Zero F] [Add F] [Sub F] [Mul F] [Fma F] [Neg F]
variable {A : FloatArithNeg F} {M h b : ℝ} {t : ℕ → ℝ} {cc ch : List F} {cc' ch' : List ℝ}

syntax "near" : tactic
macro_rules
  | `(tactic| near) => `(tactic| first
      | with_reducible assumption
      | (with_reducible apply Near.add; assumption; near; near; norm_num)
      | (with_reducible apply Near.sub; assumption; near; near; norm_num)
      | (with_reducible apply Near.neg; near)
      | (with_reducible apply Near.mulc'; assumption; with_reducible assumption; near; norm_num)
      | (with_reducible apply Near.mulc; assumption; with_reducible assumption; near; norm_num)
      | (with_reducible apply Near.mul2'; assumption; with_reducible assumption; near; norm_num))

syntax "sims" : tactic
macro_rules
  | `(tactic| sims) => `(tactic| (
      try dsimp only [rearrange, mulpm, Pocket.rearrange, Pocket.mulpm]
      repeat' first
        | (refine Sim.bind (ld_sim (by assumption) _) ?_; intro _ _ _)
        | (refine Sim.bind (mulCC_sim (by assumption) (by assumption) (by assumption) (by assumption) (by norm_num)
            (by assumption) (by assumption)) ?_; rintro _ _ ⟨_, _⟩)
        | (apply st_sim; assumption; assumption; near; norm_num; norm_num)
        | (apply mulCH_sim; assumption; assumption; assumption; norm_num; assumption; assumption; assumption; near; near; norm_num; norm_num; norm_num; norm_num)
        | (apply Sim.bind (R := Dst A M h t) ?_ ?_; rotate_left 1; intro _ _ _; rotate_left 1)))

/-- the literals -/
structure CL (A : FloatArithNeg F) (h : ℝ) (L : RLits F) : Prop where
  c3 : Const A h (L.cos 3 1) (cR 3 1)
  s3 : Const A h (L.sin 3 1) (cI false 3 1)
  c51 : Const A h (L.cos 5 1) (cR 5 1)
  s51 : Const A h (L.sin 5 1) (cI false 5 1)
  c52 : Const A h (L.cos 5 2) (cR 5 2)
  s52 : Const A h (L.sin 5 2) (cI false 5 2)
  hs : Const A h L.hsqt2 hsqt2
  two : Const2 A h L.two 2
  two3 : Const2 A h (L.two * L.sin 3 1) (2 * cI false 3 1)
  r2 : Const2 A h L.sqrt2 (Real.sqrt 2)

theorem CL.of (E : Env A M h b) (hb : 1 ≤ b) (ht : A.tiny ≤ A.u) (hH : 4 ≤ A.huge) {L : RLits F} (H : RLitsOk A h L) : CL A h L := by
  have cc : ∀ n j, (n = 3 ∨ n = 5) → 0 < j → 2 * j < n → Const A h (L.cos n j) (cR n j) := fun n j hn h0 h2 =>
    ⟨H.lits.cos n j (by tauto) h0 h2, Real.abs_cos_le_one _⟩
  have ss : ∀ n j, (n = 3 ∨ n = 5) → 0 < j → 2 * j < n → Const A h (L.sin n j) (cI false n j) := fun n j hn h0 h2 => by
    have e : cI false n j = Real.sin (2 * Real.pi * j / n) := by simp [cI]
    rw [e]
    exact ⟨H.lits.sin n j (by tauto) h0 h2, Real.abs_sin_le_one _⟩
  have s3 := ss 3 1 (by norm_num) (by norm_num) (by norm_num)
  have hu := A.u_nonneg
  have h1 := E.h1
  refine ⟨cc 3 1 (by norm_num) (by norm_num) (by norm_num), s3, cc 5 1 (by norm_num) (by norm_num) (by norm_num),
    ss 5 1 (by norm_num) (by norm_num) (by norm_num), cc 5 2 (by norm_num) (by norm_num) (by norm_num),
    ss 5 2 (by norm_num) (by norm_num) (by norm_num), ?_, Const2.ofTwo h1 H.two, s3.double E hb ht hH H.two, ?_⟩
  · refine ⟨H.lits.hsqt2, ?_⟩
    rw [hsqt2, abs_of_pos (by positivity), div_le_one (by positivity)]
    exact Real.one_le_sqrt.2 (by norm_num)
  · refine ⟨H.sqrt2.1, H.sqrt2.2.trans ?_, ?_⟩
    · have : 0 ≤ h * A.u := by positivity
      linarith
    · rw [abs_of_pos (by positivity)]
      exact (Real.sqrt_le_sqrt (by norm_num : (2:ℝ) ≤ 4)).trans (by rw [show (4:ℝ) = 2 ^ 2 by norm_num, Real.sqrt_sq (by norm_num)])

theorem radf2_sim (E : Env A M h 2000) {L : RLits F} (H : CL A h L) {ido l1 : ℕ} {wa : List F} {wa' : List ℝ}
    (hw : TwNear A h wa 2 ido) (hw' : Pocket.TwOk wa' 2 ido) (hs : Src A M h cc cc') (hd : Dst A M h t ch ch') :
    Sim (Dst A M h t) (radf2 L ido l1 cc ch wa) (Pocket.radf2 ido l1 cc' ch' wa') := by
  obtain ⟨c3, s3, c51, s51, c52, s52, hsq, two, two3, r2⟩ := H
  have hsq' := hsq.neg
  have two' := two.neg
  have r2' := r2.neg
  unfold radf2 Pocket.radf2
  apply radLoop_sim _ _ _ hd
  · intro k ch ch' hk hd
    sims
  · intro k ch ch' hk hd
    sims
  · intro k c ch ch' hk hc0 hc hd
    sims

theorem radf3_sim (E : Env A M h 2000) {L : RLits F} (H : CL A h L) {ido l1 : ℕ} {wa : List F} {wa' : List ℝ}
    (hw : TwNear A h wa 3 ido) (hw' : Pocket.TwOk wa' 3 ido) (hs : Src A M h cc cc') (hd : Dst A M h t ch ch') :
    Sim (Dst A M h t) (radf3 L ido l1 cc ch wa) (Pocket.radf3 ido l1 cc' ch' wa') := by
  obtain ⟨c3, s3, c51, s51, c52, s52, hsq, two, two3, r2⟩ := H
  have hsq' := hsq.neg
  have two' := two.neg
  have r2' := r2.neg
  unfold radf3 Pocket.radf3
  apply radLoop_sim _ _ _ hd
  · intro k ch ch' hk hd
    sims
  · intro k ch ch' hk hd
    exact Sim.pure hd
  · intro k c ch ch' hk hc0 hc hd
    sims

theorem radf4_sim (E : Env A M h 2000) {L : RLits F} (H : CL A h L) {ido l1 : ℕ} {wa : List F} {wa' : List ℝ}
    (hw : TwNear A h wa 4 ido) (hw' : Pocket.TwOk wa' 4 ido) (hs : Src A M h cc cc') (hd : Dst A M h t ch ch') :
    Sim (Dst A M h t) (radf4 L ido l1 cc ch wa) (Pocket.radf4 ido l1 cc' ch' wa') := by
  obtain ⟨c3, s3, c51, s51, c52, s52, hsq, two, two3, r2⟩ := H
  have hsq' := hsq.neg
  have two' := two.neg
  have r2' := r2.neg
  unfold radf4 Pocket.radf4
  apply radLoop_sim _ _ _ hd
  · intro k ch ch' hk hd
    sims
  · intro k ch ch' hk hd
    sims
  · intro k c ch ch' hk hc0 hc hd
    sims

theorem radf5_sim (E : Env A M h 2000) {L : RLits F} (H : CL A h L) {ido l1 : ℕ} {wa : List F} {wa' : List ℝ}
    (hw : TwNear A h wa 5 ido) (hw' : Pocket.TwOk wa' 5 ido) (hs : Src A M h cc cc') (hd : Dst A M h t ch ch') :
    Sim (Dst A M h t) (radf5 L ido l1 cc ch wa) (Pocket.radf5 ido l1 cc' ch' wa') := by
  obtain ⟨c3, s3, c51, s51, c52, s52, hsq, two, two3, r2⟩ := H
  have hsq' := hsq.neg
  have two' := two.neg
  have r2' := r2.neg
  unfold radf5 Pocket.radf5
  apply radLoop_sim _ _ _ hd
  · intro k ch ch' hk hd
    sims
  · intro k ch ch' hk hd
    exact Sim.pure hd
  · intro k c ch ch' hk hc0 hc hd
    sims

theorem radb2_sim (E : Env A M h 2000) {L : RLits F} (H : CL A h L) {ido l1 : ℕ} {wa : List F} {wa' : List ℝ}
    (hw : TwNear A h wa 2 ido) (hw' : Pocket.TwOk wa' 2 ido) (hs : Src A M h cc cc') (hd : Dst A M h t ch ch') :
    Sim (Dst A M h t) (radb2 L ido l1 cc ch wa) (Pocket.radb2 ido l1 cc' ch' wa') := by
  obtain ⟨c3, s3, c51, s51, c52, s52, hsq, two, two3, r2⟩ := H
  have hsq' := hsq.neg
  have two' := two.neg
  have r2' := r2.neg
  unfold radb2 Pocket.radb2
  apply radLoop_sim _ _ _ hd
  · intro k ch ch' hk hd
    sims
  · intro k ch ch' hk hd
    sims
  · intro k c ch ch' hk hc0 hc hd
    sims

theorem radb3_sim (E : Env A M h 2000) {L : RLits F} (H : CL A h L) {ido l1 : ℕ} {wa : List F} {wa' : List ℝ}
    (hw : TwNear A h wa 3 ido) (hw' : Pocket.TwOk wa' 3 ido) (hs : Src A M h cc cc') (hd : Dst A M h t ch ch') :
    Sim (Dst A M h t) (radb3 L ido l1 cc ch wa) (Pocket.radb3 ido l1 cc' ch' wa') := by
  obtain ⟨c3, s3, c51, s51, c52, s52, hsq, two, two3, r2⟩ := H
  have hsq' := hsq.neg
  have two' := two.neg
  have r2' := r2.neg
  unfold radb3 Pocket.radb3
  apply radLoop_sim _ _ _ hd
  · intro k ch ch' hk hd
    sims
  · intro k ch ch' hk hd
    exact Sim.pure hd
  · intro k c ch ch' hk hc0 hc hd
    sims

theorem radb4_sim (E : Env A M h 2000) {L : RLits F} (H : CL A h L) {ido l1 : ℕ} {wa : List F} {wa' : List ℝ}
    (hw : TwNear A h wa 4 ido) (hw' : Pocket.TwOk wa' 4 ido) (hs : Src A M h cc cc') (hd : Dst A M h t ch ch') :
    Sim (Dst A M h t) (radb4 L ido l1 cc ch wa) (Pocket.radb4 ido l1 cc' ch' wa') := by
  obtain ⟨c3, s3, c51, s51, c52, s52, hsq, two, two3, r2⟩ := H
  have hsq' := hsq.neg
  have two' := two.neg
  have r2' := r2.neg
  unfold radb4 Pocket.radb4
  apply radLoop_sim _ _ _ hd
  · intro k ch ch' hk hd
    sims
  · intro k ch ch' hk hd
    sims
  · intro k c ch ch' hk hc0 hc hd
    sims

theorem radb5_sim (E : Env A M h 2000) {L : RLits F} (H : CL A h L) {ido l1 : ℕ} {wa : List F} {wa' : List ℝ}
    (hw : TwNear A h wa 5 ido) (hw' : Pocket.TwOk wa' 5 ido) (hs : Src A M h cc cc') (hd : Dst A M h t ch ch') :
    Sim (Dst A M h t) (radb5 L ido l1 cc ch wa) (Pocket.radb5 ido l1 cc' ch' wa') := by
  obtain ⟨c3, s3, c51, s51, c52, s52, hsq, two, two3, r2⟩ := H
  have hsq' := hsq.neg
  have two' := two.neg
  have r2' := r2.neg
  unfold radb5 Pocket.radb5
  apply radLoop_sim _ _ _ hd
  · intro k ch ch' hk hd
    sims
  · intro k ch ch' hk hd
    exact Sim.pure hd
  · intro k c ch ch' hk hc0 hc hd
    sims

end Verif.PocketF
