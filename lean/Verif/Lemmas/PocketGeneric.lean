import Verif.Lemmas.PocketPasses
import Mathlib.Data.Nat.Prime.Basic

/-! # The generic pass of the complex FFT -/

set_option linter.unusedSimpArgs false
set_option linter.unusedSectionVars false
set_option linter.unusedVariables false
set_option linter.unusedTactic false
set_option linter.unreachableTactic false
set_option linter.unnecessarySeqFocus false

namespace Verif.Pocket
open Complex

theorem cR_refl {n a b q : ℕ} (hn : 0 < n) (h : a + b = q * n) : cR n a = cR n b := by
  unfold cR
  have hn' : (n : ℝ) ≠ 0 := by positivity
  have e : (a : ℝ) = q * n - b := by
    have : ((a + b : ℕ) : ℝ) = ((q * n : ℕ) : ℝ) := by rw [h]
    push_cast at this; linarith
  have : 2 * Real.pi * (a : ℝ) / n = (q : ℝ) * (2 * Real.pi) - 2 * Real.pi * (b : ℝ) / n := by
    rw [e]; field_simp
  rw [this, Real.cos_nat_mul_two_pi_sub]

theorem cI_refl {fwd : Bool} {n a b q : ℕ} (hn : 0 < n) (h : a + b = q * n) : cI fwd n a = -cI fwd n b := by
  unfold cI
  have hn' : (n : ℝ) ≠ 0 := by positivity
  have e : (a : ℝ) = q * n - b := by
    have : ((a + b : ℕ) : ℝ) = ((q * n : ℕ) : ℝ) := by rw [h]
    push_cast at this; linarith
  have : 2 * Real.pi * (a : ℝ) / n = (q : ℝ) * (2 * Real.pi) - 2 * Real.pi * (b : ℝ) / n := by
    rw [e]; field_simp
  rw [this, Real.sin_nat_mul_two_pi_sub]
  ring

theorem w_eq (fwd : Bool) (n m : ℕ) : w fwd n m = (cR n m : ℂ) + I * (cI fwd n m : ℂ) := by
  apply Complex.ext <;> simp [w]

theorem w_refl {fwd : Bool} {n a b q : ℕ} (hn : 0 < n) (h : a + b = q * n) :
    w fwd n a = (cR n b : ℂ) - I * (cI fwd n b : ℂ) := by
  rw [w_eq, cR_refl hn h, cI_refl hn h]
  push_cast
  ring

/-! ### one column -/

/-- 1234-1240 on one column -/
def hcol (ip : ℕ) (x : ℕ → ℂ) (c : ℕ) : ℂ :=
  if c = 0 then x 0 else if 2 * c < ip then x c + x (ip - c) else x (ip - c) - x c

noncomputable def pcol (ip : ℕ) (x : ℕ → ℂ) (l j : ℕ) : ℂ :=
  hcol ip x 0 + ∑ m ∈ Finset.range (j - 1), hcol ip x (m + 1) * (cR ip (l * (m + 1)) : ℂ)

noncomputable def qcol (fwd : Bool) (ip : ℕ) (x : ℕ → ℂ) (l j : ℕ) : ℂ :=
  ∑ m ∈ Finset.range (j - 1), I * (cI fwd ip (l * (m + 1)) : ℂ) * hcol ip x (ip - (m + 1))

theorem sum_fold {ip h : ℕ} (hh : ip = 2 * h + 1) (f : ℕ → ℂ) :
    ∑ b ∈ Finset.range ip, f b = f 0 + ∑ m ∈ Finset.range h, (f (m + 1) + f (ip - (m + 1))) := by
  subst hh
  rw [Finset.sum_range_succ', Finset.sum_add_distrib, two_mul, Finset.sum_range_add, add_comm]
  congr 2
  rw [← Finset.sum_range_reflect]
  apply Finset.sum_congr rfl
  intro m hm
  have := Finset.mem_range.mp hm
  congr 1
  omega

theorem hcol_low {ip h m : ℕ} (hh : ip = 2 * h + 1) (hm : m < h) (x : ℕ → ℂ) :
    hcol ip x (m + 1) = x (m + 1) + x (ip - (m + 1)) := by
  unfold hcol
  rw [if_neg (by omega), if_pos (by omega)]

theorem hcol_high {ip h m : ℕ} (hh : ip = 2 * h + 1) (hm : m < h) (x : ℕ → ℂ) :
    hcol ip x (ip - (m + 1)) = x (m + 1) - x (ip - (m + 1)) := by
  unfold hcol
  rw [if_neg (by omega), if_neg (by omega), show ip - (ip - (m + 1)) = m + 1 by omega]

theorem col_zero {ip h : ℕ} (hh : ip = 2 * h + 1) (fwd : Bool) (x : ℕ → ℂ) :
    hcol ip x 0 + ∑ m ∈ Finset.range h, hcol ip x (m + 1) = ∑ b ∈ Finset.range ip, x b * w fwd ip (0 * b) := by
  have hw : ∀ b, w fwd ip (0 * b) = 1 := by
    intro b; rw [Nat.zero_mul, w_eq, cR_zero, cI_zero]; simp
  simp only [hw, mul_one]
  rw [sum_fold hh]
  congr 1
  apply Finset.sum_congr rfl
  intro m hm
  exact hcol_low hh (Finset.mem_range.mp hm) x

theorem col_add {ip h l : ℕ} (hh : ip = 2 * h + 1) (fwd : Bool) (x : ℕ → ℂ) :
    pcol ip x l (h + 1) + qcol fwd ip x l (h + 1) = ∑ b ∈ Finset.range ip, x b * w fwd ip (l * b) := by
  unfold pcol qcol
  rw [sum_fold hh, add_assoc, ← Finset.sum_add_distrib, Nat.mul_zero, w_eq, cR_zero, cI_zero]
  congr 1
  · simp [hcol]
  · apply Finset.sum_congr (by simp)
    intro m hm
    have hm' : m < h := by simpa using hm
    have e : l * (ip - (m + 1)) + l * (m + 1) = l * ip := by rw [← Nat.mul_add]; congr 1; omega
    rw [hcol_low hh hm', hcol_high hh hm', w_refl (by omega) e, w_eq]
    ring

theorem col_sub {ip h l : ℕ} (hh : ip = 2 * h + 1) (hl : l ≤ ip) (fwd : Bool) (x : ℕ → ℂ) :
    pcol ip x l (h + 1) - qcol fwd ip x l (h + 1) = ∑ b ∈ Finset.range ip, x b * w fwd ip ((ip - l) * b) := by
  unfold pcol qcol
  rw [sum_fold hh, add_sub_assoc, ← Finset.sum_sub_distrib, Nat.mul_zero, w_eq, cR_zero, cI_zero]
  congr 1
  · simp [hcol]
  · apply Finset.sum_congr (by simp)
    intro m hm
    have hm' : m < h := by simpa using hm
    have e1 : (ip - l) * (m + 1) + l * (m + 1) = (m + 1) * ip := by
      rw [← Nat.add_mul, Nat.sub_add_cancel hl, Nat.mul_comm]
    have e2 : (ip - l) * (ip - (m + 1)) + (ip - l) * (m + 1) = (ip - l) * ip := by
      rw [← Nat.mul_add]; congr 1; omega
    rw [hcol_low hh hm', hcol_high hh hm', w_refl (by omega) e1, w_refl (by omega) e2, cR_refl (by omega) e1,
      cI_refl (by omega) e1]
    push_cast
    ring

/-! ### columns of a buffer -/

theorem ix_col (ido l1 i k c : ℕ) : ix ido l1 i k c = (i + ido * k) + ido * l1 * c := by
  unfold ix; ring

theorem ik_lt {ido l1 i k : ℕ} (hi : i < ido) (hk : k < l1) : i + ido * k < ido * l1 := by
  have : ido * k + ido ≤ ido * l1 := by rw [← Nat.mul_succ]; exact Nat.mul_le_mul_left _ hk
  omega

theorem col_mod {d a c : ℕ} (h : a < d) : (a + d * c) % d = a := by
  rw [Nat.add_mul_mod_self_left, Nat.mod_eq_of_lt h]

theorem col_div {d a c : ℕ} (h : a < d) : (a + d * c) / d = c := by
  rw [Nat.add_mul_div_left _ _ (by omega), Nat.div_eq_of_lt h, Nat.zero_add]

theorem col_lt {d a c ip : ℕ} (h : a < d) (hc : c < ip) : a + d * c < d * ip := by
  have : d * c + d ≤ d * ip := by rw [← Nat.mul_succ]; exact Nat.mul_le_mul_left _ hc
  omega

theorem col_inj {d a c a' c' : ℕ} (h : a < d) (h' : a' < d) (e : a + d * c = a' + d * c') :
    a = a' ∧ c = c' := by
  have h1 := congrArg (· % d) e
  have h2 := congrArg (· / d) e
  simp only [col_mod h, col_mod h', col_div h, col_div h'] at h1 h2
  exact ⟨h1, h2⟩

theorem col_eq {d ip n : ℕ} (h : n < d * ip) : n % d < d ∧ n / d < ip ∧ n % d + d * (n / d) = n := by
  have h0 : 0 < d := by
    rcases Nat.eq_zero_or_pos d with e | e
    · subst e; simp at h
    · exact e
  exact ⟨Nat.mod_lt _ h0, Nat.div_lt_of_lt_mul h, Nat.mod_add_div _ _⟩

/-- The inputs of one butterfly. -/
def acol (ido ip : ℕ) (A : ℕ → ℂ) (ik b : ℕ) : ℂ := A (ix ido ip (ik % ido) b (ik / ido))

theorem acol_ik {ido ip i k b : ℕ} {A : ℕ → ℂ} (hi : i < ido) :
    acol ido ip A (i + ido * k) b = A (ix ido ip i b k) := by
  unfold acol
  rw [col_mod hi, col_div hi]

/-- The contents of `ch` after 1234-1240. -/
def foldV (ido ip l1 : ℕ) (A : ℕ → ℂ) (n : ℕ) : ℂ :=
  hcol ip (acol ido ip A (n % (ido * l1))) (n / (ido * l1))

theorem foldV_col {ido ip l1 : ℕ} {A : ℕ → ℂ} {ik c : ℕ} (h : ik < ido * l1) :
    foldV ido ip l1 A (ik + ido * l1 * c) = hcol ip (acol ido ip A ik) c := by
  unfold foldV
  rw [col_mod h, col_div h]

theorem foldV_ix {ido ip l1 : ℕ} {A : ℕ → ℂ} {i k c : ℕ} (hi : i < ido) (hk : k < l1) :
    foldV ido ip l1 A (ix ido l1 i k c) = hcol ip (fun b => A (ix ido ip i b k)) c := by
  rw [ix_col, foldV_col (ik_lt hi hk)]
  congr 1
  funext b
  exact acol_ik hi

theorem passgWal_ok (fwd : Bool) {ip : ℕ} (hip : 0 < ip) :
    passgWal fwd ip (tab ip (w false ip)) = .ok (tab ip (w fwd ip)) := by
  unfold passgWal
  have h : Fills ip (w fwd ip) (fun wal => st wal 0 ⟨1, 0⟩ >>= forN (ip - 1) (fun i0 wal => do
    let i := i0 + 1
    let c ← ld (tab ip (w false ip)) i
    st wal i ⟨c.re, if fwd then -c.im else c.im⟩)) (fun n => n = 0 ∨ ∃ k, k < ip - 1 ∧ n = k + 1) := by
    apply fills_st_bind hip
    · rw [w, cR_zero, cI_zero]
    · apply fills_forN
      intro k hk
      simp only [ld_tab (show k + 1 < ip by omega), Out.ok_bind]
      apply fills_st (by omega)
      unfold w
      apply Complex.ext
      · rfl
      · cases fwd <;> simp [cI]
  refine fills_all h ?_ (by simp)
  intro n hn
  rcases Nat.eq_zero_or_pos n with e | e
  · exact Or.inl e
  · exact Or.inr ⟨n - 1, by omega, by omega⟩

theorem passgFold_ok {ido ip l1 h : ℕ} (hh : ip = 2 * h + 1) {A : ℕ → ℂ} {ch : List ℂ}
    (hc : ch.length = ido * ip * l1) :
    passgFold ido ip l1 (tab (ido * ip * l1) A) ch = .ok (tab (ido * ip * l1) (foldV ido ip l1 A)) := by
  unfold passgFold
  have hlt : ∀ {i k c}, i < ido → k < l1 → c < ip → ix ido l1 i k c < ido * ip * l1 := by
    intro i k c hi hk hc
    rw [Nat.mul_right_comm]; exact ix_lt hi hk hc
  simp only []
  refine fills_all (fills_bind (T := fun n => ∃ k, k < l1 ∧ ∃ i, i < ido ∧ n = ix ido l1 i k 0)
    (U := fun n => ∃ j, j < (ip + 1) / 2 - 1 ∧ ∃ k, k < l1 ∧ ∃ i, i < ido ∧
      (n = ix ido l1 i k (j + 1) ∨ n = ix ido l1 i k (ip - (j + 1)))) ?_ ?_) ?_ hc
  · apply fills_forN
    intro k hk
    apply fills_forN
    intro i hi
    rw [ld_tab (ix_lt hi (by omega) hk)]
    simp only [Out.ok_bind]
    apply fills_st (hlt hi hk (by omega))
    rw [foldV_ix hi hk]
    simp [hcol]
  · apply fills_forN
    intro j hj
    apply fills_forN
    intro k hk
    apply fills_forN
    intro i hi
    simp only [ld_tab (ix_lt hi (show j + 1 < ip by omega) hk), Out.ok_bind,
      ld_tab (ix_lt hi (show ip - (j + 1) < ip by omega) hk)]
    apply fills_st_bind (hlt hi hk (by omega))
    · rw [foldV_ix hi hk, hcol_low hh (by omega)]
    · apply fills_st (hlt hi hk (by omega))
      rw [foldV_ix hi hk, hcol_high hh (by omega)]
  · intro n hn
    have hn' : n < ido * l1 * ip := by rw [Nat.mul_right_comm]; exact hn
    obtain ⟨h1, h2, h3⟩ := ix_cases hn'
    obtain ⟨c, hc⟩ : ∃ c, c = n / ido / l1 := ⟨_, rfl⟩
    have e : n = ix ido l1 (n % ido) (n / ido % l1) c := by rw [hc]; exact ix_eq.symm
    rw [← hc] at h3
    by_cases e0 : c = 0
    · subst e0; exact Or.inl ⟨_, h2, _, h1, e⟩
    · right
      by_cases e1 : 2 * c < ip
      · exact ⟨c - 1, by omega, _, h2, _, h1, Or.inl (by rw [Nat.sub_add_cancel (by omega)]; exact e)⟩
      · refine ⟨ip - c - 1, by omega, _, h2, _, h1, Or.inr ?_⟩
        rw [show ip - (ip - c - 1 + 1) = c by omega]; exact e

theorem forN_sum (m : ℕ) (f : ℕ → ℂ) (t : ℂ) :
    forN m (fun j tmp => (pure (tmp + f j) : Out ℂ)) t = .ok (t + ∑ j ∈ Finset.range m, f j) := by
  induction m with
  | zero => simp [forN]
  | succ m ih => rw [forN, ih, Out.ok_bind, Finset.sum_range_succ, ← add_assoc]; rfl

/-- The contents of `cc` before the last step: 1241-1288. -/
noncomputable def halfCol (fwd : Bool) (ip h : ℕ) (x : ℕ → ℂ) (c : ℕ) : ℂ :=
  if c = 0 then ∑ b ∈ Finset.range ip, x b * w fwd ip (0 * b)
  else if 2 * c < ip then pcol ip x c (h + 1) else qcol fwd ip x (ip - c) (h + 1)

noncomputable def halfV (fwd : Bool) (ido ip l1 h : ℕ) (A : ℕ → ℂ) (n : ℕ) : ℂ :=
  halfCol fwd ip h (acol ido ip A (n % (ido * l1))) (n / (ido * l1))

theorem halfV_col {fwd : Bool} {ido ip l1 h : ℕ} {A : ℕ → ℂ} {ik c : ℕ} (hk : ik < ido * l1) :
    halfV fwd ido ip l1 h A (ik + ido * l1 * c) = halfCol fwd ip h (acol ido ip A ik) c := by
  unfold halfV
  rw [col_mod hk, col_div hk]

theorem halfV_ix {fwd : Bool} {ido ip l1 h : ℕ} {A : ℕ → ℂ} {i k c : ℕ} (hi : i < ido) (hk : k < l1) :
    halfV fwd ido ip l1 h A (ix ido l1 i k c) = halfCol fwd ip h (fun b => A (ix ido ip i b k)) c := by
  rw [ix_col, halfV_col (ik_lt hi hk)]
  congr 1
  funext b
  exact acol_ik hi

theorem passgZero_fills (fwd : Bool) {ido ip l1 h : ℕ} (hh : ip = 2 * h + 1) {A : ℕ → ℂ} :
    Fills (ido * ip * l1) (halfV fwd ido ip l1 h A)
      (passgZero ido ip l1 (tab (ido * ip * l1) (foldV ido ip l1 A))) (fun n => n / (ido * l1) = 0) := by
  have hlt : ∀ {i k c}, i < ido → k < l1 → c < ip → ix ido l1 i k c < ido * ip * l1 := by
    intro i k c hi hk hc
    rw [Nat.mul_right_comm]; exact ix_lt hi hk hc
  refine Fills.mono (S := fun n => ∃ k, k < l1 ∧ ∃ i, i < ido ∧ n = ix ido l1 i k 0) ?_ ?_
  · unfold passgZero
    apply fills_forN
    intro k hk
    apply fills_forN
    intro i hi
    simp only [ld_tab (hlt hi hk (show 0 < ip by omega)), Out.ok_bind]
    have e : forN ((ip + 1) / 2 - 1) (fun j0 tmp => do
        let x ← ld (tab (ido * ip * l1) (foldV ido ip l1 A)) (ix ido l1 i k (j0 + 1))
        pure (tmp + x)) (foldV ido ip l1 A (ix ido l1 i k 0))
        = .ok (∑ b ∈ Finset.range ip, A (ix ido ip i b k) * w fwd ip (0 * b)) := by
      rw [← col_zero hh fwd (fun b => A (ix ido ip i b k)), foldV_ix hi hk,
        show (ip + 1) / 2 - 1 = h by omega,
        ← forN_sum h (fun j => hcol ip (fun b => A (ix ido ip i b k)) (j + 1))]
      have key : ∀ m, m ≤ h → ∀ t : ℂ, forN m (fun j0 tmp => do
        let x ← ld (tab (ido * ip * l1) (foldV ido ip l1 A)) (ix ido l1 i k (j0 + 1))
        pure (tmp + x)) t
        = forN m (fun j tmp => (pure (tmp + hcol ip (fun b => A (ix ido ip i b k)) (j + 1)) : Out ℂ)) t := by
        intro m
        induction m with
        | zero => intro _ t; rfl
        | succ m ih =>
          intro hm t
          rw [forN, forN, ih (by omega)]
          congr 1
          funext s
          rw [ld_tab (hlt hi hk (show m + 1 < ip by omega)), Out.ok_bind, foldV_ix hi hk]
      exact key h le_rfl _
    simp only [e, Out.ok_bind]
    apply fills_st (hlt hi hk (by omega))
    rw [halfV_ix hi hk]
    simp [halfCol]
  · intro n hn h0
    have hn' : n < ido * l1 * ip := by rw [Nat.mul_right_comm]; exact hn
    obtain ⟨h1, h2, h3⟩ := ix_cases hn'
    refine ⟨_, h2, _, h1, ?_⟩
    rw [← Nat.div_div_eq_div_mul] at h0
    conv_lhs => rw [← ix_eq (ido := ido) (dim := l1) (n := n), h0]

/-! ### a pair of outputs -/

section pair
variable {fwd : Bool} {ip h d l : ℕ} {x : ℕ → ℕ → ℂ} {H : ℕ → ℂ} {B : ℕ → ℂ}

/-- The buffer when the terms below `j` have been added. -/
noncomputable def pairV (fwd : Bool) (ip d l : ℕ) (x : ℕ → ℕ → ℂ) (B : ℕ → ℂ) (j n : ℕ) : ℂ :=
  if n / d = l then pcol ip (x (n % d)) l j
  else if n / d = ip - l then qcol fwd ip (x (n % d)) l j else B n

theorem pairV_l {j ik : ℕ} (hk : ik < d) :
    pairV fwd ip d l x B j (ik + d * l) = pcol ip (x ik) l j := by
  unfold pairV
  rw [col_div hk, col_mod hk, if_pos rfl]

theorem pairV_lc {j ik : ℕ} (hk : ik < d) (hl : l ≠ ip - l) :
    pairV fwd ip d l x B j (ik + d * (ip - l)) = qcol fwd ip (x ik) l j := by
  unfold pairV
  rw [col_div hk, col_mod hk, if_neg (Ne.symm hl), if_pos rfl]

/-- Columns `l` and `ip - l`. -/
def pairT (ip d l : ℕ) (n : ℕ) : Prop := ∃ ik, ik < d ∧ (n = ik + d * l ∨ n = ik + d * (ip - l))

theorem pairT_iff {n : ℕ} (hn : n < d * ip) : pairT ip d l n ↔ n / d = l ∨ n / d = ip - l := by
  obtain ⟨h1, h2, h3⟩ := col_eq hn
  constructor
  · rintro ⟨ik, hk, e | e⟩
    · left; rw [e, col_div hk]
    · right; rw [e, col_div hk]
  · rintro (e | e)
    · exact ⟨n % d, h1, Or.inl (by rw [← e, h3])⟩
    · exact ⟨n % d, h1, Or.inr (by rw [← e, h3])⟩

theorem mix_pair {L : ℕ} (hL : L = d * ip) {C : ℕ → ℂ} {j : ℕ}
    (hC : ∀ n, n < L → ¬ (n / d = l) → ¬ (n / d = ip - l) → C n = B n) :
    mix L C (pairV fwd ip d l x B j) (fun n => ∃ ik, ik < d ∧ (n = ik + d * l ∨ n = ik + d * (ip - l)))
      = tab L (pairV fwd ip d l x B j) := by
  unfold mix
  apply tab_congr
  intro n hn
  split
  · rfl
  · rename_i hT
    have hT' : ¬ (n / d = l ∨ n / d = ip - l) := fun h => hT ((pairT_iff (by omega)).mpr h)
    push Not at hT'
    rw [hC n hn hT'.1 hT'.2]
    unfold pairV
    rw [if_neg hT'.1, if_neg hT'.2]

/-- One step for all the elements of two columns. -/
theorem pair_maps {L : ℕ} (hL : L = d * ip) (hl0 : 0 < l) (hl : 2 * l < ip) {C V : ℕ → ℂ}
    {f : ℕ → List ℂ → Out (List ℂ)}
    (hf : ∀ ik, ik < d → Maps L C V (f ik) (fun n => n = ik + d * l ∨ n = ik + d * (ip - l))) :
    Maps L C V (forN d f) (fun n => ∃ ik, ik < d ∧ (n = ik + d * l ∨ n = ik + d * (ip - l))) := by
  apply maps_forN hf
  intro k k' n hk hk' _ h1 h2
  rcases h1 with h1 | h1 <;> rcases h2 with h2 | h2 <;> exact (col_inj hk hk' (h1.symm.trans h2)).1

theorem pcol_three {x : ℕ → ℂ} : pcol ip x l 3
    = hcol ip x 0 + hcol ip x 1 * (cR ip l : ℂ) + hcol ip x 2 * (cR ip (2 * l) : ℂ) := by
  simp [pcol, Finset.sum_range_succ, Nat.mul_comm l 2]
  ring

theorem qcol_three {x : ℕ → ℂ} : qcol fwd ip x l 3
    = I * (cI fwd ip l : ℂ) * hcol ip x (ip - 1) + I * (cI fwd ip (2 * l) : ℂ) * hcol ip x (ip - 2) := by
  simp [qcol, Finset.sum_range_succ, Nat.mul_comm l 2]

theorem pcol_succ {x : ℕ → ℂ} {j : ℕ} (hj : 0 < j) : pcol ip x l (j + 1)
    = pcol ip x l j + hcol ip x j * (cR ip (l * j) : ℂ) := by
  obtain ⟨j, rfl⟩ : ∃ i, j = i + 1 := ⟨j - 1, by omega⟩
  simp [pcol, Finset.sum_range_succ]
  ring

theorem qcol_succ {x : ℕ → ℂ} {j : ℕ} (hj : 0 < j) : qcol fwd ip x l (j + 1)
    = qcol fwd ip x l j + I * (cI fwd ip (l * j) : ℂ) * hcol ip x (ip - j) := by
  obtain ⟨j, rfl⟩ : ∃ i, j = i + 1 := ⟨j - 1, by omega⟩
  simp [qcol, Finset.sum_range_succ]

theorem passgStart_ok (hh : ip = 2 * h + 1) (h2 : 2 ≤ h) (hl0 : 0 < l) (hl : 2 * l < ip)
    (hH : ∀ ik c, ik < d → c < ip → H (ik + d * c) = hcol ip (x ik) c) :
    passgStart ip d l (tab ip (w fwd ip)) (tab (d * ip) H) (tab (d * ip) B)
      = .ok (tab (d * ip) (pairV fwd ip d l x B 3)) := by
  have key : Maps (d * ip) B (pairV fwd ip d l x B 3)
      (passgStart ip d l (tab ip (w fwd ip)) (tab (d * ip) H))
      (fun n => ∃ ik, ik < d ∧ (n = ik + d * l ∨ n = ik + d * (ip - l))) := by
    unfold passgStart
    apply pair_maps rfl hl0 hl
    intro ik hk S hS
    simp only [ld_tab (show l < ip by omega), ld_tab (show 2 * l < ip by omega),
      ld_tab (col_lt hk (show 0 < ip by omega)), ld_tab (col_lt hk (show 1 < ip by omega)),
      ld_tab (col_lt hk (show 2 < ip by omega)), ld_tab (col_lt hk (show ip - 1 < ip by omega)),
      ld_tab (col_lt hk (show ip - 2 < ip by omega)), Out.ok_bind]
    rw [st_mix (col_lt hk (by omega)), Out.ok_bind, st_mix (col_lt hk (by omega))]
    · congr 1
      apply mix_congr
      intro n _
      tauto
    · rw [pairV_lc hk (by omega), qcol_three, hH _ _ hk (by omega), hH _ _ hk (by omega)]
      apply Complex.ext <;> simp [w] <;> ring
    · rw [pairV_l hk, pcol_three, hH _ _ hk (by omega), hH _ _ hk (by omega), hH _ _ hk (by omega)]
      apply Complex.ext <;> simp [w] <;> ring
  rw [maps_all key, mix_pair rfl]
  intros; rfl

theorem passgTwo_ok (hh : ip = 2 * h + 1) {j : ℕ} (hj0 : 0 < j) (hj : 2 * (j + 1) < ip) (hl0 : 0 < l)
    (hl : 2 * l < ip) (hH : ∀ ik c, ik < d → c < ip → H (ik + d * c) = hcol ip (x ik) c) :
    passgTwo ip d l j (ip - j) (w fwd ip (l * j % ip)) (w fwd ip (l * (j + 1) % ip)) (tab (d * ip) H)
      (tab (d * ip) (pairV fwd ip d l x B j)) = .ok (tab (d * ip) (pairV fwd ip d l x B (j + 2))) := by
  have key : Maps (d * ip) (pairV fwd ip d l x B j) (pairV fwd ip d l x B (j + 2))
      (passgTwo ip d l j (ip - j) (w fwd ip (l * j % ip)) (w fwd ip (l * (j + 1) % ip)) (tab (d * ip) H))
      (fun n => ∃ ik, ik < d ∧ (n = ik + d * l ∨ n = ik + d * (ip - l))) := by
    unfold passgTwo
    apply pair_maps rfl hl0 hl
    intro ik hk S hS
    have n1 : ¬ S (ik + d * l) := hS _ (col_lt hk (by omega)) (Or.inl rfl)
    have n2 : ¬ (S (ik + d * (ip - l)) ∨ ik + d * (ip - l) = ik + d * l) := by
      rintro (h' | h')
      · exact hS _ (col_lt hk (by omega)) (Or.inr rfl) h'
      · have := (col_inj hk hk h').2
        omega
    simp only []
    rw [ld_mix_old (col_lt hk (by omega)) n1, Out.ok_bind, ld_tab (col_lt hk (by omega)), Out.ok_bind,
      ld_tab (col_lt hk (by omega)), Out.ok_bind, st_mix (col_lt hk (by omega)), Out.ok_bind,
      ld_mix_old (col_lt hk (by omega)) n2, Out.ok_bind, ld_tab (col_lt hk (by omega)), Out.ok_bind,
      ld_tab (col_lt hk (by omega)), Out.ok_bind, st_mix (col_lt hk (by omega))]
    · congr 1
      apply mix_congr
      intro n _
      tauto
    · rw [pairV_lc hk (by omega), pairV_lc hk (by omega), qcol_succ (j := j + 1) (by omega), qcol_succ hj0,
        hH _ _ hk (by omega), hH _ _ hk (by omega), cI_mod fwd ip (l * j), cI_mod fwd ip (l * (j + 1)),
        show ip - (j + 1) = ip - j - 1 by omega]
      apply Complex.ext <;> simp [w] <;> ring
    · rw [pairV_l hk, pairV_l hk, pcol_succ (j := j + 1) (by omega), pcol_succ hj0,
        hH _ _ hk (by omega), hH _ _ hk (by omega), cR_mod ip (l * j), cR_mod ip (l * (j + 1))]
      apply Complex.ext <;> simp [w] <;> ring
  rw [maps_all key, mix_pair rfl]
  intro n hn h1 h2
  unfold pairV
  rw [if_neg h1, if_neg h2]

theorem passgOne_ok (hh : ip = 2 * h + 1) {j : ℕ} (hj0 : 0 < j) (hj : 2 * j < ip) (hl0 : 0 < l)
    (hl : 2 * l < ip) (hH : ∀ ik c, ik < d → c < ip → H (ik + d * c) = hcol ip (x ik) c) :
    passgOne ip d l j (ip - j) (w fwd ip (l * j % ip)) (tab (d * ip) H)
      (tab (d * ip) (pairV fwd ip d l x B j)) = .ok (tab (d * ip) (pairV fwd ip d l x B (j + 1))) := by
  have key : Maps (d * ip) (pairV fwd ip d l x B j) (pairV fwd ip d l x B (j + 1))
      (passgOne ip d l j (ip - j) (w fwd ip (l * j % ip)) (tab (d * ip) H))
      (fun n => ∃ ik, ik < d ∧ (n = ik + d * l ∨ n = ik + d * (ip - l))) := by
    unfold passgOne
    apply pair_maps rfl hl0 hl
    intro ik hk S hS
    have n1 : ¬ S (ik + d * l) := hS _ (col_lt hk (by omega)) (Or.inl rfl)
    have n2 : ¬ (S (ik + d * (ip - l)) ∨ ik + d * (ip - l) = ik + d * l) := by
      rintro (h' | h')
      · exact hS _ (col_lt hk (by omega)) (Or.inr rfl) h'
      · have := (col_inj hk hk h').2
        omega
    simp only []
    rw [ld_mix_old (col_lt hk (by omega)) n1, Out.ok_bind, ld_tab (col_lt hk (by omega)), Out.ok_bind,
      st_mix (col_lt hk (by omega)), Out.ok_bind,
      ld_mix_old (col_lt hk (by omega)) n2, Out.ok_bind, ld_tab (col_lt hk (by omega)), Out.ok_bind,
      st_mix (col_lt hk (by omega))]
    · congr 1
      apply mix_congr
      intro n _
      tauto
    · rw [pairV_lc hk (by omega), pairV_lc hk (by omega), qcol_succ hj0,
        hH _ _ hk (by omega), cI_mod fwd ip (l * j)]
      apply Complex.ext <;> simp [w] <;> ring
    · rw [pairV_l hk, pairV_l hk, pcol_succ hj0, hH _ _ hk (by omega), cR_mod ip (l * j)]
      apply Complex.ext <;> simp [w] <;> ring
  rw [maps_all key, mix_pair rfl]
  intro n hn h1 h2
  unfold pairV
  rw [if_neg h1, if_neg h2]

theorem stepWal_ok {j : ℕ} (hp : ip.Prime) (hl0 : 0 < l) (hl : l < ip) (hj0 : 0 < j) (hj : j + 1 < ip) :
    stepWal ip l (l * j % ip) = l * (j + 1) % ip := by
  have h1 : l * j % ip < ip := Nat.mod_lt _ hp.pos
  have h2 : l * (j + 1) % ip ≠ 0 := by
    intro h0
    rcases (Nat.Prime.dvd_mul hp).mp (Nat.dvd_of_mod_eq_zero h0) with h | h
    · exact absurd (Nat.le_of_dvd hl0 h) (by omega)
    · exact absurd (Nat.le_of_dvd (by omega) h) (by omega)
  have h3 : l * (j + 1) % ip = (l * j % ip + l) % ip := by
    rw [Nat.mul_succ, Nat.mod_add_mod]
  rw [h3] at h2 ⊢
  obtain ⟨r, hr⟩ : ∃ r, r = l * j % ip := ⟨_, rfl⟩
  rw [← hr] at h1 h2 ⊢
  unfold stepWal
  simp only []
  split
  · rw [Nat.mod_eq_sub_mod (by omega), Nat.mod_eq_of_lt (by omega)]
  · rename_i hgt
    have : r + l ≠ ip := by
      intro e; rw [e] at h2; simp at h2
    rw [Nat.mod_eq_of_lt (by omega)]

theorem passgPair_ok (hp : ip.Prime) (hh : ip = 2 * h + 1) (h2 : 2 ≤ h) (hl0 : 0 < l) (hl : 2 * l < ip)
    (hH : ∀ ik c, ik < d → c < ip → H (ik + d * c) = hcol ip (x ik) c) :
    passgPair ip d l (tab ip (w fwd ip)) (tab (d * ip) H) (tab (d * ip) B)
      = .ok (tab (d * ip) (pairV fwd ip d l x B (h + 1))) := by
  unfold passgPair
  have hph : (ip + 1) / 2 = h + 1 := by omega
  simp only [hph]
  rw [passgStart_ok hh h2 hl0 hl hH, Out.ok_bind]
  let Inv : GState → Prop := fun s => 3 ≤ s.j ∧ s.j ≤ h + 1 ∧ s.jc = ip - s.j ∧ s.iwal = l * (s.j - 1) % ip ∧
    s.cc = tab (d * ip) (pairV fwd ip d l x B s.j)
  obtain ⟨s1, e1, i1, -⟩ := whileN_measure (cond := fun s : GState => decide (s.j < h + 1 - 1))
    (body := fun s => do
      let iwal := stepWal ip l s.iwal
      let xwal ← ld (tab ip (w fwd ip)) iwal
      let iwal := stepWal ip l iwal
      let xwal2 ← ld (tab ip (w fwd ip)) iwal
      let cc ← passgTwo ip d l s.j s.jc xwal xwal2 (tab (d * ip) H) s.cc
      pure (⟨s.j + 2, s.jc - 2, iwal, cc⟩ : GState)) Inv (fun s => h + 1 - s.j) (by
    rintro ⟨j, jc, iwal, cc⟩ ⟨a1, a2, a3, a4, a5⟩ hc
    simp only [] at a1 a2 a3 a4 a5
    simp only [decide_eq_true_eq] at hc
    subst a3 a4 a5
    simp only []
    have b1 : stepWal ip l (l * (j - 1) % ip) = l * j % ip := by
      have := stepWal_ok (l := l) (j := j - 1) hp hl0 (by omega) (by omega) (by omega)
      rwa [Nat.sub_add_cancel (by omega)] at this
    rw [b1, stepWal_ok hp hl0 (by omega) (by omega) (by omega), ld_tab (Nat.mod_lt _ hp.pos), Out.ok_bind,
      ld_tab (Nat.mod_lt _ hp.pos), Out.ok_bind, passgTwo_ok hh (by omega) (by omega) hl0 hl hH, Out.ok_bind]
    refine ⟨_, rfl, ⟨?_, ?_, ?_, ?_, rfl⟩, ?_⟩ <;> simp only []
    · omega
    · omega
    · omega
    · rw [show j + 2 - 1 = j + 1 by omega]
    · omega) (ip + 1) ⟨3, ip - 3, 2 * l, tab (d * ip) (pairV fwd ip d l x B 3)⟩ (by simp only []; omega)
    ⟨le_rfl, by simp only []; omega, rfl, by simp only []; rw [Nat.mul_comm, Nat.mod_eq_of_lt (by omega)], rfl⟩
  rw [e1, Out.ok_bind]
  obtain ⟨s2, e2, i2, c2⟩ := whileN_measure (cond := fun s : GState => decide (s.j < h + 1))
    (body := fun s => do
      let iwal := stepWal ip l s.iwal
      let xwal ← ld (tab ip (w fwd ip)) iwal
      let cc ← passgOne ip d l s.j s.jc xwal (tab (d * ip) H) s.cc
      pure (⟨s.j + 1, s.jc - 1, iwal, cc⟩ : GState)) Inv (fun s => h + 1 - s.j) (by
    rintro ⟨j, jc, iwal, cc⟩ ⟨a1, a2, a3, a4, a5⟩ hc
    simp only [] at a1 a2 a3 a4 a5
    simp only [decide_eq_true_eq] at hc
    subst a3 a4 a5
    simp only []
    have b1 : stepWal ip l (l * (j - 1) % ip) = l * j % ip := by
      have := stepWal_ok (l := l) (j := j - 1) hp hl0 (by omega) (by omega) (by omega)
      rwa [Nat.sub_add_cancel (by omega)] at this
    rw [b1, ld_tab (Nat.mod_lt _ hp.pos), Out.ok_bind, passgOne_ok hh (by omega) (by omega) hl0 hl hH,
      Out.ok_bind]
    refine ⟨_, rfl, ⟨?_, ?_, ?_, ?_, rfl⟩, ?_⟩ <;> simp only []
    · omega
    · omega
    · omega
    · rw [show j + 1 - 1 = j by omega]
    · omega) (ip + 1) s1 (by obtain ⟨a1, a2, _⟩ := i1; omega) i1
  rw [e2, Out.ok_bind]
  obtain ⟨a1, a2, a3, a4, a5⟩ := i2
  have : s2.j = h + 1 := by
    simp only [decide_eq_false_iff_not] at c2
    omega
  rw [a5, this]
  rfl

end pair

section whole
variable {fwd : Bool} {ido ip l1 h : ℕ} {A W : ℕ → ℂ}

theorem passgPair_fills {l : ℕ} (hp : ip.Prime) (hh : ip = 2 * h + 1) (h2 : 2 ≤ h) (hl0 : 0 < l)
    (hl : 2 * l < ip) :
    Fills (ido * l1 * ip) (halfV fwd ido ip l1 h A)
      (passgPair ip (ido * l1) l (tab ip (w fwd ip)) (tab (ido * l1 * ip) (foldV ido ip l1 A)))
      (fun n => n / (ido * l1) = l ∨ n / (ido * l1) = ip - l) := by
  apply fills_of_mix
  intro B
  rw [passgPair_ok (x := acol ido ip A) hp hh h2 hl0 hl (fun ik c hk hc => foldV_col hk)]
  congr 1
  unfold mix
  apply tab_congr
  intro n hn
  unfold pairV halfV halfCol
  by_cases e1 : n / (ido * l1) = l
  · rw [if_pos e1, if_pos (Or.inl e1), e1, if_neg (by omega), if_pos hl]
  · rw [if_neg e1]
    by_cases e2 : n / (ido * l1) = ip - l
    · rw [if_pos e2, if_pos (Or.inr e2), e2, if_neg (by omega), if_neg (by omega),
        show ip - (ip - l) = l by omega]
    · rw [if_neg e2, if_neg (by tauto)]

theorem passgHalf_ok (hp : ip.Prime) (hh : ip = 2 * h + 1) (h2 : 2 ≤ h) {cc : List ℂ}
    (hc : cc.length = ido * l1 * ip) :
    (passgZero ido ip l1 (tab (ido * l1 * ip) (foldV ido ip l1 A)) cc >>=
      forN ((ip + 1) / 2 - 1) (fun l0 cc => passgPair ip (ido * l1) (l0 + 1) (tab ip (w fwd ip))
        (tab (ido * l1 * ip) (foldV ido ip l1 A)) cc))
      = .ok (tab (ido * l1 * ip) (halfV fwd ido ip l1 h A)) := by
  have hz := passgZero_fills (ido := ido) (l1 := l1) (A := A) fwd hh
  rw [Nat.mul_right_comm ido ip l1] at hz
  refine fills_all (fills_bind hz (fills_forN (fun l0 hl0 => passgPair_fills (l := l0 + 1) hp hh h2
    (by omega) (by omega)))) ?_ hc
  intro n hn
  obtain ⟨h1, h3, h4⟩ := col_eq hn
  obtain ⟨c, hc⟩ : ∃ c, c = n / (ido * l1) := ⟨_, rfl⟩
  simp only [← hc] at h3 ⊢
  by_cases e0 : c = 0
  · exact Or.inl e0
  · right
    by_cases e1 : 2 * c < ip
    · exact ⟨c - 1, by omega, Or.inl (by omega)⟩
    · exact ⟨ip - c - 1, by omega, Or.inr (by omega)⟩

theorem half_add {i k j : ℕ} (hh : ip = 2 * h + 1) (hi : i < ido) (hk : k < l1) (hj0 : 0 < j) (hj : 2 * j < ip) :
    halfV fwd ido ip l1 h A (ix ido l1 i k j) + halfV fwd ido ip l1 h A (ix ido l1 i k (ip - j))
      = ∑ b ∈ Finset.range ip, A (ix ido ip i b k) * w fwd ip (j * b) := by
  rw [halfV_ix hi hk, halfV_ix hi hk, ← col_add hh fwd (fun b => A (ix ido ip i b k)) (l := j)]
  unfold halfCol
  rw [if_neg (by omega), if_pos hj, if_neg (by omega), if_neg (by omega), show ip - (ip - j) = j by omega]

theorem half_sub {i k j : ℕ} (hh : ip = 2 * h + 1) (hi : i < ido) (hk : k < l1) (hj0 : 0 < j) (hj : 2 * j < ip) :
    halfV fwd ido ip l1 h A (ix ido l1 i k j) - halfV fwd ido ip l1 h A (ix ido l1 i k (ip - j))
      = ∑ b ∈ Finset.range ip, A (ix ido ip i b k) * w fwd ip ((ip - j) * b) := by
  rw [halfV_ix hi hk, halfV_ix hi hk, ← col_sub hh (show j ≤ ip by omega) fwd (fun b => A (ix ido ip i b k))]
  unfold halfCol
  rw [if_neg (by omega), if_pos hj, if_neg (by omega), if_neg (by omega), show ip - (ip - j) = j by omega]

theorem passgTwiddle_ok (hido : 0 < ido) (hh : ip = 2 * h + 1) :
    passgTwiddle fwd ido ip l1 (tab ((ip - 1) * (ido - 1)) W) (tab (ido * l1 * ip) (halfV fwd ido ip l1 h A))
      = .ok (tab (ido * l1 * ip) (stageV fwd ip ido l1 A W)) := by
  have hnot : ∀ {i k j}, i < ido → k < l1 → 0 < j → 2 * j < ip →
      ix ido l1 i k (ip - j) ≠ ix ido l1 i k j := by
    intro i k j hi hk h0 hj e
    have := (ix_inj hi hk hi hk e).2.2
    omega
  have fin : ∀ (T : ℕ → Prop),
      (∀ i k c, i < ido → k < l1 → 0 < c → c < ip → T (ix ido l1 i k c)) →
      mix (ido * l1 * ip) (halfV fwd ido ip l1 h A) (stageV fwd ip ido l1 A W) T
        = tab (ido * l1 * ip) (stageV fwd ip ido l1 A W) := by
    intro T hT
    unfold mix
    apply tab_congr
    intro n hn
    obtain ⟨h1, h2, h3⟩ := ix_cases hn
    split
    · rfl
    · rename_i hnT
      obtain ⟨c, hc⟩ : ∃ c, c = n / ido / l1 := ⟨_, rfl⟩
      have e : n = ix ido l1 (n % ido) (n / ido % l1) c := by rw [hc]; exact ix_eq.symm
      rw [← hc] at h3
      have e0 : c = 0 := by
        by_contra hne
        apply hnT
        rw [e]
        exact hT _ _ _ h1 h2 (by omega) h3
      rw [e, e0, halfV_ix h1 h2, stageV_ix h1 h2, stage_first]
      simp [halfCol]
  unfold passgTwiddle
  simp only []
  by_cases e1 : ido = 1
  · rw [if_pos e1]
    have key : Maps (ido * l1 * ip) (halfV fwd ido ip l1 h A) (stageV fwd ip ido l1 A W)
        (forN ((ip + 1) / 2 - 1) (fun j0 cc => forN (ido * l1) (fun ik cc => do
          let j := j0 + 1
          let jc := ip - j
          let t1 ← ld cc (ik + ido * l1 * j)
          let t2 ← ld cc (ik + ido * l1 * jc)
          let cc ← st cc (ik + ido * l1 * j) (t1 + t2)
          st cc (ik + ido * l1 * jc) (t1 - t2)) cc))
        (fun n => ∃ j0, j0 < (ip + 1) / 2 - 1 ∧ ∃ k, k < ido * l1 ∧
          (n = ix ido l1 0 k (j0 + 1) ∨ n = ix ido l1 0 k (ip - (j0 + 1)))) := by
      apply maps_forN
      · intro j0 hj0
        apply maps_forN
        · intro k hk0 S hS
          have hk : k < l1 := by rw [e1] at hk0; omega
          have ek : ∀ c, k + ido * l1 * c = ix ido l1 0 k c := by
            intro c; rw [ix_col, e1]; simp
          simp only [ek]
          have a1 : ix ido l1 0 k (j0 + 1) < ido * l1 * ip := ix_lt hido hk (by omega)
          have a2 : ix ido l1 0 k (ip - (j0 + 1)) < ido * l1 * ip := ix_lt hido hk (by omega)
          rw [ld_mix_old a1 (hS _ a1 (Or.inl rfl)), Out.ok_bind, ld_mix_old a2 (hS _ a2 (Or.inr rfl)),
            Out.ok_bind, st_mix a1, Out.ok_bind, st_mix a2]
          · congr 1
            apply mix_congr
            intro n _
            tauto
          · rw [half_sub hh hido hk (by omega) (by omega), stageV_ix hido hk, stage_zero]
          · rw [half_add hh hido hk (by omega) (by omega), stageV_ix hido hk, stage_zero]
        · intro k k' n hk hk' _ h1 h2
          rw [e1] at hk hk'
          rcases h1 with h1 | h1 <;> rcases h2 with h2 | h2 <;>
            exact (ix_inj hido (by omega) hido (by omega) (h1.symm.trans h2)).2.1
      · rintro j j' n hj hj' _ ⟨k, hk, h1⟩ ⟨k', hk', h2⟩
        rw [e1] at hk hk'
        rcases h1 with h1 | h1 <;> rcases h2 with h2 | h2 <;>
          (have := (ix_inj hido (by omega) hido (by omega) (h1.symm.trans h2)).2.2; omega)
    rw [maps_all key, fin]
    intro i k c hi hk h0 hc
    have ei : i = 0 := by omega
    subst ei
    by_cases e2 : 2 * c < ip
    · exact ⟨c - 1, by omega, k, by rw [e1]; omega, Or.inl (by rw [Nat.sub_add_cancel h0])⟩
    · exact ⟨ip - c - 1, by omega, k, by rw [e1]; omega, Or.inr (by congr 1; omega)⟩
  · rw [if_neg e1]
    have key : Maps (ido * l1 * ip) (halfV fwd ido ip l1 h A) (stageV fwd ip ido l1 A W)
        (forN ((ip + 1) / 2 - 1) (fun j0 cc => forN l1 (fun k cc => do
          let j := j0 + 1
          let jc := ip - j
          let t1 ← ld cc (ix ido l1 0 k j)
          let t2 ← ld cc (ix ido l1 0 k jc)
          let cc ← st cc (ix ido l1 0 k j) (t1 + t2)
          let cc ← st cc (ix ido l1 0 k jc) (t1 - t2)
          forN (ido - 1) (fun i0 cc => do
            let i := i0 + 1
            let x ← ld cc (ix ido l1 i k j)
            let y ← ld cc (ix ido l1 i k jc)
            let x1 := x + y
            let x2 := x - y
            let w ← ld (tab ((ip - 1) * (ido - 1)) W) ((j - 1) * (ido - 1) + i - 1)
            let cc ← st cc (ix ido l1 i k j) (smul fwd x1 w)
            let w ← ld (tab ((ip - 1) * (ido - 1)) W) ((jc - 1) * (ido - 1) + i - 1)
            st cc (ix ido l1 i k jc) (smul fwd x2 w)) cc) cc))
        (fun n => ∃ j0, j0 < (ip + 1) / 2 - 1 ∧ ∃ k, k < l1 ∧
          ((n = ix ido l1 0 k (j0 + 1) ∨ n = ix ido l1 0 k (ip - (j0 + 1))) ∨
            ∃ i0, i0 < ido - 1 ∧ (n = ix ido l1 (i0 + 1) k (j0 + 1) ∨ n = ix ido l1 (i0 + 1) k (ip - (j0 + 1))))) := by
      apply maps_forN
      · intro j0 hj0
        apply maps_forN
        · intro k hk
          have m1 : Maps (ido * l1 * ip) (halfV fwd ido ip l1 h A) (stageV fwd ip ido l1 A W)
              (fun cc => do
                let t1 ← ld cc (ix ido l1 0 k (j0 + 1))
                let t2 ← ld cc (ix ido l1 0 k (ip - (j0 + 1)))
                let cc ← st cc (ix ido l1 0 k (j0 + 1)) (t1 + t2)
                st cc (ix ido l1 0 k (ip - (j0 + 1))) (t1 - t2))
              (fun n => n = ix ido l1 0 k (j0 + 1) ∨ n = ix ido l1 0 k (ip - (j0 + 1))) := by
            intro S hS
            have a1 : ix ido l1 0 k (j0 + 1) < ido * l1 * ip := ix_lt hido hk (by omega)
            have a2 : ix ido l1 0 k (ip - (j0 + 1)) < ido * l1 * ip := ix_lt hido hk (by omega)
            simp only []
            rw [ld_mix_old a1 (hS _ a1 (Or.inl rfl)), Out.ok_bind, ld_mix_old a2 (hS _ a2 (Or.inr rfl)),
              Out.ok_bind, st_mix a1, Out.ok_bind, st_mix a2]
            · congr 1
              apply mix_congr
              intro n _
              tauto
            · rw [half_sub hh hido hk (by omega) (by omega), stageV_ix hido hk, stage_zero]
            · rw [half_add hh hido hk (by omega) (by omega), stageV_ix hido hk, stage_zero]
          have m2 : Maps (ido * l1 * ip) (halfV fwd ido ip l1 h A) (stageV fwd ip ido l1 A W)
              (forN (ido - 1) (fun i0 cc => do
                let x ← ld cc (ix ido l1 (i0 + 1) k (j0 + 1))
                let y ← ld cc (ix ido l1 (i0 + 1) k (ip - (j0 + 1)))
                let w ← ld (tab ((ip - 1) * (ido - 1)) W) ((j0 + 1 - 1) * (ido - 1) + (i0 + 1) - 1)
                let cc ← st cc (ix ido l1 (i0 + 1) k (j0 + 1)) (smul fwd (x + y) w)
                let w ← ld (tab ((ip - 1) * (ido - 1)) W) ((ip - (j0 + 1) - 1) * (ido - 1) + (i0 + 1) - 1)
                st cc (ix ido l1 (i0 + 1) k (ip - (j0 + 1))) (smul fwd (x - y) w)))
              (fun n => ∃ i0, i0 < ido - 1 ∧
                (n = ix ido l1 (i0 + 1) k (j0 + 1) ∨ n = ix ido l1 (i0 + 1) k (ip - (j0 + 1)))) := by
            apply maps_forN
            · intro i0 hi0 S hS
              have hi : i0 + 1 < ido := by omega
              have a1 : ix ido l1 (i0 + 1) k (j0 + 1) < ido * l1 * ip := ix_lt hi hk (by omega)
              have a2 : ix ido l1 (i0 + 1) k (ip - (j0 + 1)) < ido * l1 * ip := ix_lt hi hk (by omega)
              have w1 : (j0 + 1 - 1) * (ido - 1) + (i0 + 1) - 1 = wx ido (j0 + 1 - 1) (i0 + 1) := by
                unfold wx; omega
              have w2 : (ip - (j0 + 1) - 1) * (ido - 1) + (i0 + 1) - 1 = wx ido (ip - (j0 + 1) - 1) (i0 + 1) := by
                unfold wx; omega
              simp only [w1, w2]
              rw [ld_mix_old a1 (hS _ a1 (Or.inl rfl)), Out.ok_bind, ld_mix_old a2 (hS _ a2 (Or.inr rfl)),
                Out.ok_bind, ld_tab (wx_lt (by omega) hi (by omega)), Out.ok_bind, st_mix a1, Out.ok_bind,
                ld_tab (wx_lt (by omega) hi (by omega)), Out.ok_bind, st_mix a2]
              · congr 1
                apply mix_congr
                intro n _
                tauto
              · rw [half_sub hh hi hk (by omega) (by omega), stageV_ix hi hk, stage_pos (by omega) (by omega)]
              · rw [half_add hh hi hk (by omega) (by omega), stageV_ix hi hk, stage_pos (by omega) (by omega)]
            · intro i i' n hi hi' _ h1 h2
              rcases h1 with h1 | h1 <;> rcases h2 with h2 | h2 <;>
                (have := (ix_inj (by omega) hk (by omega) hk (h1.symm.trans h2)).1; omega)
          have m3 := maps_bind m1 m2 ?_
          · simp only [bind_assoc] at m3
            exact m3
          · rintro n hn h1 ⟨i0, hi0, h2⟩
            rcases h1 with h1 | h1 <;> rcases h2 with h2 | h2 <;>
              (have := (ix_inj hido hk (by omega) hk (h1.symm.trans h2)).1; omega)
        · intro k k' n hk hk' _ h1 h2
          rcases h1 with (h1 | h1) | ⟨i, hi, h1 | h1⟩ <;> rcases h2 with (h2 | h2) | ⟨i', hi', h2 | h2⟩ <;>
            exact (ix_inj (by omega) hk (by omega) hk' (h1.symm.trans h2)).2.1
      · rintro j j' n hj hj' _ ⟨k, hk, h1⟩ ⟨k', hk', h2⟩
        rcases h1 with (h1 | h1) | ⟨i, hi, h1 | h1⟩ <;> rcases h2 with (h2 | h2) | ⟨i', hi', h2 | h2⟩ <;>
          (have := (ix_inj (by omega) hk (by omega) hk' (h1.symm.trans h2)).2.2; omega)
    rw [maps_all key, fin]
    intro i k c hi hk h0 hc
    by_cases e2 : 2 * c < ip
    · refine ⟨c - 1, by omega, k, hk, ?_⟩
      rw [Nat.sub_add_cancel h0]
      by_cases ei : i = 0
      · exact Or.inl (Or.inl (by rw [ei]))
      · exact Or.inr ⟨i - 1, by omega, Or.inl (by rw [Nat.sub_add_cancel (by omega)])⟩
    · refine ⟨ip - c - 1, by omega, k, hk, ?_⟩
      rw [show ip - (ip - c - 1 + 1) = c by omega]
      by_cases ei : i = 0
      · exact Or.inl (Or.inr (by rw [ei]))
      · exact Or.inr ⟨i - 1, by omega, Or.inr (by rw [Nat.sub_add_cancel (by omega)])⟩

/-- The generic pass. -/
theorem passg_ok (fwd : Bool) {ch : List ℂ} (hp : ip.Prime) (h5 : 5 ≤ ip) (hido : 0 < ido)
    (hc : ch.length = ido * ip * l1) :
    passg fwd ido ip l1 (tab (ido * ip * l1) A) ch (tab ((ip - 1) * (ido - 1)) W) (tab ip (w false ip))
      = .ok (tab (ido * ip * l1) (stageV fwd ip ido l1 A W), tab (ido * ip * l1) (foldV ido ip l1 A)) := by
  obtain ⟨h, hh⟩ : ∃ h, ip = 2 * h + 1 := by
    rcases hp.eq_two_or_odd with e | e
    · omega
    · exact ⟨ip / 2, by omega⟩
  unfold passg
  rw [passgWal_ok fwd hp.pos, Out.ok_bind, passgFold_ok hh hc, Out.ok_bind, Nat.mul_right_comm ido ip l1]
  have h1 := passgHalf_ok (fwd := fwd) (ido := ido) (l1 := l1) (A := A) (cc := tab (ido * l1 * ip) A) hp hh
    (by omega) (by simp)
  have h2 := passgTwiddle_ok (fwd := fwd) (l1 := l1) (A := A) (W := W) hido hh
  rw [← bind_assoc, h1, Out.ok_bind, h2, Out.ok_bind]
  rfl

end whole

end Verif.Pocket
