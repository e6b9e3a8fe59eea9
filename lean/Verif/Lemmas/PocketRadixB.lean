import Verif.Lemmas.PocketRadixF

/-! # The generic radix of the transforms of real data: the backward direction -/

set_option linter.unusedSimpArgs false
set_option linter.unusedSectionVars false
set_option linter.unusedVariables false
set_option linter.unreachableTactic false
set_option linter.unusedTactic false
set_option linter.unnecessarySeqFocus false

namespace Verif.Pocket
open Complex

section bwd
variable {ip ido l1 h : ℕ} {Y : ℕ → ℕ → ℂ} {wa : List ℝ}

/-- the inputs of one butterfly, folded -/
noncomputable def bfold (ip ido : ℕ) (Y : ℕ → ℕ → ℂ) (k m : ℕ) : ℕ → ℂ := hcol ip (fun b => Y k (m + ido * b))

theorem blin_low {c : ℕ} (hc : 2 * c < ip) (x : ℕ → ℂ) : lin ip h (hcol ip x) c = pcol ip x c (h + 1) := by
  unfold lin pcol
  rw [if_pos hc]
  congr 1
  apply Finset.sum_congr (by simp)
  intro m _
  ring

theorem blin_high {c : ℕ} (hc : 2 * c < ip) (x : ℕ → ℂ) :
    I * lin ip h (hcol ip x) (ip - c) = qcol false ip x c (h + 1) := by
  unfold lin qcol
  rw [if_neg (by omega), show ip - (ip - c) = c by omega, Finset.mul_sum]
  apply Finset.sum_congr (by simp)
  intro m _
  ring

theorem blin_add {c : ℕ} (hh : ip = 2 * h + 1) (hc : 2 * c < ip) (x : ℕ → ℂ) :
    lin ip h (hcol ip x) c + I * lin ip h (hcol ip x) (ip - c) = sft false ip x c := by
  rw [blin_low hc, blin_high hc, col_add hh]; rfl

theorem blin_sub {c : ℕ} (hh : ip = 2 * h + 1) (hc : 2 * c < ip) (x : ℕ → ℂ) :
    lin ip h (hcol ip x) c - I * lin ip h (hcol ip x) (ip - c) = sft false ip x (ip - c) := by
  rw [blin_low hc, blin_high hc, col_sub hh (by omega)]; rfl

theorem blin_zero (hh : ip = 2 * h + 1) (x : ℕ → ℂ) : lin ip h (hcol ip x) 0 = sft false ip x 0 := by
  rw [blin_low (by omega)]
  have := col_zero hh false x
  unfold sft
  rw [← this]
  unfold pcol
  congr 1
  apply Finset.sum_congr (by simp)
  intro m _
  rw [Nat.zero_mul, cR_zero]
  simp

/-- the mirrored inputs at position 0 -/
theorem herm_zero (hY : ∀ k, Herm (ido * ip) (Y k)) {k b : ℕ} (hb : 0 < b) (hb2 : b ≤ ip) :
    Y k (ido * (ip - b)) = (starRingEnd ℂ) (Y k (ido * b)) := by
  have := herm_long hY (k := k) (c := 0) hb hb2 (by omega)
  rw [Nat.sub_zero, Nat.zero_add] at this
  rw [this]
  simp

theorem radbgFold_ok (hh : ip = 2 * h + 1) (hido : 0 < ido) (hodd : ido % 2 = 1)
    (hY : ∀ k, Herm (ido * ip) (Y k)) {ch : List ℝ} (hch : ch.length = ido * l1 * ip) :
    radbgFold ido ip l1 (tab (ido * ip * l1) (rows (ido * ip) Y)) ch
      = .ok (tab (ido * l1 * ip) (colV ido ip l1 (bfold ip ido Y))) := by
  have hip : 0 < ip := by omega
  have f1 : Fills (ido * l1 * ip) (colV ido ip l1 (bfold ip ido Y))
      (forN l1 (fun k ch => forN ido (fun i ch => do
        let x ← ld (tab (ido * ip * l1) (rows (ido * ip) Y)) (ix ido ip i 0 k)
        st ch (ix ido l1 i k 0) x) ch))
      (fun n => ∃ k, k < l1 ∧ ∃ i, i < ido ∧ n = ix ido l1 i k 0) := by
    apply fills_forN
    intro k hk
    apply fills_forN
    intro i hi
    simp only [ld_long hk hi hip, Out.ok_bind]
    apply fills_st (ix_lt hi hk hip)
    rw [colV_ix hi hk]
    have gz : ∀ m, bfold ip ido Y k m 0 = Y k m := by
      intro m
      unfold bfold hcol
      simp
    unfold enc encC
    simp only [gz, Nat.mul_zero, Nat.add_zero]
    rw [if_pos hip]
  have f2 : Fills (ido * l1 * ip) (colV ido ip l1 (bfold ip ido Y))
      (forN ((ip + 1) / 2 - 1) (fun j0 ch => forN l1 (fun k ch => do
        let j := j0 + 1
        let jc := ip - j
        let j2 := 2 * j - 1
        let x ← ld (tab (ido * ip * l1) (rows (ido * ip) Y)) (ix ido ip (ido - 1) j2 k)
        let ch ← st ch (ix ido l1 0 k j) (2 * x)
        let y ← ld (tab (ido * ip * l1) (rows (ido * ip) Y)) (ix ido ip 0 (j2 + 1) k)
        st ch (ix ido l1 0 k jc) (2 * y)) ch))
      (fun n => ∃ j, j < (ip + 1) / 2 - 1 ∧ ∃ k, k < l1 ∧
        (n = ix ido l1 0 k (j + 1) ∨ n = ix ido l1 0 k (ip - (j + 1)))) := by
    apply fills_forN
    intro j hj
    apply fills_forN
    intro k hk
    simp only [show 2 * (j + 1) - 1 + 1 = 2 * (j + 1) by omega]
    simp only [ld_long_last (ip := ip) (b := j + 1) (Y := Y) hk hido (by omega) (by omega),
      ld_long_first (ip := ip) (b := j + 1) (Y := Y) hk hido (by omega) (by omega), Out.ok_bind]
    apply fills_st_bind (ix_lt hido hk (by omega))
    · rw [colV_ix hido hk, encC_low (by omega)]
      unfold bfold hcol
      rw [if_neg (by omega), if_pos (by omega)]
      simp only [Nat.zero_add]
      rw [herm_zero hY (by omega) (by omega)]
      simp
      ring
    · apply fills_st (ix_lt hido hk (by omega))
      rw [colV_ix hido hk, encC_high (by omega)]
      unfold bfold hcol
      rw [if_neg (by omega), if_neg (by omega), show ip - (ip - (j + 1)) = j + 1 by omega]
      simp only [Nat.zero_add]
      rw [herm_zero hY (by omega) (by omega)]
      simp
      ring
  have f3 : Fills (ido * l1 * ip) (colV ido ip l1 (bfold ip ido Y))
      (forN ((ip + 1) / 2 - 1) (fun j0 ch => forN l1 (fun k ch => forN ((ido - 1) / 2) (fun i0 ch => do
        let j := j0 + 1
        let jc := ip - j
        let j2 := 2 * j - 1
        let i := 2 * i0 + 1
        let ic := ido - i - 2
        let x ← ld (tab (ido * ip * l1) (rows (ido * ip) Y)) (ix ido ip i (j2 + 1) k)
        let y ← ld (tab (ido * ip * l1) (rows (ido * ip) Y)) (ix ido ip ic j2 k)
        let ch ← st ch (ix ido l1 i k j) (x + y)
        let ch ← st ch (ix ido l1 i k jc) (x - y)
        let x ← ld (tab (ido * ip * l1) (rows (ido * ip) Y)) (ix ido ip (i + 1) (j2 + 1) k)
        let y ← ld (tab (ido * ip * l1) (rows (ido * ip) Y)) (ix ido ip (ic + 1) j2 k)
        let ch ← st ch (ix ido l1 (i + 1) k j) (x - y)
        st ch (ix ido l1 (i + 1) k jc) (x + y)) ch) ch))
      (fun n => ∃ j, j < (ip + 1) / 2 - 1 ∧ ∃ k, k < l1 ∧ ∃ i0, i0 < (ido - 1) / 2 ∧
        (n = ix ido l1 (2 * (i0 + 1) - 1) k (j + 1) ∨ n = ix ido l1 (2 * (i0 + 1) - 1) k (ip - (j + 1)) ∨
          n = ix ido l1 (2 * (i0 + 1)) k (j + 1) ∨ n = ix ido l1 (2 * (i0 + 1)) k (ip - (j + 1)))) := by
    apply fills_forN
    intro j hj
    apply fills_forN
    intro k hk
    apply fills_forN
    intro i0 hi0
    obtain ⟨c, hc⟩ : ∃ c, c = i0 + 1 := ⟨_, rfl⟩
    obtain ⟨b, hb⟩ : ∃ b, b = j + 1 := ⟨_, rfl⟩
    have hc0 : 0 < c := by omega
    have hc1 : 2 * c < ido := by omega
    simp only [← hc, ← hb, show 2 * i0 + 1 = 2 * c - 1 by omega, show 2 * c - 1 + 1 = 2 * c by omega,
      show 2 * b - 1 + 1 = 2 * b by omega, show ido - (2 * c - 1) - 2 = ido - 2 * c - 1 by omega,
      show ido - 2 * c - 1 + 1 = ido - 2 * c by omega]
    simp only [ld_long_up_re (ip := ip) (b := b) (Y := Y) hk (by omega) hc0 hc1, ld_long_up_im (ip := ip) (b := b) (Y := Y) hk (by omega) hc0 hc1,
      ld_long_down_re (b := b) hY hk (by omega) (by omega) hc0 hc1,
      ld_long_down_im (b := b) hY hk (by omega) (by omega) hc0 hc1, Out.ok_bind]
    have g1 : bfold ip ido Y k c b = Y k (c + ido * b) + Y k (c + ido * (ip - b)) := by
      unfold bfold hcol
      rw [if_neg (by omega), if_pos (by omega)]
    have g2 : bfold ip ido Y k c (ip - b) = Y k (c + ido * b) - Y k (c + ido * (ip - b)) := by
      unfold bfold hcol
      rw [if_neg (by omega), if_neg (by omega), show ip - (ip - b) = b by omega]
    apply fills_st_bind (ix_lt (by omega) hk (by omega))
    · rw [colV_ix (by omega) hk, encC_re hc0 rfl, g1]; simp
    · apply fills_st_bind (ix_lt (by omega) hk (by omega))
      · rw [colV_ix (by omega) hk, encC_re hc0 rfl, g2]; simp
      · apply fills_st_bind (ix_lt (by omega) hk (by omega))
        · rw [colV_ix (by omega) hk, encC_im hc0 rfl, g1]; simp
        · apply fills_st (ix_lt (by omega) hk (by omega))
          rw [colV_ix (by omega) hk, encC_im hc0 rfl, g2]; simp
          ring
  unfold radbgFold
  have f4 := fills_bind f1 (fills_bind f2 (fills_ite (c := ido = 1) f3))
  refine fills_all f4 ?_ hch
  intro n hn
  obtain ⟨h1, h2, h3⟩ := ix_cases hn
  have e : n = ix ido l1 (n % ido) (n / ido % l1) (n / ido / l1) := ix_eq.symm
  generalize n % ido = a at h1 e
  generalize n / ido % l1 = k at h2 e
  generalize n / ido / l1 = c at h3 e
  by_cases hc0 : c = 0
  · subst hc0; exact Or.inl ⟨k, h2, a, h1, e⟩
  right
  have hrep : ∃ j, j < (ip + 1) / 2 - 1 ∧ (c = j + 1 ∨ c = ip - (j + 1)) := by
    by_cases e1 : 2 * c < ip
    · exact ⟨c - 1, by omega, Or.inl (by omega)⟩
    · exact ⟨ip - c - 1, by omega, Or.inr (by omega)⟩
  obtain ⟨j, hj, hcj⟩ := hrep
  by_cases ha : a = 0
  · subst ha
    left
    refine ⟨j, hj, k, h2, ?_⟩
    rcases hcj with hcj | hcj
    · left; rw [← hcj]; exact e
    · right; rw [← hcj]; exact e
  · right
    refine ⟨by omega, j, hj, k, h2, (a + 1) / 2 - 1, by omega, ?_⟩
    rw [show (a + 1) / 2 - 1 + 1 = (a + 1) / 2 by omega]
    rcases Nat.mod_two_eq_zero_or_one a with hp | hp
    · rw [show 2 * ((a + 1) / 2) = a by omega]
      rcases hcj with hcj | hcj
      · right; right; left; rw [← hcj]; exact e
      · right; right; right; rw [← hcj]; exact e
    · rw [show 2 * ((a + 1) / 2) - 1 = a by omega]
      rcases hcj with hcj | hcj
      · left; rw [← hcj]; exact e
      · right; left; rw [← hcj]; exact e

/-- the outputs before the twiddle factors -/
noncomputable def bplain (ip ido l1 : ℕ) (Y : ℕ → ℕ → ℂ) (r c : ℕ) : ℂ :=
  sft false ip (fun b => Y (r % l1) (c + ido * b)) (r / l1)

theorem bplain_at {k j : ℕ} (hk : k < l1) (c : ℕ) : bplain ip ido l1 Y (k + l1 * j) c
    = sft false ip (fun b => Y k (c + ido * b)) j := by
  unfold bplain
  rw [Nat.add_mul_mod_self_left, Nat.mod_eq_of_lt hk, Nat.add_mul_div_left _ _ (by omega),
    Nat.div_eq_of_lt hk, Nat.zero_add]

/-- 2070-2072 -/
theorem radbgZero_ok (hh : ip = 2 * h + 1) :
    ∃ ch', radbgZero ip (ido * l1) (tab (ido * l1 * ip) (colV ido ip l1 (bfold ip ido Y))) = .ok ch' ∧
      Filled (ido * l1 * ip) (rows ido (bplain ip ido l1 Y)) (fun n => n / (ido * l1) = 0) ch' := by
  unfold radbgZero
  obtain ⟨d, hd⟩ : ∃ d, d = ido * l1 := ⟨_, rfl⟩
  obtain ⟨H, hH⟩ : ∃ H, H = colV ido ip l1 (bfold ip ido Y) := ⟨_, rfl⟩
  rw [← hd, ← hH]
  have z0 : tab (d * ip) H = tab (d * ip) (zeroV d H H 0) := by
    apply tab_congr
    intro n _
    unfold zeroV
    simp
  have key := forN_tab (N := d * ip) (n := (ip + 1) / 2 - 1) (zeroV d H H) (body := fun j0 ch => forN d (fun ik ch => do
      let y ← ld ch (ik + d * 0)
      let x ← ld ch (ik + d * (j0 + 1))
      st ch (ik + d * 0) (y + x)) ch)
  replace key := key (by
    intro j hj
    refine zero_step (f := ld) (by omega) ?_
    intro ik S hk
    have hlt : ik + d * (j + 1) < d * ip := col_lt hk (by omega)
    unfold mix
    rw [ld_tab hlt]
    congr 1
    simp [zeroV, col_div hk])
  rw [z0, key]
  refine ⟨_, rfl, by simp, ?_⟩
  intro n hn e
  have hlen : (tab (d * ip) (zeroV d H H ((ip + 1) / 2 - 1)))[n]? = some (zeroV d H H ((ip + 1) / 2 - 1) n) := by
    simp [tab, hn]
  rw [hlen]
  congr 1
  unfold zeroV
  rw [if_pos e]
  obtain ⟨h1, h2, h3⟩ := col_eq hn
  have en : n = n % d := by rw [e] at h3; omega
  have hn' : n < ido * l1 := by omega
  have e0 : n = n + ido * l1 * 0 := by simp
  have hido : 0 < ido := by
    rcases Nat.eq_zero_or_pos ido with q | q
    · subst q; simp at hn'
    · exact q
  have ha : n % ido < ido := Nat.mod_lt _ hido
  have hk : n / ido < l1 := Nat.div_lt_of_lt_mul hn'
  have er : rows ido (bplain ip ido l1 Y) n = enc (bplain ip ido l1 Y (n / ido)) (n % ido) := rfl
  have ez : ∀ c, bplain ip ido l1 Y (n / ido) c = lin ip h (bfold ip ido Y (n / ido) c) 0 := by
    intro c
    have := bplain_at (ip := ip) (ido := ido) (Y := Y) (j := 0) hk c
    rw [Nat.mul_zero, Nat.add_zero] at this
    rw [this, bfold, blin_zero hh]
  rw [er]
  have s : H n + ∑ m ∈ Finset.range ((ip + 1) / 2 - 1), H (n + d * (m + 1))
      = encC ip (fun m => lin ip h (bfold ip ido Y (n / ido) m)) (n % ido) 0 := by
    rw [← rz_lin hh, hH, show (ip + 1) / 2 - 1 = h by omega]
    congr 1
    · conv_lhs => rw [e0, colV_col hn']
    · apply Finset.sum_congr rfl
      intro m _
      rw [hd, colV_col hn']
  rw [s]
  unfold encC enc
  simp only [ez]
  rw [if_pos (show 2 * 0 < ip by omega)]

/-- 2073-2087 -/
theorem radbgOut_fills (hh : ip = 2 * h + 1) (hido : 0 < ido) (hodd : ido % 2 = 1)
    (hY : ∀ k, Herm (ido * ip) (Y k)) {cc : List ℝ}
    (hcc : Filled (ido * l1 * ip) (colV ido ip l1 (fun k m => lin ip h (bfold ip ido Y k m)))
      (fun n => n / (ido * l1) ≠ 0) cc) :
    Fills (ido * l1 * ip) (rows ido (bplain ip ido l1 Y)) (radbgOut ido ip l1 cc)
      (fun n => n / (ido * l1) ≠ 0) := by
  have hip : 0 < ip := by omega
  have rd : ∀ a k c, a < ido → k < l1 → 0 < c → c < ip →
      ld cc (ix ido l1 a k c) = .ok (encC ip (fun m => lin ip h (bfold ip ido Y k m)) a c) := by
    intro a k c ha hk hc0 hc
    have h1 := ix_lt ha hk hc
    have h2 : ix ido l1 a k c / (ido * l1) = c := by rw [ix_col, col_div (ik_lt ha hk)]
    have := hcc.2 _ h1 (by simp only [h2]; omega)
    unfold ld
    rw [this, colV_ix ha hk]
  have f2 : Fills (ido * l1 * ip) (rows ido (bplain ip ido l1 Y))
      (forN ((ip + 1) / 2 - 1) (fun j0 ch => forN l1 (fun k ch => do
        let j := j0 + 1
        let jc := ip - j
        let x ← ld cc (ix ido l1 0 k j)
        let y ← ld cc (ix ido l1 0 k jc)
        let ch ← st ch (ix ido l1 0 k jc) (x + y)
        st ch (ix ido l1 0 k j) (x - y)) ch))
      (fun n => ∃ j, j < (ip + 1) / 2 - 1 ∧ ∃ k, k < l1 ∧
        (n = ix ido l1 0 k (ip - (j + 1)) ∨ n = ix ido l1 0 k (j + 1))) := by
    apply fills_forN
    intro j hj
    apply fills_forN
    intro k hk
    simp only [rd 0 k (j + 1) hido hk (by omega) (by omega), rd 0 k (ip - (j + 1)) hido hk (by omega) (by omega),
      Out.ok_bind]
    rw [encC_low (show 2 * (j + 1) < ip by omega), encC_high (show ¬ 2 * (ip - (j + 1)) < ip by omega)]
    apply fills_st_bind (ix_lt hido hk (by omega))
    · rw [rows_short hido, enc_zero, bplain_at hk, ← blin_sub hh (by omega)]
      simp [bfold]
    · apply fills_st (ix_lt hido hk (by omega))
      rw [rows_short hido, enc_zero, bplain_at hk, ← blin_add hh (by omega)]
      simp [bfold]
      ring
  have f3 : Fills (ido * l1 * ip) (rows ido (bplain ip ido l1 Y))
      (forN ((ip + 1) / 2 - 1) (fun j0 ch => forN l1 (fun k ch => forN ((ido - 1) / 2) (fun i0 ch => do
        let j := j0 + 1
        let jc := ip - j
        let i := 2 * i0 + 1
        let x ← ld cc (ix ido l1 i k j)
        let y ← ld cc (ix ido l1 (i + 1) k jc)
        let ch ← st ch (ix ido l1 i k j) (x - y)
        let ch ← st ch (ix ido l1 i k jc) (x + y)
        let x ← ld cc (ix ido l1 (i + 1) k j)
        let y ← ld cc (ix ido l1 i k jc)
        let ch ← st ch (ix ido l1 (i + 1) k j) (x + y)
        st ch (ix ido l1 (i + 1) k jc) (x - y)) ch) ch))
      (fun n => ∃ j, j < (ip + 1) / 2 - 1 ∧ ∃ k, k < l1 ∧ ∃ i0, i0 < (ido - 1) / 2 ∧
        (n = ix ido l1 (2 * (i0 + 1) - 1) k (j + 1) ∨ n = ix ido l1 (2 * (i0 + 1) - 1) k (ip - (j + 1)) ∨
          n = ix ido l1 (2 * (i0 + 1)) k (j + 1) ∨ n = ix ido l1 (2 * (i0 + 1)) k (ip - (j + 1)))) := by
    apply fills_forN
    intro j hj
    apply fills_forN
    intro k hk
    apply fills_forN
    intro i0 hi0
    obtain ⟨c, hc⟩ : ∃ c, c = i0 + 1 := ⟨_, rfl⟩
    obtain ⟨b, hb⟩ : ∃ b, b = j + 1 := ⟨_, rfl⟩
    have hc0 : 0 < c := by omega
    have hc1 : 2 * c < ido := by omega
    simp only [← hc, ← hb, show 2 * i0 + 1 = 2 * c - 1 by omega, show 2 * c - 1 + 1 = 2 * c by omega]
    simp only [rd (2 * c - 1) k b (by omega) hk (by omega) (by omega),
      rd (2 * c - 1) k (ip - b) (by omega) hk (by omega) (by omega),
      rd (2 * c) k b (by omega) hk (by omega) (by omega),
      rd (2 * c) k (ip - b) (by omega) hk (by omega) (by omega), Out.ok_bind]
    have ea := blin_add hh (show 2 * b < ip by omega) (fun b => Y k (c + ido * b))
    have es := blin_sub hh (show 2 * b < ip by omega) (fun b => Y k (c + ido * b))
    simp only [encC_re (ip := ip) hc0 rfl, encC_im (ip := ip) hc0 rfl]
    apply fills_st_bind (ix_lt (by omega) hk (by omega))
    · rw [rows_short (by omega), enc_re hc0 rfl, bplain_at hk, ← ea]
      simp [bfold]
      ring
    · apply fills_st_bind (ix_lt (by omega) hk (by omega))
      · rw [rows_short (by omega), enc_re hc0 rfl, bplain_at hk, ← es]
        simp [bfold]
      · apply fills_st_bind (ix_lt (by omega) hk (by omega))
        · rw [rows_short (by omega), enc_im hc0 rfl, bplain_at hk, ← ea]
          simp [bfold]
        · apply fills_st (ix_lt (by omega) hk (by omega))
          rw [rows_short (by omega), enc_im hc0 rfl, bplain_at hk, ← es]
          simp [bfold]
  unfold radbgOut
  apply Fills.mono (fills_bind f2 (fills_ite (c := ido = 1) f3))
  intro n hn hne
  obtain ⟨h1, h2, h3⟩ := ix_cases hn
  have e : n = ix ido l1 (n % ido) (n / ido % l1) (n / ido / l1) := ix_eq.symm
  rw [← Nat.div_div_eq_div_mul] at hne
  generalize n % ido = a at h1 e
  generalize n / ido % l1 = k at h2 e
  generalize n / ido / l1 = c at h3 e hne
  have hrep : ∃ j, j < (ip + 1) / 2 - 1 ∧ (c = j + 1 ∨ c = ip - (j + 1)) := by
    by_cases e1 : 2 * c < ip
    · exact ⟨c - 1, by omega, Or.inl (by omega)⟩
    · exact ⟨ip - c - 1, by omega, Or.inr (by omega)⟩
  obtain ⟨j, hj, hcj⟩ := hrep
  by_cases ha : a = 0
  · subst ha
    left
    refine ⟨j, hj, k, h2, ?_⟩
    rcases hcj with hcj | hcj
    · right; rw [← hcj]; exact e
    · left; rw [← hcj]; exact e
  · right
    refine ⟨by omega, j, hj, k, h2, (a + 1) / 2 - 1, by omega, ?_⟩
    rw [show (a + 1) / 2 - 1 + 1 = (a + 1) / 2 by omega]
    rcases Nat.mod_two_eq_zero_or_one a with hp | hp
    · rw [show 2 * ((a + 1) / 2) = a by omega]
      rcases hcj with hcj | hcj
      · right; right; left; rw [← hcj]; exact e
      · right; right; right; rw [← hcj]; exact e
    · rw [show 2 * ((a + 1) / 2) - 1 = a by omega]
      rcases hcj with hcj | hcj
      · left; rw [← hcj]; exact e
      · right; left; rw [← hcj]; exact e

/-- 2091-2105 -/
theorem radbgTw_ok (hip : 0 < ip) (hodd : ido % 2 = 1) (hw : TwOk wa ip ido) :
    radbgTw ido ip l1 wa (tab (ido * l1 * ip) (rows ido (bplain ip ido l1 Y)))
      = .ok (tab (ido * l1 * ip) (rows ido (bstage ip ido l1 Y))) := by
  have m1 : Maps (ido * l1 * ip) (rows ido (bplain ip ido l1 Y)) (rows ido (bstage ip ido l1 Y))
      (radbgTw ido ip l1 wa) (fun n => ∃ j, j < ip - 1 ∧ ∃ k, k < l1 ∧ ∃ i, i < (ido - 1) / 2 ∧
        (n = ix ido l1 (2 * (i + 1) - 1) k (j + 1) ∨ n = ix ido l1 (2 * (i + 1)) k (j + 1))) := by
    unfold radbgTw
    apply maps_forN
    · intro j hj
      apply maps_forN
      · intro k hk
        apply maps_forN
        · intro i0 hi0 S hS
          obtain ⟨c, hc⟩ : ∃ c, c = i0 + 1 := ⟨_, rfl⟩
          have hc0 : 0 < c := by omega
          have hc1 : 2 * c < ido := by omega
          simp only [← hc] at hS
          simp only [← hc, show 2 * i0 + 1 = 2 * c - 1 by omega, show 2 * c - 1 + 1 = 2 * c by omega,
            show j + 1 - 1 = j by omega, show 2 * i0 = 2 * c - 2 by omega,
            show 2 * c - 2 + 1 = 2 * c - 1 by omega, show 2 * c - 1 + 1 = 2 * c by omega, rwx_eq, rwx_succ hc0]
          have b1 : ix ido l1 (2 * c - 1) k (j + 1) < ido * l1 * ip := ix_lt (by omega) hk (by omega)
          have b2 : ix ido l1 (2 * c) k (j + 1) < ido * l1 * ip := ix_lt (by omega) hk (by omega)
          obtain ⟨w1, w2⟩ := hw j c (by omega) hc0 hc1
          rw [ld_mix_old b1 (hS _ b1 (by tauto)), Out.ok_bind, ld_mix_old b2 (hS _ b2 (by tauto)), Out.ok_bind,
            w1, Out.ok_bind, w2, Out.ok_bind, rows_short (by omega), rows_short (by omega),
            enc_re hc0 rfl, enc_im hc0 rfl]
          have ebs : bstage ip ido l1 Y (k + l1 * (j + 1)) c
              = w false (ido * ip) ((j + 1) * c) * bplain ip ido l1 Y (k + l1 * (j + 1)) c := by
            rw [bstage_at hk, bplain_at hk, Nat.mul_comm c]
          rw [st_mix b1, Out.ok_bind, st_mix b2]
          · congr 1
            apply mix_congr
            intro n _
            tauto
          · rw [rows_short (by omega), enc_im hc0 rfl, ebs, Complex.mul_im]
          · rw [rows_short (by omega), enc_re hc0 rfl, ebs, Complex.mul_re]
        · rintro i i' n hi hi' _ h1 h2
          rcases h1 with h1 | h1 <;> rcases h2 with h2 | h2 <;>
            (have := (ix_inj (by omega) hk (by omega) hk (h1.symm.trans h2)).1; omega)
      · rintro k k' n hk hk' _ ⟨i, hi, h1⟩ ⟨i', hi', h2⟩
        rcases h1 with h1 | h1 <;> rcases h2 with h2 | h2 <;>
          exact (ix_inj (by omega) hk (by omega) hk' (h1.symm.trans h2)).2.1
    · rintro j j' n hj hj' _ ⟨k, hk, i, hi, h1⟩ ⟨k', hk', i', hi', h2⟩
      rcases h1 with h1 | h1 <;> rcases h2 with h2 | h2 <;>
        (have := (ix_inj (by omega) hk (by omega) hk' (h1.symm.trans h2)).2.2; omega)
  rw [maps_all m1]
  congr 1
  unfold mix
  apply tab_congr
  intro n hn
  split
  · rfl
  · rename_i hT
    obtain ⟨h1, h2, h3⟩ := ix_cases hn
    have e : n = ix ido l1 (n % ido) (n / ido % l1) (n / ido / l1) := ix_eq.symm
    generalize n % ido = a at h1 e
    generalize n / ido % l1 = k at h2 e
    generalize n / ido / l1 = c at h3 e
    have hz : a = 0 ∨ c = 0 := by
      by_contra hne
      push Not at hne
      apply hT
      refine ⟨c - 1, by omega, k, h2, (a + 1) / 2 - 1, by omega, ?_⟩
      rw [show (a + 1) / 2 - 1 + 1 = (a + 1) / 2 by omega, show c - 1 + 1 = c by omega]
      rcases Nat.mod_two_eq_zero_or_one a with hp | hp
      · right; rw [show 2 * ((a + 1) / 2) = a by omega]; exact e
      · left; rw [show 2 * ((a + 1) / 2) - 1 = a by omega]; exact e
    rw [e, rows_short h1, rows_short h1]
    rcases hz with hz | hz
    · subst hz
      rw [enc_zero, enc_zero, bstage_at h2, bplain_at h2, Nat.zero_mul, w_zero, one_mul]
    · subst hz
      have : ∀ m, bplain ip ido l1 Y (k + l1 * 0) m = bstage ip ido l1 Y (k + l1 * 0) m := by
        intro m
        rw [bstage_at h2, bplain_at h2, Nat.mul_zero, w_zero, one_mul]
      unfold enc
      simp only [this]

/-- The generic backward radix. -/
theorem radbg_ok (hp : ip.Prime) (h7 : 7 ≤ ip) (hido : 0 < ido) (hodd : ido % 2 = 1)
    (hY : ∀ k, Herm (ido * ip) (Y k)) (hw : TwOk wa ip ido) {ch : List ℝ} (hc : ch.length = ido * ip * l1) :
    ∃ cc', cc'.length = ido * ip * l1 ∧
      radbg ido ip l1 (tab (ido * ip * l1) (rows (ido * ip) Y)) ch wa (tab (2 * ip) (csT ip))
        = .ok (cc', tab (ido * ip * l1) (rows ido (bstage ip ido l1 Y))) := by
  obtain ⟨h, hh⟩ : ∃ h, ip = 2 * h + 1 := by
    rcases hp.eq_two_or_odd with e | e
    · omega
    · exact ⟨ip / 2, by omega⟩
  have e : ido * ip * l1 = ido * l1 * ip := by ring
  unfold radbg
  rw [radbgFold_ok hh hido hodd hY (hc.trans e), Out.ok_bind]
  have fp := fills_forN (m := (ip + 1) / 2 - 1) (fun l0 hl0 => radgPair_fills (ido := ido) (l1 := l1)
    (Z := bfold ip ido Y) true (l := l0 + 1) hp hh (by omega) (by omega) (by omega))
  obtain ⟨cc', c1, c2⟩ := fp (fun _ => False) (tab (ido * ip * l1) (rows (ido * ip) Y))
    ⟨by simp [e], fun _ _ q => q.elim⟩
  have c3 : Filled (ido * l1 * ip) (colV ido ip l1 (fun k m => lin ip h (bfold ip ido Y k m)))
      (fun n => n / (ido * l1) ≠ 0) cc' := by
    apply c2.mono
    intro n hn hne
    right
    obtain ⟨h1, h3, h4⟩ := col_eq hn
    obtain ⟨c, hc⟩ : ∃ c, c = n / (ido * l1) := ⟨_, rfl⟩
    simp only [← hc] at h3 hne ⊢
    by_cases e1 : 2 * c < ip
    · exact ⟨c - 1, by omega, Or.inl (by omega)⟩
    · exact ⟨ip - c - 1, by omega, Or.inr (by omega)⟩
  rw [c1, Out.ok_bind]
  obtain ⟨ch1, z1, z2⟩ := radbgZero_ok (ido := ido) (l1 := l1) (Y := Y) hh
  rw [z1, Out.ok_bind]
  obtain ⟨ch2, o1, o2⟩ := radbgOut_fills hh hido hodd hY c3 _ ch1 z2
  rw [o1, Out.ok_bind, eq_tab o2.1 (fun n hn => o2.2 n hn (em _)), radbgTw_ok hp.pos hodd hw, Out.ok_bind]
  exact ⟨cc', by rw [c2.1, e], by rw [e]; rfl⟩

end bwd

end Verif.Pocket
