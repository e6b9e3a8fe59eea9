import Verif.Lemmas.PocketRows
import Verif.Lemmas.PocketGeneric

/-! # The generic radix of the transforms of real data: a pair of columns -/

set_option linter.unusedSimpArgs false
set_option linter.unusedSectionVars false
set_option linter.unusedVariables false
set_option linter.unreachableTactic false
set_option linter.unusedTactic false
set_option linter.unnecessarySeqFocus false

namespace Verif.Pocket
open Complex

/-- The table of cosines and sines: 2218-2227. -/
noncomputable def csT (ip n : ℕ) : ℝ := if n % 2 = 0 then cR ip (n / 2) else cI false ip (n / 2)

theorem csT_even (ip m : ℕ) : csT ip (2 * m) = cR ip m := by
  unfold csT
  rw [if_pos (by omega), show 2 * m / 2 = m by omega]

theorem csT_odd (ip m : ℕ) : csT ip (2 * m + 1) = cI false ip m := by
  unfold csT
  rw [if_neg (by omega), show (2 * m + 1) / 2 = m by omega]

/-- terms below `j` of the cosine sum -/
noncomputable def rp (ip : ℕ) (H : ℕ → ℝ) (l j : ℕ) : ℝ :=
  H 0 + ∑ m ∈ Finset.range (j - 1), cR ip (l * (m + 1)) * H (m + 1)

/-- terms below `j` of the sine sum -/
noncomputable def rq (ip : ℕ) (H : ℕ → ℝ) (l j : ℕ) : ℝ :=
  ∑ m ∈ Finset.range (j - 1), cI false ip (l * (m + 1)) * H (ip - (m + 1))

theorem rp_three {ip l : ℕ} {H : ℕ → ℝ} : rp ip H l 3 = H 0 + cR ip l * H 1 + cR ip (2 * l) * H 2 := by
  simp [rp, Finset.sum_range_succ, Nat.mul_comm l 2]
  ring

theorem rq_three {ip l : ℕ} {H : ℕ → ℝ} : rq ip H l 3
    = cI false ip l * H (ip - 1) + cI false ip (2 * l) * H (ip - 2) := by
  simp [rq, Finset.sum_range_succ, Nat.mul_comm l 2]

theorem rp_succ {ip l j : ℕ} {H : ℕ → ℝ} (hj : 0 < j) : rp ip H l (j + 1)
    = rp ip H l j + cR ip (l * j % ip) * H j := by
  obtain ⟨j, rfl⟩ : ∃ i, j = i + 1 := ⟨j - 1, by omega⟩
  rw [← cR_mod]
  simp [rp, Finset.sum_range_succ]
  ring

theorem rq_succ {ip l j : ℕ} {H : ℕ → ℝ} (hj : 0 < j) : rq ip H l (j + 1)
    = rq ip H l j + cI false ip (l * j % ip) * H (ip - j) := by
  obtain ⟨j, rfl⟩ : ∃ i, j = i + 1 := ⟨j - 1, by omega⟩
  rw [← cI_mod]
  simp [rq, Finset.sum_range_succ]

section pair
variable {ip h d l : ℕ} {H B : ℕ → ℝ}

/-- The buffer when the terms below `j` have been added. -/
noncomputable def rpairV (ip d l : ℕ) (H : ℕ → ℝ) (B : ℕ → ℝ) (j n : ℕ) : ℝ :=
  if n / d = l then rp ip (fun c => H (n % d + d * c)) l j
  else if n / d = ip - l then rq ip (fun c => H (n % d + d * c)) l j else B n

theorem rpairV_l {j ik : ℕ} (hk : ik < d) :
    rpairV ip d l H B j (ik + d * l) = rp ip (fun c => H (ik + d * c)) l j := by
  unfold rpairV
  rw [col_div hk, col_mod hk, if_pos rfl]

theorem rpairV_lc {j ik : ℕ} (hk : ik < d) (hl : l ≠ ip - l) :
    rpairV ip d l H B j (ik + d * (ip - l)) = rq ip (fun c => H (ik + d * c)) l j := by
  unfold rpairV
  rw [col_div hk, col_mod hk, if_neg (Ne.symm hl), if_pos rfl]

theorem rmix_pair {C : ℕ → ℝ} {j : ℕ}
    (hC : ∀ n, n < d * ip → ¬ (n / d = l) → ¬ (n / d = ip - l) → C n = B n) :
    mix (d * ip) C (rpairV ip d l H B j) (fun n => ∃ ik, ik < d ∧ (n = ik + d * l ∨ n = ik + d * (ip - l)))
      = tab (d * ip) (rpairV ip d l H B j) := by
  unfold mix
  apply tab_congr
  intro n hn
  split
  · rfl
  · rename_i hT
    have hT' : ¬ (n / d = l ∨ n / d = ip - l) := fun h => hT ((pairT_iff (by omega)).mpr h)
    push Not at hT'
    rw [hC n hn hT'.1 hT'.2]
    unfold rpairV
    rw [if_neg hT'.1, if_neg hT'.2]

theorem rpair_maps (hl0 : 0 < l) (hl : 2 * l < ip) {C V : ℕ → ℝ}
    {f : ℕ → List ℝ → Out (List ℝ)}
    (hf : ∀ ik, ik < d → Maps (d * ip) C V (f ik) (fun n => n = ik + d * l ∨ n = ik + d * (ip - l))) :
    Maps (d * ip) C V (forN d f) (fun n => ∃ ik, ik < d ∧ (n = ik + d * l ∨ n = ik + d * (ip - l))) := by
  apply maps_forN hf
  intro k k' n hk hk' _ h1 h2
  rcases h1 with h1 | h1 <;> rcases h2 with h2 | h2 <;> exact (col_inj hk hk' (h1.symm.trans h2)).1

theorem radgStart_ok (h3 : 3 ≤ ip) (hl0 : 0 < l) (hl : 2 * l < ip) :
    radgStart ip d l (tab (2 * ip) (csT ip)) (tab (d * ip) H) (tab (d * ip) B)
      = .ok (tab (d * ip) (rpairV ip d l H B 3)) := by
  have key : Maps (d * ip) B (rpairV ip d l H B 3)
      (radgStart ip d l (tab (2 * ip) (csT ip)) (tab (d * ip) H))
      (fun n => ∃ ik, ik < d ∧ (n = ik + d * l ∨ n = ik + d * (ip - l))) := by
    unfold radgStart
    apply rpair_maps hl0 hl
    intro ik hk S hS
    simp only [ld_tab (show 2 * l < 2 * ip by omega), ld_tab (show 4 * l < 2 * ip by omega),
      ld_tab (show 2 * l + 1 < 2 * ip by omega), ld_tab (show 4 * l + 1 < 2 * ip by omega),
      ld_tab (col_lt hk (show 0 < ip by omega)), ld_tab (col_lt hk (show 1 < ip by omega)),
      ld_tab (col_lt hk (show 2 < ip by omega)), ld_tab (col_lt hk (show ip - 1 < ip by omega)),
      ld_tab (col_lt hk (show ip - 2 < ip by omega)), Out.ok_bind]
    have e4 : 4 * l = 2 * (2 * l) := by ring
    rw [st_mix (col_lt hk (by omega)), Out.ok_bind, st_mix (col_lt hk (by omega))]
    · congr 1
      apply mix_congr
      intro n _
      tauto
    · rw [rpairV_lc hk (by omega), rq_three, csT_odd, e4, csT_odd]
    · rw [rpairV_l hk, rp_three, csT_even, e4, csT_even]
  rw [maps_all key, rmix_pair]
  intros; rfl

theorem radgOne_ok {j : ℕ} (hj0 : 0 < j) (hj : 2 * j < ip) (hl0 : 0 < l) (hl : 2 * l < ip) :
    radgOne ip d l j (ip - j) (w false ip (l * j % ip)) (tab (d * ip) H)
      (tab (d * ip) (rpairV ip d l H B j)) = .ok (tab (d * ip) (rpairV ip d l H B (j + 1))) := by
  have key : Maps (d * ip) (rpairV ip d l H B j) (rpairV ip d l H B (j + 1))
      (radgOne ip d l j (ip - j) (w false ip (l * j % ip)) (tab (d * ip) H))
      (fun n => ∃ ik, ik < d ∧ (n = ik + d * l ∨ n = ik + d * (ip - l))) := by
    unfold radgOne
    apply rpair_maps hl0 hl
    intro ik hk S hS
    have n1 : ¬ S (ik + d * l) := hS _ (col_lt hk (by omega)) (Or.inl rfl)
    have n2 : ¬ (S (ik + d * (ip - l)) ∨ ik + d * (ip - l) = ik + d * l) := by
      rintro (h' | h')
      · exact hS _ (col_lt hk (by omega)) (Or.inr rfl) h'
      · have := (col_inj hk hk h').2
        omega
    simp only []
    rw [ld_mix_old (col_lt hk (by omega)) n1, Out.ok_bind, ld_tab (col_lt hk (by omega)), Out.ok_bind,
      st_mix (col_lt hk (by omega)), Out.ok_bind,
      ld_mix_old (col_lt hk (by omega)) n2, Out.ok_bind, ld_tab (col_lt hk (by omega)), Out.ok_bind,
      st_mix (col_lt hk (by omega))]
    · congr 1
      apply mix_congr
      intro n _
      tauto
    · rw [rpairV_lc hk (by omega), rpairV_lc hk (by omega), rq_succ hj0]
      rfl
    · rw [rpairV_l hk, rpairV_l hk, rp_succ hj0]
      rfl
  rw [maps_all key, rmix_pair]
  intro n hn h1 h2
  unfold rpairV
  rw [if_neg h1, if_neg h2]

theorem radgTwo_ok {j : ℕ} (hj0 : 0 < j) (hj : 2 * (j + 1) < ip) (hl0 : 0 < l) (hl : 2 * l < ip) :
    radgTwo ip d l j (ip - j) (w false ip (l * j % ip)) (w false ip (l * (j + 1) % ip)) (tab (d * ip) H)
      (tab (d * ip) (rpairV ip d l H B j)) = .ok (tab (d * ip) (rpairV ip d l H B (j + 2))) := by
  have key : Maps (d * ip) (rpairV ip d l H B j) (rpairV ip d l H B (j + 2))
      (radgTwo ip d l j (ip - j) (w false ip (l * j % ip)) (w false ip (l * (j + 1) % ip)) (tab (d * ip) H))
      (fun n => ∃ ik, ik < d ∧ (n = ik + d * l ∨ n = ik + d * (ip - l))) := by
    unfold radgTwo
    apply rpair_maps hl0 hl
    intro ik hk S hS
    have n1 : ¬ S (ik + d * l) := hS _ (col_lt hk (by omega)) (Or.inl rfl)
    have n2 : ¬ (S (ik + d * (ip - l)) ∨ ik + d * (ip - l) = ik + d * l) := by
      rintro (h' | h')
      · exact hS _ (col_lt hk (by omega)) (Or.inr rfl) h'
      · have := (col_inj hk hk h').2
        omega
    simp only []
    rw [ld_mix_old (col_lt hk (by omega)) n1, Out.ok_bind, ld_tab (col_lt hk (by omega)), Out.ok_bind,
      ld_tab (col_lt hk (by omega)), Out.ok_bind, st_mix (col_lt hk (by omega)), Out.ok_bind,
      ld_mix_old (col_lt hk (by omega)) n2, Out.ok_bind, ld_tab (col_lt hk (by omega)), Out.ok_bind,
      ld_tab (col_lt hk (by omega)), Out.ok_bind, st_mix (col_lt hk (by omega))]
    · congr 1
      apply mix_congr
      intro n _
      tauto
    · rw [rpairV_lc hk (by omega), rpairV_lc hk (by omega), rq_succ (j := j + 1) (by omega), rq_succ hj0,
        show ip - (j + 1) = ip - j - 1 by omega]
      simp only [w]
      ring
    · rw [rpairV_l hk, rpairV_l hk, rp_succ (j := j + 1) (by omega), rp_succ hj0]
      simp only [w]
      ring
  rw [maps_all key, rmix_pair]
  intro n hn h1 h2
  unfold rpairV
  rw [if_neg h1, if_neg h2]

theorem radgFour_ok {j : ℕ} (hj0 : 0 < j) (hj : 2 * (j + 3) < ip) (hl0 : 0 < l) (hl : 2 * l < ip) :
    radgFour ip d l j (ip - j) (w false ip (l * j % ip)) (w false ip (l * (j + 1) % ip))
      (w false ip (l * (j + 2) % ip)) (w false ip (l * (j + 3) % ip)) (tab (d * ip) H)
      (tab (d * ip) (rpairV ip d l H B j)) = .ok (tab (d * ip) (rpairV ip d l H B (j + 4))) := by
  have key : Maps (d * ip) (rpairV ip d l H B j) (rpairV ip d l H B (j + 4))
      (radgFour ip d l j (ip - j) (w false ip (l * j % ip)) (w false ip (l * (j + 1) % ip))
        (w false ip (l * (j + 2) % ip)) (w false ip (l * (j + 3) % ip)) (tab (d * ip) H))
      (fun n => ∃ ik, ik < d ∧ (n = ik + d * l ∨ n = ik + d * (ip - l))) := by
    unfold radgFour
    apply rpair_maps hl0 hl
    intro ik hk S hS
    have n1 : ¬ S (ik + d * l) := hS _ (col_lt hk (by omega)) (Or.inl rfl)
    have n2 : ¬ (S (ik + d * (ip - l)) ∨ ik + d * (ip - l) = ik + d * l) := by
      rintro (h' | h')
      · exact hS _ (col_lt hk (by omega)) (Or.inr rfl) h'
      · have := (col_inj hk hk h').2
        omega
    simp only []
    rw [ld_mix_old (col_lt hk (by omega)) n1, Out.ok_bind, ld_tab (col_lt hk (by omega)), Out.ok_bind,
      ld_tab (col_lt hk (by omega)), Out.ok_bind, ld_tab (col_lt hk (by omega)), Out.ok_bind,
      ld_tab (col_lt hk (by omega)), Out.ok_bind, st_mix (col_lt hk (by omega)), Out.ok_bind,
      ld_mix_old (col_lt hk (by omega)) n2, Out.ok_bind, ld_tab (col_lt hk (by omega)), Out.ok_bind,
      ld_tab (col_lt hk (by omega)), Out.ok_bind, ld_tab (col_lt hk (by omega)), Out.ok_bind,
      ld_tab (col_lt hk (by omega)), Out.ok_bind, st_mix (col_lt hk (by omega))]
    · congr 1
      apply mix_congr
      intro n _
      tauto
    · rw [rpairV_lc hk (by omega), rpairV_lc hk (by omega), rq_succ (j := j + 3) (by omega),
        rq_succ (j := j + 2) (by omega), rq_succ (j := j + 1) (by omega), rq_succ hj0,
        show ip - (j + 1) = ip - j - 1 by omega, show ip - (j + 2) = ip - j - 2 by omega,
        show ip - (j + 3) = ip - j - 3 by omega]
      simp only [w]
      ring
    · rw [rpairV_l hk, rpairV_l hk, rp_succ (j := j + 3) (by omega),
        rp_succ (j := j + 2) (by omega), rp_succ (j := j + 1) (by omega), rp_succ hj0]
      simp only [w]
      ring
  rw [maps_all key, rmix_pair]
  intro n hn h1 h2
  unfold rpairV
  rw [if_neg h1, if_neg h2]

theorem radgAngle_ok (strict : Bool) {j : ℕ} (hp : ip.Prime) (hl0 : 0 < l) (hl : l < ip) (hj0 : 0 < j)
    (hj : j + 1 < ip) :
    radgAngle strict ip l (l * j % ip) (tab (2 * ip) (csT ip))
      = .ok (l * (j + 1) % ip, w false ip (l * (j + 1) % ip)) := by
  have h1 : l * j % ip < ip := Nat.mod_lt _ hp.pos
  have h2 : l * (j + 1) % ip ≠ 0 := by
    intro h0
    rcases (Nat.Prime.dvd_mul hp).mp (Nat.dvd_of_mod_eq_zero h0) with h | h
    · exact absurd (Nat.le_of_dvd hl0 h) (by omega)
    · exact absurd (Nat.le_of_dvd (by omega) h) (by omega)
  have h3 : l * (j + 1) % ip = (l * j % ip + l) % ip := by
    rw [Nat.mul_succ, Nat.mod_add_mod]
  have e : (if (if strict then l * j % ip + l > ip else l * j % ip + l ≥ ip) then l * j % ip + l - ip
      else l * j % ip + l) = l * (j + 1) % ip := by
    rw [h3] at h2 ⊢
    obtain ⟨r, hr⟩ : ∃ r, r = l * j % ip := ⟨_, rfl⟩
    rw [← hr] at h1 h2 ⊢
    have hne : r + l ≠ ip := by
      intro e; rw [e] at h2; simp at h2
    by_cases hgt : r + l ≥ ip
    · rw [if_pos (by cases strict <;> simp <;> omega), Nat.mod_eq_sub_mod hgt, Nat.mod_eq_of_lt (by omega)]
    · rw [if_neg (by cases strict <;> simp <;> omega), Nat.mod_eq_of_lt (by omega)]
  have h4 : l * (j + 1) % ip < ip := Nat.mod_lt _ hp.pos
  unfold radgAngle
  simp only [e]
  rw [ld_tab (by omega), Out.ok_bind, ld_tab (by omega), Out.ok_bind, csT_even, csT_odd]
  rfl

theorem radgPair_ok (strict : Bool) (hp : ip.Prime) (hh : ip = 2 * h + 1) (h2 : 3 ≤ h) (hl0 : 0 < l)
    (hl : 2 * l < ip) :
    radgPair strict ip d l (tab (2 * ip) (csT ip)) (tab (d * ip) H) (tab (d * ip) B)
      = .ok (tab (d * ip) (rpairV ip d l H B (h + 1))) := by
  unfold radgPair
  have hph : (ip + 1) / 2 = h + 1 := by omega
  simp only [hph]
  rw [radgStart_ok (by omega) hl0 hl, Out.ok_bind]
  have ang : ∀ j, 1 < j → j < ip → radgAngle strict ip l (l * (j - 1) % ip) (tab (2 * ip) (csT ip))
      = .ok (l * j % ip, w false ip (l * j % ip)) := by
    intro j h1 h2
    have := radgAngle_ok strict (l := l) (j := j - 1) hp hl0 (by omega) (by omega) (by omega)
    rwa [Nat.sub_add_cancel (by omega)] at this
  let Inv : RState → Prop := fun s => 3 ≤ s.j ∧ s.j ≤ h + 1 ∧ s.jc = ip - s.j ∧ s.iang = l * (s.j - 1) % ip ∧
    s.dst = tab (d * ip) (rpairV ip d l H B s.j)
  obtain ⟨s0, e0, i0, -⟩ := whileN_measure (cond := fun s : RState => decide (s.j < h + 1 - 3))
    (body := fun s => do
      let a1 ← radgAngle strict ip l s.iang (tab (2 * ip) (csT ip))
      let a2 ← radgAngle strict ip l a1.1 (tab (2 * ip) (csT ip))
      let a3 ← radgAngle strict ip l a2.1 (tab (2 * ip) (csT ip))
      let a4 ← radgAngle strict ip l a3.1 (tab (2 * ip) (csT ip))
      let dst ← radgFour ip d l s.j s.jc a1.2 a2.2 a3.2 a4.2 (tab (d * ip) H) s.dst
      pure (⟨s.j + 4, s.jc - 4, a4.1, dst⟩ : RState)) Inv (fun s => h + 1 - s.j) (by
    rintro ⟨j, jc, iang, dst⟩ ⟨a1, a2, a3, a4, a5⟩ hc
    simp only [] at a1 a2 a3 a4 a5
    simp only [decide_eq_true_eq] at hc
    subst a3 a4 a5
    simp only []
    rw [ang j (by omega) (by omega), Out.ok_bind]
    simp only []
    rw [radgAngle_ok strict hp hl0 (by omega) (by omega) (by omega), Out.ok_bind]
    simp only []
    rw [radgAngle_ok strict hp hl0 (by omega) (by omega) (by omega), Out.ok_bind]
    simp only []
    rw [radgAngle_ok strict hp hl0 (by omega) (by omega) (by omega), Out.ok_bind]
    simp only []
    rw [radgFour_ok (by omega) (by omega) hl0 hl, Out.ok_bind]
    refine ⟨_, rfl, ⟨?_, ?_, ?_, ?_, rfl⟩, ?_⟩ <;> simp only []
    · omega
    · omega
    · omega
    · rw [show j + 4 - 1 = j + 3 by omega]
    · omega) (ip + 1) ⟨3, ip - 3, 2 * l, tab (d * ip) (rpairV ip d l H B 3)⟩ (by simp only []; omega)
    ⟨le_rfl, by simp only []; omega, rfl, by simp only []; rw [Nat.mul_comm, Nat.mod_eq_of_lt (by omega)], rfl⟩
  rw [e0, Out.ok_bind]
  obtain ⟨s1, e1, i1, -⟩ := whileN_measure (cond := fun s : RState => decide (s.j < h + 1 - 1))
    (body := fun s => do
      let a1 ← radgAngle strict ip l s.iang (tab (2 * ip) (csT ip))
      let a2 ← radgAngle strict ip l a1.1 (tab (2 * ip) (csT ip))
      let dst ← radgTwo ip d l s.j s.jc a1.2 a2.2 (tab (d * ip) H) s.dst
      pure (⟨s.j + 2, s.jc - 2, a2.1, dst⟩ : RState)) Inv (fun s => h + 1 - s.j) (by
    rintro ⟨j, jc, iang, dst⟩ ⟨a1, a2, a3, a4, a5⟩ hc
    simp only [] at a1 a2 a3 a4 a5
    simp only [decide_eq_true_eq] at hc
    subst a3 a4 a5
    simp only []
    rw [ang j (by omega) (by omega), Out.ok_bind]
    simp only []
    rw [radgAngle_ok strict hp hl0 (by omega) (by omega) (by omega), Out.ok_bind]
    simp only []
    rw [radgTwo_ok (by omega) (by omega) hl0 hl, Out.ok_bind]
    refine ⟨_, rfl, ⟨?_, ?_, ?_, ?_, rfl⟩, ?_⟩ <;> simp only []
    · omega
    · omega
    · omega
    · rw [show j + 2 - 1 = j + 1 by omega]
    · omega) (ip + 1) s0 (by obtain ⟨a1, a2, _⟩ := i0; omega) i0
  rw [e1, Out.ok_bind]
  obtain ⟨s2, e2, i2, c2⟩ := whileN_measure (cond := fun s : RState => decide (s.j < h + 1))
    (body := fun s => do
      let a ← radgAngle strict ip l s.iang (tab (2 * ip) (csT ip))
      let dst ← radgOne ip d l s.j s.jc a.2 (tab (d * ip) H) s.dst
      pure (⟨s.j + 1, s.jc - 1, a.1, dst⟩ : RState)) Inv (fun s => h + 1 - s.j) (by
    rintro ⟨j, jc, iang, dst⟩ ⟨a1, a2, a3, a4, a5⟩ hc
    simp only [] at a1 a2 a3 a4 a5
    simp only [decide_eq_true_eq] at hc
    subst a3 a4 a5
    simp only []
    rw [ang j (by omega) (by omega), Out.ok_bind]
    simp only []
    rw [radgOne_ok (by omega) (by omega) hl0 hl, Out.ok_bind]
    refine ⟨_, rfl, ⟨?_, ?_, ?_, ?_, rfl⟩, ?_⟩ <;> simp only []
    · omega
    · omega
    · omega
    · rw [show j + 1 - 1 = j by omega]
    · omega) (ip + 1) s1 (by obtain ⟨a1, a2, _⟩ := i1; omega) i1
  rw [e2, Out.ok_bind]
  obtain ⟨a1, a2, a3, a4, a5⟩ := i2
  have : s2.j = h + 1 := by
    simp only [decide_eq_false_iff_not] at c2
    omega
  rw [a5, this]
  rfl

end pair

end Verif.Pocket
