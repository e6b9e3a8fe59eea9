import Verif.Lemmas.PocketRPlan
import Verif.Lemmas.PocketBlue
import Verif.Lemmas.FFT

/-! # Transforms of real data: the chirp plan and the entry points -/

set_option linter.unusedSimpArgs false
set_option linter.unusedSectionVars false
set_option linter.unusedVariables false

namespace Verif.Pocket
open Complex

/-! ### the spectrum that the non-redundant bins stand for -/

/-- Bins `0 .. n/2` of `Z`, the other ones by symmetry; the bins that must be real are taken to be real. -/
noncomputable def hx (n : ℕ) (Z : ℕ → ℂ) (κ : ℕ) : ℂ :=
  if κ % n = 0 then ((Z 0).re : ℂ)
  else if 2 * (κ % n) < n then Z (κ % n)
  else if 2 * (κ % n) = n then ((Z (κ % n)).re : ℂ)
  else (starRingEnd ℂ) (Z (n - κ % n))

theorem hx_zero (n : ℕ) (Z : ℕ → ℂ) : hx n Z 0 = ((Z 0).re : ℂ) := by simp [hx]

theorem hx_low {n c : ℕ} {Z : ℕ → ℂ} (h0 : 0 < c) (h : 2 * c < n) : hx n Z c = Z c := by
  unfold hx
  rw [Nat.mod_eq_of_lt (by omega), if_neg (by omega), if_pos h]

theorem hx_mid {n c : ℕ} {Z : ℕ → ℂ} (h0 : 0 < c) (h : 2 * c = n) : hx n Z c = ((Z c).re : ℂ) := by
  unfold hx
  rw [Nat.mod_eq_of_lt (by omega), if_neg (by omega), if_neg (by omega), if_pos h]

theorem hx_herm {n : ℕ} (hn : 0 < n) (Z : ℕ → ℂ) : Herm n (hx n Z) := by
  constructor
  · intro c
    unfold hx
    rw [Nat.add_mod_right]
  · intro c hc
    by_cases h0 : c = 0
    · subst h0
      unfold hx
      simp
    by_cases hn' : c = n
    · subst hn'
      unfold hx
      simp
    unfold hx
    rw [Nat.mod_eq_of_lt (show n - c < n by omega), Nat.mod_eq_of_lt (show c < n by omega), if_neg (by omega), if_neg h0]
    by_cases h1 : 2 * c < n
    · rw [if_neg (by omega), if_neg (by omega), if_pos h1, show n - (n - c) = c by omega]
    · rw [if_neg h1]
      by_cases h2 : 2 * c = n
      · rw [if_neg (by omega), if_pos (by omega), if_pos h2, show n - c = c by omega]
        simp
      · rw [if_pos (by omega), if_neg h2]
        simp

theorem w_half {n : ℕ} (h : n % 2 = 0) (hn : 0 < n) (j : ℕ) : w false n (j * (n / 2)) = (-1) ^ j := by
  have e : n = 2 * (n / 2) := by omega
  have hp : 0 < n / 2 := by omega
  rw [show w false n (j * (n / 2)) = w false (2 * (n / 2)) (j * (n / 2)) by rw [← e], w_scale false hp]
  induction j with
  | zero => simp [w_zero]
  | succ j ih =>
    rw [w_add, ih, pow_succ]
    congr 1
    apply Complex.ext
    · simp [w, cR]
    · simp [w, cI]

/-- The inverse sums in terms of the non-redundant bins. -/
theorem idft_hx {n : ℕ} (hn : 0 < n) (Z : ℕ → ℂ) (j : ℕ) :
    (idft n (hx n Z) j).re = (Z 0).re + 2 * ∑ k ∈ Finset.range ((n - 1) / 2), (Z (k + 1) * w false n (j * (k + 1))).re
      + if n % 2 = 0 then (Z (n / 2)).re * (-1) ^ j else 0 := by
  unfold idft
  rw [Complex.re_sum, sum_mirror n (by omega)]
  · congr 1
    · congr 1
      · rw [hx_zero, Nat.mul_zero, w_zero]; simp
      · congr 1
        apply Finset.sum_congr rfl
        intro k hk
        have := Finset.mem_range.mp hk
        rw [hx_low (by omega) (by omega)]
    · split
      · rename_i h
        rw [hx_mid (by omega) (by omega), w_half h hn, Complex.re_ofReal_mul]
        congr 1
        have : ((-1 : ℂ) ^ j) = (((-1 : ℝ) ^ j : ℝ) : ℂ) := by push_cast; rfl
        rw [this, Complex.ofReal_re]
      · rfl
  · intro k h0 hk
    rw [(hx_herm hn Z).2 k hk.le, Nat.mul_sub, w_sub false (Nat.mul_le_mul_left _ hk.le), Nat.mul_comm j n, w_mul_self,
      one_mul, ← conj_w false, ← map_mul, Complex.conj_re]

/-! ### Bluestein -/

theorem fills_pure' {α : Type} {L : ℕ} {V : ℕ → α} : Fills L V (fun ch => pure ch) (fun _ => False) := by
  intro S ch hc
  exact ⟨ch, rfl, hc.mono (by rintro n _ (h | h); exact h; exact h.elim)⟩

theorem execRF_ok {n : ℕ} {p : Blue} (hn : 0 < n) (hp : GoodBlue n p) (fct : ℝ) (x : ℕ → ℝ) (junk : ℕ → ℂ) :
    p.execRF (tab n x) fct junk = .ok (tab n (fun i => fct * enc (rdft n x) i)) := by
  unfold Blue.execRF
  have hpn : p.n = n := hp.1
  rw [ld_tab hn, Out.ok_bind, hpn]
  have s1 : forN n (fun m tmp => do
      let v ← ld (tab n x) m
      st tmp m (⟨v, 0 * x 0⟩ : ℂ)) (fresh junk n) = .ok (tab n (fun m => (x m : ℂ))) := by
    refine fills_all (fills_forN (T := fun k i => i = k) ?_) (fun i hi => ⟨i, hi, rfl⟩) (fresh_length _ _)
    intro m hm
    simp only [ld_tab hm, Out.ok_bind]
    refine fills_st hm ?_
    rw [zero_mul]
    rfl
  simp only [s1, Out.ok_bind]
  rw [blue_exec_ok hn hp, Out.ok_bind, ld_tab hn, Out.ok_bind]
  have ef : ∀ k, (∑ m ∈ Finset.range n, (x m : ℂ) * w true n (m * k)) * (fct : ℂ) = rdft n x k * (fct : ℂ) := fun _ => rfl
  simp only [ef]
  have key : Fills n (fun i => fct * enc (rdft n x) i) (fun c => do
      let c ← st c 0 (rdft n x 0 * (fct : ℂ)).re
      forN (n - 1) (fun i c => do
        let v ← flatRe (tab n (fun k => rdft n x k * (fct : ℂ))) (2 + i)
        st c (1 + i) v) c) (fun k => k = 0 ∨ ∃ i, i < n - 1 ∧ k = 1 + i) := by
    apply fills_st_bind hn
    · rw [enc_zero]; simp [mul_comm]
    apply fills_forN
    intro i hi
    have hlt : (2 + i) / 2 < n := by omega
    have hv : flatRe (tab n (fun k => rdft n x k * (fct : ℂ))) (2 + i) = .ok (fct * enc (rdft n x) (1 + i)) := by
      unfold flatRe
      rw [ld_tab hlt, Out.ok_bind, Out.pure_def]
      congr 1
      split
      · rw [enc_re (c := (2 + i) / 2) (by omega) (by omega)]; simp [mul_comm]
      · rw [enc_im (c := (2 + i) / 2) (by omega) (by omega)]; simp [mul_comm]
    simp only [hv, Out.ok_bind]
    exact fills_st (by omega) rfl
  exact fills_all key (fun k hk => by
    by_cases h : k = 0
    · exact Or.inl h
    · exact Or.inr ⟨k - 1, by omega, by omega⟩) (by simp)

theorem execRB_ok {n : ℕ} {p : Blue} (hn : 0 < n) (hp : GoodBlue n p) (fct : ℝ) {X : ℕ → ℂ} (hX : Herm n X) (junk : ℕ → ℂ) :
    p.execRB (tab n (enc X)) fct junk = .ok (tab n (fun i => fct * (idft n X i).re)) := by
  unfold Blue.execRB
  have hpn : p.n = n := hp.1
  rw [ld_tab hn, Out.ok_bind, hpn, fresh_tab, st_tab hn, Out.ok_bind]
  obtain ⟨T, hT⟩ : ∃ T : ℕ → ℕ → ℂ, T = fun i k => if k = 0 then X 0 else
      ⟨if 2 * k < 2 + i then (X k).re else (junk k).re, if 2 * k + 1 < 2 + i then (X k).im else (junk k).im⟩ := ⟨_, rfl⟩
  have t0 : tab n (Function.update junk 0 (⟨enc X 0, enc X 0 * 0⟩ : ℂ)) = tab n (T 0) := by
    apply tab_congr
    intro k hk
    rw [hT]
    simp only []
    by_cases h : k = 0
    · subst h
      rw [if_pos rfl, Function.update_self]
      apply Complex.ext
      · rfl
      · simp [hX.real0]
    · rw [if_neg h, Function.update_of_ne h, if_neg (by omega), if_neg (by omega)]
  have s1 := forN_tab (N := n) (body := fun i tmp => do
      let v ← ld (tab n (enc X)) (1 + i)
      let z ← ld tmp ((2 + i) / 2)
      st tmp ((2 + i) / 2) (if (2 + i) % 2 = 0 then (⟨v, z.im⟩ : ℂ) else ⟨z.re, v⟩)) T (n - 1) (by
    intro i hi
    have hlt : (2 + i) / 2 < n := by omega
    rw [ld_tab (show 1 + i < n by omega), Out.ok_bind, ld_tab hlt, Out.ok_bind, st_tab hlt]
    congr 1
    apply tab_congr
    intro k hk
    by_cases h : k = (2 + i) / 2
    · subst h
      have hk0 : ¬ (2 + i) / 2 = 0 := by omega
      rw [Function.update_self, hT]
      simp only [if_neg hk0]
      by_cases h2 : (2 + i) % 2 = 0
      · rw [if_pos h2, enc_re (c := (2 + i) / 2) (by omega) (by omega), if_pos (show 2 * ((2 + i) / 2) < 2 + (i + 1) by omega),
          if_neg (show ¬ 2 * ((2 + i) / 2) + 1 < 2 + i by omega), if_neg (show ¬ 2 * ((2 + i) / 2) + 1 < 2 + (i + 1) by omega)]
      · rw [if_neg h2, enc_im (c := (2 + i) / 2) (by omega) (by omega), if_pos (show 2 * ((2 + i) / 2) < 2 + (i + 1) by omega),
          if_pos (show 2 * ((2 + i) / 2) < 2 + i by omega),
          if_pos (show 2 * ((2 + i) / 2) + 1 < 2 + (i + 1) by omega)]
    · rw [Function.update_of_ne h, hT]
      simp only []
      by_cases hk0 : k = 0
      · rw [if_pos hk0, if_pos hk0]
      · rw [if_neg hk0, if_neg hk0]
        congr 1
        · by_cases q : 2 * k < 2 + i
          · rw [if_pos q, if_pos (by omega)]
          · rw [if_neg q, if_neg (by omega)]
        · by_cases q : 2 * k + 1 < 2 + i
          · rw [if_pos q, if_pos (by omega)]
          · rw [if_neg q, if_neg (by omega)])
  rw [t0, s1, Out.ok_bind]
  obtain ⟨U, hU⟩ : ∃ U : ℕ → ℕ → ℂ, U = fun m k => if 2 * k ≤ n ∨ n ≤ k + m then X k else T (n - 1) k := ⟨_, rfl⟩
  have s2 : (if n % 2 = 0 then do
      let z ← ld (tab n (T (n - 1))) (n / 2)
      st (tab n (T (n - 1))) (n / 2) (⟨z.re, 0 * enc X 0⟩ : ℂ)
    else pure (tab n (T (n - 1)))) = .ok (tab n (U 0)) := by
    have low : ∀ k, 2 * k < n → T (n - 1) k = X k := by
      intro k hk
      rw [hT]
      simp only []
      by_cases h : k = 0
      · rw [if_pos h, h]
      · rw [if_neg h, if_pos (by omega), if_pos (by omega)]
    split
    · rename_i he
      have hlt : n / 2 < n := by omega
      rw [ld_tab hlt, Out.ok_bind, st_tab hlt]
      congr 1
      apply tab_congr
      intro k hk
      rw [hU]
      simp only []
      by_cases h : k = n / 2
      · subst h
        rw [Function.update_self, if_pos (by omega), zero_mul, hT]
        simp only []
        rw [if_neg (by omega), if_pos (by omega)]
        apply Complex.ext
        · rfl
        · exact (hX.realMid (m := n / 2) (by omega)).symm
      · rw [Function.update_of_ne h]
        by_cases h2 : 2 * k ≤ n
        · rw [if_pos (by omega), low k (by omega)]
        · rw [if_neg (by omega)]
    · rename_i he
      rw [Out.pure_def]
      congr 1
      apply tab_congr
      intro k hk
      rw [hU]
      simp only []
      by_cases h2 : 2 * k ≤ n
      · rw [if_pos (by omega), low k (by omega)]
      · rw [if_neg (by omega)]
  rw [s2, Out.ok_bind]
  have s3 := forN_tab (N := n) (body := fun m0 tmp => do
      let m := m0 + 1
      let z ← ld tmp m
      st tmp (n - m) (⟨z.re, -z.im⟩ : ℂ)) U ((n - 1) / 2) (by
    intro m hm
    simp only []
    rw [ld_tab (show m + 1 < n by omega), Out.ok_bind, st_tab (show n - (m + 1) < n by omega)]
    congr 1
    apply tab_congr
    intro k hk
    by_cases h : k = n - (m + 1)
    · subst h
      rw [Function.update_self, hU]
      simp only []
      rw [if_pos (by omega), if_pos (by omega), hX.2 _ (by omega)]
      rfl
    · rw [Function.update_of_ne h, hU]
      simp only []
      by_cases q : 2 * k ≤ n ∨ n ≤ k + m
      · rw [if_pos q, if_pos (by omega)]
      · rw [if_neg q, if_neg (by omega)])
  simp only [] at s3 ⊢
  rw [s3, Out.ok_bind]
  have s4 : tab n (U ((n - 1) / 2)) = tab n X := by
    apply tab_congr
    intro k hk
    rw [hU]
    simp only []
    rw [if_pos (by omega)]
  rw [s4, blue_exec_ok hn hp, Out.ok_bind]
  refine fills_all (fills_forN (T := fun k i => i = k) ?_) (fun i hi => ⟨i, hi, rfl⟩) (by simp)
  intro m hm
  simp only [ld_tab hm, Out.ok_bind]
  refine fills_st hm ?_
  unfold idft
  rw [mul_comm, Complex.re_ofReal_mul]
  congr 2
  apply Finset.sum_congr rfl
  intro k _
  rw [Nat.mul_comm k m]

/-! ### the selected plan -/

def GoodRl (n : ℕ) : RlPlan → Prop
  | .pack p => GoodRPlan n p
  | .blue p => GoodBlue n p

theorem pocketfftR_ok {n : ℕ} (hn : 0 < n) (junkR : ℕ → ℝ) (junk : ℕ → ℂ) :
    ∃ p, pocketfftR n junkR junk = .ok p ∧ GoodRl n p := by
  obtain ⟨pc, c1, c2⟩ := rfftp_ok hn junkR
  obtain ⟨pb, b1, b2⟩ := fftblue_ok hn junk
  obtain ⟨l, l1, -⟩ := largestPrimeFactor_ok hn
  obtain ⟨g, g1, g2, -⟩ := goodSizeCmplx_ok (n := 2 * n - 1) (by omega)
  obtain ⟨x1, k1⟩ := costGuess_ok hn
  obtain ⟨x2, k2⟩ := costGuess_ok (n := g) (by omega)
  have key : ∀ tmp : ℕ, ∃ p, (if tmp * tmp ≤ n then do
      let p ← rfftp n junkR
      pure (RlPlan.pack p)
    else do
      let comp1 ← costGuess n
      let comp1 := 0.5 * comp1
      let good ← goodSizeCmplx (2 * n - 1)
      let comp2 ← costGuess good
      if 2 * comp2 * 1.5 < comp1 then do
        let p ← fftblue n junk
        pure (.blue p)
      else do
        let p ← rfftp n junkR
        pure (.pack p)) = .ok p ∧ GoodRl n p := by
    intro tmp
    split
    · simp only [c1, Out.ok_bind]; exact ⟨_, rfl, c2⟩
    · simp only [k1, g1, k2, Out.ok_bind]
      split
      · simp only [b1, Out.ok_bind]; exact ⟨_, rfl, b2⟩
      · simp only [c1, Out.ok_bind]; exact ⟨_, rfl, c2⟩
  unfold pocketfftR
  rw [if_neg (by omega)]
  by_cases h : n < 50
  · simp only [if_pos h, Out.pure_def, Out.ok_bind]
    obtain ⟨p, e1, e2⟩ := key 0
    exact ⟨p, e1, e2⟩
  · simp only [if_neg h, l1, Out.ok_bind]
    obtain ⟨p, e1, e2⟩ := key l
    exact ⟨p, e1, e2⟩

theorem rl_exec_fwd {n : ℕ} (hn : 0 < n) {p : RlPlan} (hp : GoodRl n p) (fct : ℝ) (x : ℕ → ℝ) (junkR : ℕ → ℝ) (junk : ℕ → ℂ) :
    p.exec (tab n x) fct true junkR junk = .ok (tab n (fun i => fct * enc (rdft n x) i)) := by
  cases p with
  | pack q => exact rexec_fwd hn hp fct x (by rw [fresh_length, tab_length])
  | blue q => exact execRF_ok hn hp fct x junk

theorem rl_exec_bwd {n : ℕ} (hn : 0 < n) {p : RlPlan} (hp : GoodRl n p) (fct : ℝ) {X : ℕ → ℂ} (hX : Herm n X)
    (junkR : ℕ → ℝ) (junk : ℕ → ℂ) :
    p.exec (tab n (enc X)) fct false junkR junk = .ok (tab n (fun i => fct * (idft n X i).re)) := by
  cases p with
  | pack q => exact rexec_bwd hn hp fct hX (by rw [fresh_length, tab_length])
  | blue q => exact execRB_ok hn hp fct hX junk

/-! ### the entry points -/

theorem pr2cWith_ok {n M : ℕ} (hn : 0 < n) {p : RlPlan} (e2 : GoodRl n p) (fct : ℝ) (x : ℕ → ℝ) (A : ℕ → ℂ) (hM : n / 2 + 1 ≤ M) (junkR : ℕ → ℝ) (junk : ℕ → ℂ) :
    pr2cWith p fct (tab n x) (tab M A) junkR junk
      = .ok (tab M (fun k => if k < n / 2 + 1 then (fct : ℂ) * rdft n x k else A k)) := by
  unfold pr2cWith
  rw [tab_length, copy_ok le_rfl (fresh_length _ _), Out.ok_bind, rl_exec_fwd hn e2,
    Out.ok_bind, ld_tab hn, Out.ok_bind]
  have hH := rdft_herm n x
  obtain ⟨V, hV⟩ : ∃ V : ℕ → ℂ, V = fun k => if k < n / 2 + 1 then (fct : ℂ) * rdft n x k else A k := ⟨_, rfl⟩
  rw [← hV]
  have f1 : Fills M V (fun out => do
      let out ← st out 0 (⟨fct * enc (rdft n x) 0, 0⟩ : ℂ)
      let out ← forN ((n - 1) / 2) (fun m out => do
        let ii := m + 1
        let i := 2 * ii - 1
        let re ← ld (tab n (fun i => fct * enc (rdft n x) i)) i
        let im ← ld (tab n (fun i => fct * enc (rdft n x) i)) (i + 1)
        st out ii ⟨re, im⟩) out
      let ii := (n - 1) / 2 + 1
      let i := 2 * ii - 1
      if i < n then do
        let re ← ld (tab n (fun i => fct * enc (rdft n x) i)) i
        st out ii ⟨re, 0⟩
      else pure out)
      (fun k => k = 0 ∨ (∃ m, m < (n - 1) / 2 ∧ k = m + 1) ∨ (2 * ((n - 1) / 2 + 1) - 1 < n ∧ k = (n - 1) / 2 + 1)) := by
    apply fills_st_bind (by omega)
    · rw [hV]
      simp only []
      rw [if_pos (by omega), enc_zero]
      apply Complex.ext <;> simp [hH.real0]
    apply fills_bind
    · apply fills_forN
      intro m hm
      simp only [show 2 * (m + 1) - 1 + 1 = 2 * (m + 1) by omega]
      simp only [ld_tab (show 2 * (m + 1) - 1 < n by omega), Out.ok_bind, ld_tab (show 2 * (m + 1) < n by omega),
        enc_re (c := m + 1) (Nat.succ_pos m) rfl, enc_im (c := m + 1) (Nat.succ_pos m) rfl]
      apply fills_st (by omega)
      rw [hV]
      simp only []
      rw [if_pos (by omega)]
      apply Complex.ext <;> simp
    · by_cases h : 2 * ((n - 1) / 2 + 1) - 1 < n
      · simp only [if_pos h, ld_tab h, Out.ok_bind]
        rw [enc_re (c := (n - 1) / 2 + 1) (by omega) rfl]
        apply Fills.mono (fills_st (a := (n - 1) / 2 + 1) (by omega) ?_)
        · intro k _ hk; exact hk.2
        · rw [hV]
          simp only []
          rw [if_pos (by omega)]
          apply Complex.ext
          · simp
          · simp [hH.realMid (m := (n - 1) / 2 + 1) (by omega)]
      · simp only [if_neg h]
        exact fills_pure'.mono (fun k _ hk => h hk.1)
  obtain ⟨ch', g1, g2⟩ := f1 (fun k => n / 2 + 1 ≤ k) (tab M A) ⟨by simp, by
    intro k hk hS
    rw [tab_get?, if_pos hk, hV]
    simp only []
    rw [if_neg (by omega)]⟩
  simp only [] at g1 ⊢
  rw [g1, eq_tab g2.1 (fun k hk => g2.2 k hk (by
    by_cases q : n / 2 + 1 ≤ k
    · exact Or.inl q
    · right
      by_cases q0 : k = 0
      · exact Or.inl q0
      · right
        by_cases q1 : k ≤ (n - 1) / 2
        · exact Or.inl ⟨k - 1, by omega, by omega⟩
        · exact Or.inr ⟨by omega, by omega⟩))]

theorem pr2c_ok {n M : ℕ} (hn : 0 < n) (fct : ℝ) (x : ℕ → ℝ) (A : ℕ → ℂ) (hM : n / 2 + 1 ≤ M) (junkR : ℕ → ℝ) (junk : ℕ → ℂ) :
    pr2c fct (tab n x) (tab M A) junkR junk
      = .ok (tab M (fun k => if k < n / 2 + 1 then (fct : ℂ) * rdft n x k else A k)) := by
  unfold pr2c
  obtain ⟨p, e1, e2⟩ := pocketfftR_ok hn junkR junk
  rw [tab_length, if_neg (by omega), e1, Out.ok_bind, pr2cWith_ok hn e2 fct x A hM]

theorem pc2rWith_ok {n M : ℕ} (hn : 0 < n) {p : RlPlan} (e2 : GoodRl n p) (fct : ℝ) (Z : ℕ → ℂ) (hM : n / 2 + 1 ≤ M) {out : List ℝ} (ho : out.length = n)
    (junkR : ℕ → ℝ) (junk : ℕ → ℂ) :
    pc2rWith p fct (tab M Z) out junkR junk = .ok (tab n (fun i => fct * (idft n (hx n Z) i).re)) := by
  unfold pc2rWith
  simp only []
  rw [ho, ld_tab (show 0 < M by omega), Out.ok_bind]
  have f1 : Fills n (enc (hx n Z)) (fun tdata => do
      let tdata ← st tdata 0 (Z 0).re
      let tdata ← forN ((n - 1) / 2) (fun m tdata => do
        let ii := m + 1
        let i := 2 * ii - 1
        let z ← ld (tab M Z) ii
        let tdata ← st tdata i z.re
        st tdata (i + 1) z.im) tdata
      let ii := (n - 1) / 2 + 1
      let i := 2 * ii - 1
      (if i < n then do
        let z ← ld (tab M Z) ii
        st tdata i z.re
      else pure tdata))
      (fun k => k = 0 ∨ (∃ m, m < (n - 1) / 2 ∧ (k = 2 * (m + 1) - 1 ∨ k = 2 * (m + 1))) ∨
        (2 * ((n - 1) / 2 + 1) - 1 < n ∧ k = 2 * ((n - 1) / 2 + 1) - 1)) := by
    apply fills_st_bind hn
    · rw [enc_zero, hx_zero]; rfl
    apply fills_bind
    · apply fills_forN
      intro m hm
      simp only [show 2 * (m + 1) - 1 + 1 = 2 * (m + 1) by omega]
      simp only [ld_tab (show m + 1 < M by omega), Out.ok_bind]
      apply fills_st_bind (by omega)
      · rw [enc_re (c := m + 1) (by omega) rfl, hx_low (by omega) (by omega)]
      · apply fills_st (by omega)
        rw [enc_im (c := m + 1) (by omega) rfl, hx_low (by omega) (by omega)]
    · by_cases h : 2 * ((n - 1) / 2 + 1) - 1 < n
      · simp only [if_pos h, ld_tab (show (n - 1) / 2 + 1 < M by omega), Out.ok_bind]
        apply Fills.mono (fills_st (a := 2 * ((n - 1) / 2 + 1) - 1) (by omega) ?_)
        · intro k _ hk; exact hk.2
        · rw [enc_re (c := (n - 1) / 2 + 1) (by omega) rfl, hx_mid (by omega) (by omega)]
          rfl
      · simp only [if_neg h]
        exact fills_pure'.mono (fun k _ hk => h hk.1)
  have g := fills_all f1 (by
    intro k hk
    by_cases q0 : k = 0
    · exact Or.inl q0
    · right
      by_cases q1 : (k + 1) / 2 ≤ (n - 1) / 2
      · exact Or.inl ⟨(k + 1) / 2 - 1, by omega, by omega⟩
      · exact Or.inr ⟨by omega, by omega⟩) (fresh_length junkR n)
  simp only [] at g
  have g' := congrArg (fun o => o >>= fun tdata => (do
    let tdata ← p.exec tdata fct false junkR junk
    forN n (fun i out => do
      let v ← ld tdata i
      st out i v) out)) g
  simp only [bind_assoc, Out.ok_bind] at g'
  rw [g', rl_exec_bwd hn e2 fct (hx_herm hn Z), Out.ok_bind, copy_ok le_rfl ho]

theorem pc2r_ok {n M : ℕ} (hn : 0 < n) (fct : ℝ) (Z : ℕ → ℂ) (hM : n / 2 + 1 ≤ M) {out : List ℝ} (ho : out.length = n)
    (junkR : ℕ → ℝ) (junk : ℕ → ℂ) :
    pc2r fct (tab M Z) out junkR junk = .ok (tab n (fun i => fct * (idft n (hx n Z) i).re)) := by
  unfold pc2r
  obtain ⟨p, e1, e2⟩ := pocketfftR_ok hn junkR junk
  rw [ho, if_neg (by omega), e1, Out.ok_bind, pc2rWith_ok hn e2 fct Z hM ho]

end Verif.Pocket
