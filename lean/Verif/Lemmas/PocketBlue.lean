import Verif.Lemmas.PocketGood
import Verif.Lemmas.PocketPlan
import Verif.Lemmas.FFT

/-! # Bluestein's algorithm -/

set_option linter.unusedSimpArgs false
set_option linter.unusedSectionVars false
set_option linter.unusedVariables false
set_option linter.unnecessarySeqFocus false

namespace Verif.Pocket
open Complex

/-- The sign of the exponent. -/
def sgn (fwd : Bool) : ℤ := if fwd then -1 else 1

theorem w_ru (fwd : Bool) (n m : ℕ) : w fwd n m = rootOfUnity n (sgn fwd * m) := by
  unfold rootOfUnity
  have e : (2 * Real.pi * I * ((sgn fwd * (m : ℤ) : ℤ) : ℂ) / (n : ℂ) : ℂ)
      = ((sgn fwd : ℝ) * (2 * Real.pi * m / n) : ℝ) * I := by
    push_cast; ring
  rw [e, Complex.exp_mul_I]
  unfold w cR cI
  obtain ⟨θ, hθ⟩ : ∃ θ : ℝ, θ = 2 * Real.pi * m / n := ⟨_, rfl⟩
  rw [← hθ, ← Complex.ofReal_cos, ← Complex.ofReal_sin]
  apply Complex.ext
  · cases fwd
    · simp only [sgn, Bool.false_eq_true, if_false, Int.cast_one, one_mul, Complex.add_re, Complex.ofReal_re, Complex.mul_re, Complex.I_re, Complex.I_im, Complex.ofReal_im]; ring
    · simp only [sgn, if_true, Int.cast_neg, Int.cast_one, neg_mul, one_mul, Complex.add_re, Complex.ofReal_re, Complex.mul_re, Complex.I_re, Complex.I_im, Complex.ofReal_im, Real.cos_neg, Real.sin_neg]; ring
  · cases fwd
    · simp only [sgn, Bool.false_eq_true, if_false, Int.cast_one, one_mul, Complex.add_im, Complex.ofReal_re, Complex.mul_im, Complex.I_re, Complex.I_im, Complex.ofReal_im]; ring
    · simp only [sgn, if_true, Int.cast_neg, Int.cast_one, neg_mul, one_mul, Complex.add_im, Complex.ofReal_re, Complex.mul_im, Complex.I_re, Complex.I_im, Complex.ofReal_im, Real.cos_neg, Real.sin_neg]; ring

theorem smul_mul (fwd : Bool) (x b : ℂ) : smul fwd x b = x * (if fwd then (starRingEnd ℂ) b else b) := by
  cases fwd <;> apply Complex.ext <;> simp [smul] <;> ring

/-! ### the mathematics -/

/-- The chirp that is convolved with, reduced to the padded length. -/
noncomputable def chirp (fwd : Bool) (n n2 j : ℕ) : ℂ :=
  if j < n then rootOfUnity (2 * n) (-(sgn fwd) * (j * j)) / n2
  else if n2 < n + j then rootOfUnity (2 * n) (-(sgn fwd) * ((n2 - j : ℕ) * (n2 - j : ℕ))) / n2 else 0

theorem chirp_refl {fwd : Bool} {n n2 j : ℕ} (hn2 : 2 * n - 1 ≤ n2) (h0 : 0 < j) (hj : j < n2) :
    chirp fwd n n2 (n2 - j) = chirp fwd n n2 j := by
  unfold chirp
  by_cases h1 : j < n
  · rw [if_pos h1, if_neg (by omega), if_pos (by omega), show n2 - (n2 - j) = j by omega]
  · rw [if_neg h1]
    by_cases h2 : n2 < n + j
    · rw [if_pos h2, if_pos (by omega)]
    · rw [if_neg h2, if_neg (by omega), if_neg (by omega)]

theorem bluestein {fwd : Bool} {n n2 : ℕ} (hn : 0 < n) (hn2 : 2 * n - 1 ≤ n2) (x : ℕ → ℂ) {t : ℕ} (ht : t < n) :
    (∑ k ∈ Finset.range n2,
      (∑ m ∈ Finset.range n2, (if m < n then x m * rootOfUnity (2 * n) (sgn fwd * (m * m)) else 0) * rootOfUnity n2 (-(m * k)))
      * (∑ j ∈ Finset.range n2, chirp fwd n n2 j * rootOfUnity n2 (-(j * k)))
      * rootOfUnity n2 (k * t)) * rootOfUnity (2 * n) (sgn fwd * (t * t))
      = ∑ m ∈ Finset.range n, x m * rootOfUnity n (sgn fwd * (m * t)) := by
  have h20 : n2 ≠ 0 := by omega
  have h2n : 2 * n ≠ 0 := by omega
  obtain ⟨a, ha⟩ : ∃ a : ℕ → ℂ, a = fun m => if m < n then x m * rootOfUnity (2 * n) (sgn fwd * (m * m)) else 0 := ⟨_, rfl⟩
  have e1 : ∀ k : ℕ, (∑ m ∈ Finset.range n2, a m * rootOfUnity n2 (-(m * k)))
      * (∑ j ∈ Finset.range n2, chirp fwd n n2 j * rootOfUnity n2 (-(j * k))) * rootOfUnity n2 (k * t)
      = ∑ m ∈ Finset.range n2, ∑ j ∈ Finset.range n2, a m * chirp fwd n n2 j * rootOfUnity n2 (((t : ℤ) - m - j) * k) := by
    intro k
    rw [Finset.sum_mul_sum, Finset.sum_mul]
    apply Finset.sum_congr rfl
    intro m _
    rw [Finset.sum_mul]
    apply Finset.sum_congr rfl
    intro j _
    rw [show ((t : ℤ) - m - j) * k = -(m * k) + -(j * k) + k * t by ring, ru_add, ru_add]
    ring
  have e2 : ∑ k ∈ Finset.range n2, (∑ m ∈ Finset.range n2, a m * rootOfUnity n2 (-(m * k)))
      * (∑ j ∈ Finset.range n2, chirp fwd n n2 j * rootOfUnity n2 (-(j * k))) * rootOfUnity n2 (k * t)
      = ∑ m ∈ Finset.range n2, ∑ j ∈ Finset.range n2, a m * chirp fwd n n2 j *
          (if (n2 : ℤ) ∣ (t : ℤ) - m - j then (n2 : ℂ) else 0) := by
    simp only [e1]
    rw [Finset.sum_comm]
    apply Finset.sum_congr rfl
    intro m _
    rw [Finset.sum_comm]
    apply Finset.sum_congr rfl
    intro j _
    rw [← Finset.mul_sum, ru_sum n2 h20]
  have e3 : ∀ m, m < n2 → ∑ j ∈ Finset.range n2, a m * chirp fwd n n2 j *
      (if (n2 : ℤ) ∣ (t : ℤ) - m - j then (n2 : ℂ) else 0)
      = if m < n then x m * rootOfUnity (2 * n) (sgn fwd * (m * m)) * rootOfUnity (2 * n) (-(sgn fwd) * (((t : ℤ) - m) * ((t : ℤ) - m))) else 0 := by
    intro m hm
    by_cases hmn : m < n
    · rw [if_pos hmn]
      have ham : a m = x m * rootOfUnity (2 * n) (sgn fwd * (m * m)) := by rw [ha]; simp only [if_pos hmn]
      have hc : (n2 : ℂ) ≠ 0 := by exact_mod_cast h20
      obtain ⟨j0, hj0, hd, hv⟩ : ∃ j0, j0 < n2 ∧ (n2 : ℤ) ∣ (t : ℤ) - m - j0 ∧
          chirp fwd n n2 j0 = rootOfUnity (2 * n) (-(sgn fwd) * (((t : ℤ) - m) * ((t : ℤ) - m))) / n2 := by
        by_cases htm : m ≤ t
        · refine ⟨t - m, by omega, ⟨0, by push_cast [htm]; ring⟩, ?_⟩
          unfold chirp
          rw [if_pos (by omega)]
          push_cast [htm]
          rfl
        · refine ⟨n2 - (m - t), by omega, ⟨-1, by push_cast [show t ≤ m by omega, show m - t ≤ n2 by omega]; ring⟩, ?_⟩
          unfold chirp
          rw [if_neg (by omega), if_pos (by omega), show n2 - (n2 - (m - t)) = m - t by omega]
          push_cast [show t ≤ m by omega]
          congr 2
          ring
      rw [Finset.sum_eq_single j0]
      · rw [if_pos hd, hv, ham]
        field_simp
      · intro j hj hne
        rw [if_neg, mul_zero]
        intro hd'
        have hj' := Finset.mem_range.mp hj
        have hdd := dvd_sub hd hd'
        obtain ⟨q, hq⟩ := hdd
        have hq' : (j : ℤ) - j0 = n2 * q := by linarith
        have : q = 0 := by
          have b1 : (j : ℤ) - j0 < n2 := by omega
          have b2 : -(n2 : ℤ) < (j : ℤ) - j0 := by omega
          rw [hq'] at b1 b2
          have hp : (0 : ℤ) < n2 := by omega
          have c1 : q < 1 := by
            by_contra hc; push Not at hc
            have := mul_le_mul_of_nonneg_left hc hp.le
            linarith
          have c2 : -1 < q := by
            by_contra hc; push Not at hc
            have := mul_le_mul_of_nonneg_left hc hp.le
            linarith
          omega
        rw [this, mul_zero] at hq'
        omega
      · intro h; exact absurd (Finset.mem_range.mpr hj0) h
    · rw [if_neg hmn]
      have ham : a m = 0 := by rw [ha]; simp only [if_neg hmn]
      simp [ham]
  have hsub : ∑ k ∈ Finset.range n2,
      (∑ m ∈ Finset.range n2, (if m < n then x m * rootOfUnity (2 * n) (sgn fwd * (m * m)) else 0) * rootOfUnity n2 (-(m * k)))
      * (∑ j ∈ Finset.range n2, chirp fwd n n2 j * rootOfUnity n2 (-(j * k)))
      * rootOfUnity n2 (k * t) = ∑ k ∈ Finset.range n2, (∑ m ∈ Finset.range n2, a m * rootOfUnity n2 (-(m * k)))
      * (∑ j ∈ Finset.range n2, chirp fwd n n2 j * rootOfUnity n2 (-(j * k))) * rootOfUnity n2 (k * t) := by
    rw [ha]
  rw [hsub, e2, Finset.sum_congr rfl (fun m hm => e3 m (Finset.mem_range.mp hm)), ← Finset.sum_filter]
  have hf : (Finset.range n2).filter (fun m => m < n) = Finset.range n := by
    ext m; simp; omega
  rw [hf, Finset.sum_mul]
  apply Finset.sum_congr rfl
  intro m hm
  rw [mul_assoc (x m), mul_assoc (x m), ← ru_add, ← ru_add]
  congr 1
  have e5 : sgn fwd * (m * m) + -(sgn fwd) * (((t : ℤ) - m) * ((t : ℤ) - m)) + sgn fwd * (t * t)
      = 2 * (sgn fwd * (m * t)) := by ring
  rw [e5]
  unfold rootOfUnity
  congr 1
  have : (n : ℂ) ≠ 0 := by exact_mod_cast (show n ≠ 0 by omega)
  push_cast
  field_simp

/-! ### the tables -/

theorem fresh_length {α : Type} (junk : ℕ → α) (n : ℕ) : (fresh junk n).length = n := by simp [fresh]

theorem fresh_tab {α : Type} (junk : ℕ → α) (n : ℕ) : fresh junk n = tab n junk := rfl

theorem sq_mod_step {n m : ℕ} (hm : m + 1 < n) :
    (if m * m % (2 * n) + (2 * (m + 1) - 1) ≥ 2 * n then m * m % (2 * n) + (2 * (m + 1) - 1) - 2 * n
      else m * m % (2 * n) + (2 * (m + 1) - 1)) = (m + 1) * (m + 1) % (2 * n) := by
  have h1 : (m + 1) * (m + 1) % (2 * n) = (m * m % (2 * n) + (2 * (m + 1) - 1)) % (2 * n) := by
    rw [Nat.mod_add_mod]; congr 1
    have : (m + 1) * (m + 1) = m * m + (2 * m + 1) := by ring
    omega
  have h2 : m * m % (2 * n) < 2 * n := Nat.mod_lt _ (by omega)
  rw [h1]
  obtain ⟨r, hr⟩ : ∃ r, r = m * m % (2 * n) := ⟨_, rfl⟩
  rw [← hr] at h2 ⊢
  split
  · rw [Nat.mod_eq_sub_mod (by omega), Nat.mod_eq_of_lt (by omega)]
  · rw [Nat.mod_eq_of_lt (by omega)]

theorem blueBk_ok {t : SinCos} {n : ℕ} (hn : 0 < n) (ht : ∀ idx, idx ≤ 2 * n → t.get idx = .ok (w false (2 * n) idx))
    (junk : ℕ → ℂ) : blueBk t n junk = .ok (tab n (fun m => w false (2 * n) (m * m))) := by
  unfold blueBk
  obtain ⟨bk0, e0, f0⟩ := filled_st (L := n) (V := fun m => w false (2 * n) (m * m)) (S := fun _ => False)
    (ch := fresh junk n) (a := 0) (v := ⟨1, 0⟩) ⟨fresh_length _ _, fun _ _ h => h.elim⟩ hn
    (by simp only [Nat.mul_zero, w_zero]; rfl)
  rw [e0, Out.ok_bind]
  have key := forN_inv (body := fun m0 (s : ℕ × List ℂ) => do
      let m := m0 + 1
      let coeff := s.1 + (2 * m - 1)
      let coeff := if coeff ≥ 2 * n then coeff - 2 * n else coeff
      let v ← t.get coeff
      let bk ← st s.2 m v
      pure (coeff, bk))
    (fun k s => s.1 = k * k % (2 * n) ∧ Filled n (fun m => w false (2 * n) (m * m)) (fun i => i ≤ k) s.2) (n - 1) (0, bk0)
    ⟨by simp, f0.mono (by intro i _ hi; right; omega)⟩
  replace key := key (by
    rintro k ⟨co, bk⟩ hk ⟨h1, h2⟩
    simp only [] at h1 h2 ⊢
    subst h1
    rw [sq_mod_step (by omega)]
    have hlt : (k + 1) * (k + 1) % (2 * n) < 2 * n := Nat.mod_lt _ (by omega)
    rw [ht _ hlt.le, Out.ok_bind]
    obtain ⟨bk', e1, f1⟩ := filled_st h2 (a := k + 1) (v := w false (2 * n) ((k + 1) * (k + 1) % (2 * n)))
      (by omega) (by rw [← w_mod])
    rw [e1, Out.ok_bind]
    exact ⟨_, rfl, rfl, f1.mono (by intro i _ hi; omega)⟩)
  obtain ⟨s, e1, h1, h2⟩ := key
  rw [e1, Out.ok_bind, Out.pure_def, eq_tab h2.1 (fun i hi => h2.2 i hi (by omega))]

theorem w_false_chirp {n j : ℕ} : w false (2 * n) (j * j) = rootOfUnity (2 * n) (-(sgn true) * (j * j)) := by
  rw [w_ru]; simp [sgn]

theorem blueTbkf_ok {n n2 : ℕ} (hn : 0 < n) (hn2 : 2 * n - 1 ≤ n2) (junk : ℕ → ℂ) :
    blueTbkf n n2 (tab n (fun m => w false (2 * n) (m * m))) junk = .ok (tab n2 (chirp true n n2)) := by
  unfold blueTbkf
  simp only [ld_tab hn, Out.ok_bind]
  have hv : ∀ j, j < n → w false (2 * n) (j * j) * ((1 / (n2 : ℝ) : ℝ) : ℂ) = chirp true n n2 j := by
    intro j hj
    rw [w_false_chirp]
    unfold chirp
    rw [if_pos hj]
    push_cast
    ring
  refine fills_all (L := n2) (V := chirp true n n2) (f := fun ch => st ch 0 _ >>= fun tbkf =>
      forN (n - 1) (fun m0 tbkf => do
        let b ← ld (tab n (fun m => w false (2 * n) (m * m))) (m0 + 1)
        let tbkf ← st tbkf (n2 - (m0 + 1)) (b * ((1 / (n2 : ℝ) : ℝ) : ℂ))
        st tbkf (m0 + 1) (b * ((1 / (n2 : ℝ) : ℝ) : ℂ))) tbkf >>=
      forN (n2 - n + 1 - n) (fun m0 tbkf => st tbkf (n + m0) ⟨0, 0⟩))
    (fills_st_bind (by omega) (hv 0 hn) (fills_bind (fills_forN (T := fun m0 i => i = n2 - (m0 + 1) ∨ i = m0 + 1) ?_)
      (fills_forN (T := fun m0 i => i = n + m0) ?_))) ?_ (fresh_length _ _)
  · intro k hk
    simp only [ld_tab (show k + 1 < n by omega), Out.ok_bind]
    refine fills_st_bind (by omega) ?_ (fills_st (by omega) (hv _ (by omega)))
    rw [hv _ (by omega), chirp_refl hn2 (by omega) (by omega)]
  · intro k hk
    refine fills_st (by omega) ?_
    unfold chirp
    rw [if_neg (by omega), if_neg (by omega)]
    rfl
  · intro i hi
    by_cases h0 : i = 0
    · exact Or.inl h0
    · right
      by_cases h1 : i < n
      · exact Or.inl ⟨i - 1, by omega, Or.inr (by omega)⟩
      · by_cases h2 : n2 < n + i
        · exact Or.inl ⟨n2 - i - 1, by omega, Or.inl (by omega)⟩
        · exact Or.inr ⟨i - n, by omega, by omega⟩

/-- The transform of the chirp. -/
noncomputable def chirpF (fwd : Bool) (n n2 k : ℕ) : ℂ :=
  ∑ j ∈ Finset.range n2, chirp fwd n n2 j * rootOfUnity n2 (-(j * k))

/-- A Bluestein plan. -/
def GoodBlue (n : ℕ) (p : Blue) : Prop :=
  p.n = n ∧ 2 * n - 1 ≤ p.n2 ∧ GoodPlan p.n2 p.plan ∧ p.bk = tab n (fun m => w false (2 * n) (m * m)) ∧
    p.bkf = tab (p.n2 / 2 + 1) (chirpF true n p.n2)

theorem w_true_ru (n m k : ℕ) : w true n (m * k) = rootOfUnity n (-(m * k)) := by
  rw [w_ru]; simp [sgn]

theorem copy_ok {α : Type} {L N : ℕ} {A : ℕ → α} (h : L ≤ N) {out : List α} (ho : out.length = L) :
    forN L (fun i buf => do
      let v ← ld (tab N A) i
      st buf i v) out = .ok (tab L A) := by
  refine fills_all (fills_forN (T := fun k i => i = k) ?_) (fun i hi => ⟨i, hi, rfl⟩) ho
  intro k hk
  simp only [ld_tab (show k < N by omega), Out.ok_bind]
  exact fills_st hk rfl

theorem fftblue_ok {n : ℕ} (hn : 0 < n) (junk : ℕ → ℂ) : ∃ p, fftblue n junk = .ok p ∧ GoodBlue n p := by
  unfold fftblue
  simp only []
  obtain ⟨n2, e1, e2, -⟩ := goodSizeCmplx_ok (n := n * 2 - 1) (by omega)
  obtain ⟨pl, e3, e4⟩ := cfftp_ok (N := n2) (by omega)
  obtain ⟨t, e5, e6⟩ := sincos_ok (n := 2 * n) (by omega)
  rw [e1, Out.ok_bind, e3, Out.ok_bind, e5, Out.ok_bind, blueBk_ok hn e6, Out.ok_bind, blueTbkf_ok hn (by omega),
    Out.ok_bind, exec_ok (by omega) e4 _ _ _ (fresh_length _ _), Out.ok_bind,
    copy_ok (by omega) (fresh_length _ _), Out.ok_bind]
  refine ⟨_, rfl, rfl, by simp only []; omega, e4, rfl, ?_⟩
  simp only []
  apply tab_congr
  intro k _
  unfold chirpF
  simp [w_true_ru]

/-! ### executing -/

/-- The chirped input. -/
noncomputable def chirped (fwd : Bool) (n : ℕ) (x : ℕ → ℂ) (m : ℕ) : ℂ :=
  if m < n then x m * w fwd (2 * n) (m * m) else 0

theorem smul_chirp (fwd : Bool) (v : ℂ) (n m : ℕ) : smul fwd v (w false n m) = v * w fwd n m := smul_w fwd v n m

theorem blueStart_ok {p : Blue} {n : ℕ} (hn : 0 < n) (hp : GoodBlue n p) (fwd : Bool) (x : ℕ → ℂ) (junk : ℕ → ℂ) :
    blueStart p fwd (tab n x) junk = .ok (tab p.n2 (chirped fwd n x)) := by
  obtain ⟨p1, p2, p3, p4, p5⟩ := hp
  unfold blueStart
  rw [p1, p4]
  obtain ⟨a1, e1, f1⟩ := fills_forN (L := p.n2) (V := chirped fwd n x) (m := n)
    (f := fun m akf => do
      let x ← ld (tab n x) m
      let b ← ld (tab n fun m => w false (2 * n) (m * m)) m
      st akf m (smul fwd x b)) (T := fun k i => i = k) (by
    intro k hk
    simp only [ld_tab hk, Out.ok_bind]
    refine fills_st (by omega) ?_
    unfold chirped
    rw [if_pos hk, smul_w]) (fun _ => False) (fresh junk p.n2) ⟨fresh_length _ _, fun _ _ h => h.elim⟩
  rw [e1, Out.ok_bind]
  have h0 : ld a1 0 = .ok (chirped fwd n x 0) := by
    have := f1.2 0 (by omega) (Or.inr ⟨0, hn, rfl⟩)
    simp [ld, this]
  rw [h0, Out.ok_bind]
  simp only [mul_zero]
  obtain ⟨a2, e2, f2⟩ := fills_forN (L := p.n2) (V := chirped fwd n x) (m := p.n2 - n)
    (f := fun m0 akf => st akf (n + m0) 0) (T := fun k i => i = n + k) (by
    intro k hk
    refine fills_st (by omega) ?_
    unfold chirped
    rw [if_neg (by omega)]) _ a1 f1
  rw [e2, eq_tab f2.1]
  intro i hi
  apply f2.2 i hi
  by_cases h : i < n
  · exact Or.inl (Or.inr ⟨i, h, rfl⟩)
  · exact Or.inr ⟨i - n, by omega, by omega⟩

theorem chirpF_refl {fwd : Bool} {n n2 k : ℕ} (hn2 : 2 * n - 1 ≤ n2) (h0 : 0 < n2) (hk : k ≤ n2) :
    chirpF fwd n n2 (n2 - k) = chirpF fwd n n2 k := by
  unfold chirpF
  obtain ⟨q, rfl⟩ : ∃ q, n2 = q + 1 := ⟨n2 - 1, by omega⟩
  rw [Finset.sum_range_succ', Finset.sum_range_succ']
  congr 1
  · rw [← Finset.sum_range_reflect]
    apply Finset.sum_congr rfl
    intro j hj
    have hj := Finset.mem_range.mp hj
    rw [show q - 1 - j + 1 = (q + 1) - (j + 1) by omega, chirp_refl hn2 (by omega) (by omega)]
    congr 1
    have e : -((((q + 1 - (j + 1) : ℕ) : ℤ)) * ((q + 1 - k : ℕ) : ℤ))
        = -(((j + 1 : ℕ) : ℤ) * (k : ℤ)) + ((q + 1 : ℕ) : ℤ) * ((j + 1 : ℕ) + (k : ℤ) - ((q + 1 : ℕ) : ℤ)) := by
      rw [Nat.cast_sub (by omega), Nat.cast_sub hk]; push_cast; ring
    rw [e, ru_period _ (by omega)]
  · simp

theorem chirp_conj (n n2 j : ℕ) : (starRingEnd ℂ) (chirp true n n2 j) = chirp false n n2 j := by
  unfold chirp
  split
  · rw [map_div₀, ru_conj]; simp [sgn]
  · split
    · rw [map_div₀, ru_conj]; simp [sgn]
    · simp

theorem chirpF_conj {n n2 k : ℕ} (hn2 : 2 * n - 1 ≤ n2) (h0 : 0 < n2) (hk : k ≤ n2) :
    (starRingEnd ℂ) (chirpF true n n2 k) = chirpF false n n2 k := by
  rw [← chirpF_refl hn2 h0 hk]
  unfold chirpF
  rw [map_sum]
  apply Finset.sum_congr rfl
  intro j _
  rw [map_mul, chirp_conj, ru_conj]
  congr 1
  have e : - -((j : ℤ) * ((n2 - k : ℕ) : ℤ)) = -((j : ℤ) * k) + (n2 : ℤ) * j := by
    rw [Nat.cast_sub hk]; ring
  rw [e, ru_period _ (by omega)]

theorem smul_chirpF {fwd : Bool} {n n2 k : ℕ} (hn2 : 2 * n - 1 ≤ n2) (h0 : 0 < n2) (hk : k ≤ n2) (v : ℂ) :
    smul (!fwd) v (chirpF true n n2 k) = v * chirpF fwd n n2 k := by
  rw [smul_mul]
  cases fwd
  · simp [chirpF_conj hn2 h0 hk]
  · simp

theorem blueMul_ok {p : Blue} {n : ℕ} (hn : 0 < n) (hp : GoodBlue n p) (fwd : Bool) (A : ℕ → ℂ) :
    blueMul p fwd (tab p.n2 A) = .ok (tab p.n2 (fun k => A k * chirpF fwd n p.n2 k)) := by
  obtain ⟨p1, p2, p3, p4, p5⟩ := hp
  have h0 : 0 < p.n2 := by omega
  obtain ⟨N, hN⟩ : ∃ N, N = p.n2 := ⟨_, rfl⟩
  unfold blueMul
  rw [p5, ← hN]
  rw [← hN] at p2 h0
  have hv : ∀ k, k ≤ N → ∀ v, smul (!fwd) v (chirpF true n N k) = v * chirpF fwd n N k :=
    fun k hk v => smul_chirpF p2 h0 hk v
  have m1 : Maps N A (fun k => A k * chirpF fwd n N k) (fun akf => do
      let x ← ld akf 0
      let b ← ld (tab (N / 2 + 1) (chirpF true n N)) 0
      st akf 0 (smul (!fwd) x b)) (fun i => i = 0) := by
    intro S hS
    simp only []
    rw [ld_mix_old h0 (hS 0 h0 rfl), Out.ok_bind, ld_tab (by omega), Out.ok_bind, st_mix h0 (hv 0 (by omega) _)]
  have m2 : Maps N A (fun k => A k * chirpF fwd n N k) (forN ((N + 1) / 2 - 1) (fun m0 akf => do
      let b ← ld (tab (N / 2 + 1) (chirpF true n N)) (m0 + 1)
      let x ← ld akf (m0 + 1)
      let akf ← st akf (m0 + 1) (smul (!fwd) x b)
      let x ← ld akf (N - (m0 + 1))
      st akf (N - (m0 + 1)) (smul (!fwd) x b)))
      (fun i => ∃ k, k < (N + 1) / 2 - 1 ∧ (i = k + 1 ∨ i = N - (k + 1))) := by
    apply maps_forN
    · intro k hk S hS
      have h1 : k + 1 < N := by omega
      have h2 : N - (k + 1) < N := by omega
      have n2 : ¬ (S (N - (k + 1)) ∨ N - (k + 1) = k + 1) := by
        rintro (h' | h')
        · exact hS _ h2 (Or.inr rfl) h'
        · omega
      simp only []
      rw [ld_tab (by omega), Out.ok_bind, ld_mix_old h1 (hS _ h1 (Or.inl rfl)), Out.ok_bind,
        st_mix h1 (hv _ (by omega) _), Out.ok_bind, ld_mix_old h2 n2, Out.ok_bind, st_mix h2]
      · congr 1
        apply mix_congr
        intro i _
        tauto
      · rw [hv _ (by omega), chirpF_refl p2 h0 (by omega)]
    · rintro k k' i hk hk' _ (h1 | h1) (h2 | h2) <;> omega
  have m3 : Maps N A (fun k => A k * chirpF fwd n N k) (fun akf => if N % 2 = 0 then do
      let x ← ld akf (N / 2)
      let b ← ld (tab (N / 2 + 1) (chirpF true n N)) (N / 2)
      st akf (N / 2) (smul (!fwd) x b)
    else pure akf) (fun i => N % 2 = 0 ∧ i = N / 2) := by
    intro S hS
    simp only []
    by_cases h : N % 2 = 0
    · rw [if_pos h, ld_mix_old (by omega) (hS _ (by omega) ⟨h, rfl⟩), Out.ok_bind, ld_tab (by omega), Out.ok_bind,
        st_mix (by omega) (hv _ (by omega) _)]
      congr 1
      apply mix_congr
      intro i _
      tauto
    · rw [if_neg h, Out.pure_def]
      congr 1
      apply mix_congr
      intro i _
      tauto
  have m4 := maps_bind m1 (maps_bind m2 m3 (by rintro i hi ⟨k, hk, h⟩ ⟨h1, h2⟩; omega)) (by
    rintro i hi h (⟨k, hk, h1⟩ | ⟨h1, h2⟩) <;> omega)
  have m5 := maps_all m4
  simp only [bind_assoc] at m5
  refine m5.trans ?_
  congr 1
  unfold mix
  apply tab_congr
  intro i hi
  rw [if_pos]
  by_cases e0 : i = 0
  · exact Or.inl e0
  · right
    by_cases e1 : 2 * i < N
    · exact Or.inl ⟨i - 1, by omega, Or.inl (by omega)⟩
    · by_cases e2 : 2 * i = N
      · exact Or.inr ⟨by omega, by omega⟩
      · exact Or.inl ⟨N - i - 1, by omega, Or.inr (by omega)⟩

theorem blue_exec_ok {p : Blue} {n : ℕ} (hn : 0 < n) (hp : GoodBlue n p) (fwd : Bool) (fct : ℝ) (x : ℕ → ℂ)
    (junk : ℕ → ℂ) :
    p.exec (tab n x) fct fwd junk
      = .ok (tab n (fun k => (∑ m ∈ Finset.range n, x m * w fwd n (m * k)) * (fct : ℂ))) := by
  have hp' := hp
  obtain ⟨p1, p2, p3, p4, p5⟩ := hp'
  have h0 : 0 < p.n2 := by omega
  unfold Blue.exec
  rw [blueStart_ok hn hp, Out.ok_bind, exec_ok h0 p3 _ _ _ (fresh_length _ _), Out.ok_bind, blueMul_ok hn hp, Out.ok_bind,
    exec_ok h0 p3 _ _ _ (fresh_length _ _), Out.ok_bind, p1, p4]
  refine fills_all (fills_forN (T := fun k i => i = k) ?_) (fun i hi => ⟨i, hi, rfl⟩) (by simp)
  intro t ht
  simp only [ld_tab (show t < p.n2 by omega), ld_tab ht, Out.ok_bind]
  refine fills_st ht ?_
  rw [smul_w]
  congr 1
  simp only [Complex.ofReal_one, mul_one]
  have := bluestein (fwd := fwd) hn p2 x ht
  have e : ∀ m, w fwd n (m * t) = rootOfUnity n (sgn fwd * (m * t)) := by
    intro m; rw [w_ru]; push_cast; rfl
  simp only [e]
  rw [← this]
  congr 1
  · apply Finset.sum_congr rfl
    intro k _
    congr 1
    · congr 1
      apply Finset.sum_congr rfl
      intro m _
      rw [w_true_ru]
      congr 1
      unfold chirped
      split
      · rw [w_ru]; push_cast; rfl
      · rfl
    · rw [w_ru]; simp [sgn]
  · rw [w_ru]; push_cast; rfl

/-! ### plan selection -/

theorem costLoop_ok {n d : ℕ} (hd : 2 ≤ d) (c : ℝ) : ∀ fuel (r : ℝ) q, 0 < q → q < fuel →
    ∃ r' q', whileN fuel (fun t : ℝ × ℕ => decide (t.2 % d = 0)) (fun t => .ok (t.1 + c, t.2 / d)) (r, q) = .ok (r', q') ∧
      0 < q' ∧ q' ≤ q := by
  intro fuel
  induction fuel with
  | zero => intro r q h h'; omega
  | succ fuel ih =>
    intro r q h h'
    rw [whileN]
    by_cases hc : q % d = 0
    · rw [if_pos (by simpa using hc), Out.ok_bind]
      have hdq := Nat.le_of_dvd h (Nat.dvd_of_mod_eq_zero hc)
      have hlt := Nat.div_lt_self h (show 1 < d by omega)
      obtain ⟨r', q', e, h1, h2⟩ := ih (r + c) (q / d) (Nat.div_pos hdq (by omega)) (by omega)
      exact ⟨r', q', e, h1, by omega⟩
    · rw [if_neg (by simpa using hc)]
      exact ⟨r, q, rfl, h, le_rfl⟩

theorem costGuess_ok {n : ℕ} (hn : 0 < n) : ∃ c, costGuess n = .ok c := by
  unfold costGuess
  obtain ⟨r, q, e, h1, h2⟩ := costLoop_ok (n := n) (d := 2) le_rfl 2 (n + 1) 0 n hn (by omega)
  simp only [e, Out.ok_bind]
  obtain ⟨s, e2, -⟩ := whileN_measure
    (cond := fun s : (ℝ × ℕ) × ℕ => decide (s.2 * s.2 ≤ s.1.2))
    (body := fun s => do
      let t ← whileN (n + 1) (fun t : ℝ × ℕ => decide (t.2 % s.2 = 0))
        (fun t => .ok (t.1 + (if s.2 ≤ 5 then (s.2 : ℝ) else 1.1 * s.2), t.2 / s.2)) s.1
      pure (t, s.2 + 2))
    (fun s => 0 < s.1.2 ∧ s.1.2 ≤ n ∧ 2 ≤ s.2) (fun s => n + 1 - s.2) (by
      rintro ⟨⟨r, q⟩, d⟩ ⟨h1, h2, h3⟩ hc
      simp only [decide_eq_true_eq] at hc h1 h2 h3
      obtain ⟨r', q', e, g1, g2⟩ := costLoop_ok (n := n) h3 (if d ≤ 5 then (d : ℝ) else 1.1 * d) (n + 1) r q h1 (by omega)
      refine ⟨((r', q'), d + 2), by simp only [e, Out.ok_bind]; rfl, ⟨g1, by simp only []; omega, by simp only []; omega⟩, ?_⟩
      have : d * 1 ≤ d * d := Nat.mul_le_mul_left _ (by omega)
      simp only []
      omega) (n + 1) ((r, q), 3) (by simp only []; omega) ⟨h1, h2, by norm_num⟩
  rw [e2, Out.ok_bind]
  exact ⟨_, rfl⟩

/-- A plan of either kind. -/
def GoodCx (n : ℕ) : CxPlan → Prop
  | .pack p => GoodPlan n p
  | .blue p => GoodBlue n p

theorem pocketfftC_ok {n : ℕ} (hn : 0 < n) (junk : ℕ → ℂ) : ∃ p, pocketfftC n junk = .ok p ∧ GoodCx n p := by
  obtain ⟨pc, c1, c2⟩ := cfftp_ok hn
  obtain ⟨pb, b1, b2⟩ := fftblue_ok hn junk
  obtain ⟨l, l1, -⟩ := largestPrimeFactor_ok hn
  obtain ⟨g, g1, g2, -⟩ := goodSizeCmplx_ok (n := 2 * n - 1) (by omega)
  obtain ⟨x1, k1⟩ := costGuess_ok hn
  obtain ⟨x2, k2⟩ := costGuess_ok (n := g) (by omega)
  have key : ∀ tmp : ℕ, ∃ p, (if tmp * tmp ≤ n then do
      let p ← cfftp n
      pure (CxPlan.pack p)
    else do
      let comp1 ← costGuess n
      let good ← goodSizeCmplx (2 * n - 1)
      let comp2 ← costGuess good
      if 2 * comp2 * 1.5 < comp1 then do
        let p ← fftblue n junk
        pure (.blue p)
      else do
        let p ← cfftp n
        pure (.pack p)) = .ok p ∧ GoodCx n p := by
    intro tmp
    split
    · simp only [c1, Out.ok_bind]; exact ⟨_, rfl, c2⟩
    · simp only [k1, g1, k2, Out.ok_bind]
      split
      · simp only [b1, Out.ok_bind]; exact ⟨_, rfl, b2⟩
      · simp only [c1, Out.ok_bind]; exact ⟨_, rfl, c2⟩
  unfold pocketfftC
  rw [if_neg (by omega)]
  by_cases h : n < 50
  · simp only [if_pos h, Out.pure_def, Out.ok_bind]
    obtain ⟨p, e1, e2⟩ := key 0
    exact ⟨p, e1, e2⟩
  · simp only [if_neg h, l1, Out.ok_bind]
    obtain ⟨p, e1, e2⟩ := key l
    exact ⟨p, e1, e2⟩

theorem cx_exec_ok {n : ℕ} (hn : 0 < n) {p : CxPlan} (hp : GoodCx n p) (fwd : Bool) (fct : ℝ) (x : ℕ → ℂ) (junk : ℕ → ℂ) :
    p.exec (tab n x) fct fwd junk
      = .ok (tab n (fun k => (∑ m ∈ Finset.range n, x m * w fwd n (m * k)) * (fct : ℂ))) := by
  cases p with
  | pack q => exact exec_ok hn hp fwd fct x (by rw [fresh_length, tab_length])
  | blue q => exact blue_exec_ok hn hp fwd fct x junk

theorem c2cWith_ok {n : ℕ} (hn : 0 < n) {p : CxPlan} (hp : GoodCx n p) (fwd : Bool) (fct : ℝ) (x : ℕ → ℂ) {out : List ℂ}
    (ho : out.length = n) (junk : ℕ → ℂ) :
    c2cWith p fwd fct (tab n x) out junk
      = .ok (tab n (fun k => (∑ m ∈ Finset.range n, x m * w fwd n (m * k)) * (fct : ℂ))) := by
  unfold c2cWith
  rw [tab_length, copy_ok le_rfl ho, Out.ok_bind, cx_exec_ok hn hp]

theorem c2c_ok {n : ℕ} (hn : 0 < n) (fwd : Bool) (fct : ℝ) (x : ℕ → ℂ) {out : List ℂ} (ho : out.length = n) (junk : ℕ → ℂ) :
    c2c fwd fct (tab n x) out junk
      = .ok (tab n (fun k => (∑ m ∈ Finset.range n, x m * w fwd n (m * k)) * (fct : ℂ))) := by
  unfold c2c
  obtain ⟨p, e1, e2⟩ := pocketfftC_ok hn junk
  rw [tab_length, if_neg (by omega), e1, Out.ok_bind, c2cWith_ok hn e2 fwd fct x ho]

end Verif.Pocket
