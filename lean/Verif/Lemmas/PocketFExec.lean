import Verif.Lemmas.PocketCoreG
import Verif.Lemmas.PocketPlan

/-! # Rounding errors of the passes of the mixed-radix transform -/

set_option linter.unusedSimpArgs false
set_option linter.unusedSectionVars false
set_option linter.unusedVariables false

namespace Verif.PocketF
open Pocket (cR cI w tab ld_tab ld st stageV stage stageV_ix stage_zero stage_pos stage_first Fills fills_forN
  fills_st ix wx ix_lt wx_lt mapM_tab passLoop_ok ix_cases ix_eq)

variable {F : Type} [Zero F] [Add F] [Sub F] [Mul F] [Fma F] [Neg F]
variable {A : FloatArithNeg F} {M h b : ℝ} {fwd : Bool}

/-! ### exact stages -/

theorem norm_w (fwd : Bool) (n m : ℕ) : ‖w fwd n m‖ = 1 := by
  have h1 : Complex.normSq (w fwd n m) = 1 := by
    unfold w cR cI
    rw [Complex.normSq_mk]
    have := Real.sin_sq_add_cos_sq (2 * Real.pi * m / n)
    cases fwd <;> simp <;> nlinarith
  have h2 := Complex.sq_norm (w fwd n m)
  rw [h1] at h2
  have h3 := norm_nonneg (w fwd n m)
  nlinarith [sq_nonneg (‖w fwd n m‖ - 1)]

theorem norm_sum_w {p : ℕ} {u : ℕ → ℂ} {D : ℝ} (hu : ∀ c, c < p → ‖u c‖ ≤ D) (j : ℕ) :
    ‖∑ c ∈ Finset.range p, u c * w fwd p (j * c)‖ ≤ p * D := by
  calc ‖∑ c ∈ Finset.range p, u c * w fwd p (j * c)‖ ≤ ∑ c ∈ Finset.range p, ‖u c * w fwd p (j * c)‖ :=
        norm_sum_le _ _
    _ ≤ ∑ c ∈ Finset.range p, D := by
        apply Finset.sum_le_sum
        intro c hc
        rw [norm_mul, norm_w, mul_one]
        exact hu c (Finset.mem_range.mp hc)
    _ = p * D := by simp

theorem smul_sub (fwd : Bool) (u v c : ℂ) : Pocket.smul fwd u c - Pocket.smul fwd v c = Pocket.smul fwd (u - v) c := by
  cases fwd <;> apply Complex.ext <;> simp [Pocket.smul] <;> ring

variable {p ido l1 N : ℕ}

theorem stageV_lip {B C W : ℕ → ℂ} {D : ℝ} (hp : 0 < p) (hl : 0 < l1)
    (hW : ∀ i j, 0 < i → i < ido → 0 < j → j < p → ∃ m, W (wx ido (j - 1) i) = w false N m)
    (hD : ∀ n, n < ido * p * l1 → ‖B n - C n‖ ≤ D) {n : ℕ} (hn : n < ido * p * l1) :
    ‖stageV fwd p ido l1 B W n - stageV fwd p ido l1 C W n‖ ≤ p * D := by
  have hn' : n < ido * l1 * p := by rw [Nat.mul_right_comm]; exact hn
  obtain ⟨h1, h2, h3⟩ := ix_cases hn'
  unfold stageV
  obtain ⟨i, hi⟩ : ∃ i, i = n % ido := ⟨_, rfl⟩
  obtain ⟨k, hk⟩ : ∃ k, k = n / ido % l1 := ⟨_, rfl⟩
  obtain ⟨j, hj⟩ : ∃ j, j = n / ido / l1 := ⟨_, rfl⟩
  rw [← hi, ← hk, ← hj]
  rw [← hi] at h1
  rw [← hk] at h2
  rw [← hj] at h3
  have hs : ‖(∑ c ∈ Finset.range p, B (ix ido p i c k) * w fwd p (j * c))
      - ∑ c ∈ Finset.range p, C (ix ido p i c k) * w fwd p (j * c)‖ ≤ p * D := by
    rw [← Finset.sum_sub_distrib]
    simp only [← sub_mul]
    exact norm_sum_w (fun c hc => hD _ (ix_lt h1 hc h2)) j
  unfold stage
  split
  · exact hs
  · rename_i h0
    push Not at h0
    obtain ⟨m, e⟩ := hW i j (by omega) h1 (by omega) h3
    rw [smul_sub, e, Pocket.smul_w, norm_mul, norm_w, mul_one]
    exact hs

theorem stageV_norm {B W : ℕ → ℂ} {D : ℝ} (hp : 0 < p) (hl : 0 < l1)
    (hW : ∀ i j, 0 < i → i < ido → 0 < j → j < p → ∃ m, W (wx ido (j - 1) i) = w false N m)
    (hD : ∀ n, n < ido * p * l1 → ‖B n‖ ≤ D) {n : ℕ} (hn : n < ido * p * l1) :
    ‖stageV fwd p ido l1 B W n‖ ≤ p * D := by
  have h1 := stageV_lip (fwd := fwd) (B := B) (C := fun _ => 0) (W := W) (D := D) hp hl hW
    (by intro n hn; rw [sub_zero]; exact hD n hn) hn
  have h2 : stageV fwd p ido l1 (fun _ => 0) W n = 0 := by
    unfold stageV stage
    split
    · simp
    · cases fwd <;> apply Complex.ext <;> simp [Pocket.smul]
  rwa [h2, sub_zero] at h1

/-! ### one pass -/

theorem near_self {a : Cx F} (hf : FinC A a) (hM : ‖cval A a‖ ≤ M) : NearC A M h a (cval A a) 0 1 := by
  have h1 := (Complex.abs_re_le_norm (cval A a)).trans hM
  have h2 := (Complex.abs_im_le_norm (cval A a)).trans hM
  refine ⟨⟨hf.1, ?_, by linarith, le_rfl, zero_le_one⟩, ⟨hf.2, ?_, by linarith, le_rfl, zero_le_one⟩⟩ <;>
    simp [cval]

theorem NearC.norm {a : Cx F} {z : ℂ} {κ m : ℝ} (n : NearC A M h a z κ m) :
    FinC A a ∧ ‖cval A a - z‖ ≤ 2 * κ * h * (A.u * M + A.tiny) := by
  refine ⟨⟨n.re.fin, n.im.fin⟩, ?_⟩
  have h1 := Complex.norm_le_abs_re_add_abs_im (cval A a - z)
  have h2 := n.re.err
  have h3 := n.im.err
  simp only [cval, Complex.sub_re, Complex.sub_im] at h1
  have e : 2 * κ * h * (A.u * M + A.tiny) = κ * h * (A.u * M + A.tiny) + κ * h * (A.u * M + A.tiny) := by ring
  rw [e]
  exact h1.trans (add_le_add h2 h3)

theorem passF_near (E : Env A M h b) (hb : 48 * (p : ℝ) ^ 2 ≤ b) (hp : 0 < p) (hido : 0 < ido) (hl : 0 < l1)
    {core : (ℕ → Cx F) → ℕ → Out (Cx F)}
    (hcore : ∀ (x : ℕ → Cx F) (z : ℕ → ℂ), (∀ j, j < p → NearC A M h (x j) (z j) 0 1) → ∀ j, j < p →
      ∃ y, core x j = .ok y ∧ CoreNear A M h fwd p y z j)
    {B W' : ℕ → Cx F} {W : ℕ → ℂ} (hB : ∀ n, n < ido * p * l1 → FinC A (B n) ∧ ‖cval A (B n)‖ ≤ M)
    (hW : ∀ i j, 0 < i → i < ido → 0 < j → j < p → ConstC A h (W' (wx ido (j - 1) i)) (W (wx ido (j - 1) i)))
    {ch : List (Cx F)} (hc : ch.length = ido * p * l1) :
    ∃ B', passF p core fwd ido l1 (tab (ido * p * l1) B) ch (tab ((p - 1) * (ido - 1)) W')
        = .ok (tab (ido * p * l1) B') ∧
      ∀ n, n < ido * p * l1 → FinC A (B' n) ∧
        ‖cval A (B' n) - stageV fwd p ido l1 (fun n => cval A (B n)) W n‖
          ≤ 32 * (p : ℝ) ^ 2 * h * (A.u * M + A.tiny) := by
  obtain ⟨xs, hxs⟩ : ∃ xs : ℕ → ℕ → List (Cx F), xs = fun i k => tab p (fun b => B (ix ido p i b k)) := ⟨_, rfl⟩
  have hget : ∀ i k b, b < p → (xs i k).getD b ⟨0, 0⟩ = B (ix ido p i b k) := by
    intro i k b hb
    rw [hxs, List.getD_eq_getElem?_getD, Pocket.tab_get?, if_pos hb]
    rfl
  have hb0 : 0 ≤ (p : ℝ) ^ 2 := by positivity
  have key : ∀ n, ∃ v, n < ido * p * l1 → (∃ y, core (fun b => (xs (n % ido) (n / ido % l1)).getD b ⟨0, 0⟩) (n / ido / l1)
        = .ok y ∧ v = if n % ido = 0 ∨ n / ido / l1 = 0 then y
          else smul fwd y (W' (wx ido (n / ido / l1 - 1) (n % ido)))) ∧
      NearC A M h v (stageV fwd p ido l1 (fun n => cval A (B n)) W n) (16 * (p : ℝ) ^ 2) (16 * (p : ℝ) ^ 2) := by
    intro n
    by_cases hn : n < ido * p * l1
    · have hn' : n < ido * l1 * p := by rw [Nat.mul_right_comm]; exact hn
      obtain ⟨h1, h2, h3⟩ := ix_cases hn'
      unfold stageV
      obtain ⟨i, hi⟩ : ∃ i, i = n % ido := ⟨_, rfl⟩
      obtain ⟨k, hk⟩ : ∃ k, k = n / ido % l1 := ⟨_, rfl⟩
      obtain ⟨j, hj⟩ : ∃ j, j = n / ido / l1 := ⟨_, rfl⟩
      rw [← hi, ← hk, ← hj]
      rw [← hi] at h1
      rw [← hk] at h2
      rw [← hj] at h3
      obtain ⟨y, e1, κ, m, e2, e3⟩ := hcore (fun b => (xs i k).getD b ⟨0, 0⟩) (fun b => cval A (B (ix ido p i b k)))
        (by
          intro b hb
          rw [hget i k b hb]
          obtain ⟨g1, g2⟩ := hB _ (ix_lt h1 hb h2)
          exact near_self g1 g2) j h3
      have hκ := e2.re.κ0
      have hm := e2.re.m0
      by_cases h0 : i = 0 ∨ j = 0
      · refine ⟨y, fun _ => ⟨⟨y, e1, by rw [if_pos h0]⟩, ?_⟩⟩
        unfold stage
        rw [if_pos h0]
        exact e2.mono E (by linarith) (by linarith)
      · refine ⟨_, fun _ => ⟨⟨y, e1, rfl⟩, ?_⟩⟩
        unfold stage
        rw [if_neg h0, if_neg h0]
        push Not at h0
        exact (e2.smul E fwd (hW i j (by omega) h1 (by omega) h3) (by linarith)).mono E (by linarith) (by linarith)
    · exact ⟨⟨0, 0⟩, fun h => absurd h hn⟩
  choose V hV using key
  have idx : ∀ i k j, i < ido → k < l1 → j < p → ix ido l1 i k j < ido * p * l1 := by
    intro i k j hi hk hj
    rw [Nat.mul_right_comm]
    exact ix_lt hi hk hj
  have hVix : ∀ i k j, i < ido → k < l1 → j < p → ∃ y, core (fun b => (xs i k).getD b ⟨0, 0⟩) j = .ok y ∧
      V (ix ido l1 i k j) = if i = 0 ∨ j = 0 then y else smul fwd y (W' (wx ido (j - 1) i)) := by
    intro i k j hi hk hj
    obtain ⟨⟨y, e1, e2⟩, -⟩ := hV _ (idx i k j hi hk hj)
    rw [Pocket.ix_mod hi, Pocket.ix_div hi] at e1 e2
    have g1 : (k + l1 * j) % l1 = k := by rw [Nat.add_mul_mod_self_left, Nat.mod_eq_of_lt hk]
    have g2 : (k + l1 * j) / l1 = j := by
      rw [Nat.add_mul_div_left _ _ (by omega), Nat.div_eq_of_lt hk, Nat.zero_add]
    rw [g1, g2] at e1
    rw [g2] at e2
    exact ⟨y, e1, e2⟩
  have hread : ∀ i k, i < ido → k < l1 →
      (List.range p).mapM (fun b => ld (tab (ido * p * l1) B) (ix ido p i b k)) = .ok (xs i k) := by
    intro i k hi hk
    rw [hxs]
    apply mapM_tab
    intro b hb
    exact ld_tab (ix_lt hi hb hk)
  refine ⟨V, ?_, fun n hn => ?_⟩
  · unfold passF
    refine passLoop_ok hido ?_ ?_ hc
    · intro k hk
      simp only [hread 0 k hido hk, Out.ok_bind]
      refine (fills_forN (T := fun j n => n = ix ido l1 0 k j) ?_).mono ?_
      · intro j hj
        obtain ⟨y, e1, e2⟩ := hVix 0 k j hido hk hj
        rw [if_pos (Or.inl rfl)] at e2
        simp only [e1, Out.ok_bind]
        exact fills_st (idx 0 k j hido hk hj) e2.symm
      · rintro n - ⟨j, hj, e⟩; exact ⟨j, hj, e⟩
    · intro k i hk hi0 hi
      simp only [hread i k hi hk, Out.ok_bind]
      refine (fills_forN (T := fun j n => n = ix ido l1 i k j) ?_).mono ?_
      · intro j hj
        obtain ⟨y, e1, e2⟩ := hVix i k j hi hk hj
        simp only [e1, Out.ok_bind]
        by_cases h0 : j = 0
        · rw [if_pos (Or.inr h0)] at e2
          simp only [if_pos h0]
          exact fills_st (idx i k j hi hk hj) e2.symm
        · rw [if_neg (by omega)] at e2
          simp only [if_neg h0, ld_tab (wx_lt (ip := p - 1) hi0 hi (show j - 1 < p - 1 by omega)), Out.ok_bind]
          exact fills_st (idx i k j hi hk hj) e2.symm
      · rintro n - ⟨j, hj, e⟩; exact ⟨j, hj, e⟩
  · have := (hV n hn).2.norm
    refine ⟨this.1, this.2.trans (le_of_eq (by ring))⟩

/-! ### the butterfly of every radix -/

theorem w_false_re (fwd : Bool) (n m : ℕ) : (w fwd n m).re = (w false n m).re := rfl

theorem w_im (fwd : Bool) (n m : ℕ) : (w fwd n m).im = if fwd then -(w false n m).im else (w false n m).im := by
  unfold w cI
  cases fwd <;> simp

variable {L : Lits F} {one : F}

theorem coreOf_near (E : Env A M h b) (H : LitsOk A h L) {f : Factor F} (hr : Pocket.Radix f.fct)
    (hb : 48 * (f.fct : ℝ) ^ 2 ≤ b) {T : ℕ → Cx F} (hT : 11 < f.fct → f.tws = tab f.fct T)
    (hTa : ∀ i, 0 < i → i < f.fct → ConstC A h (T i) (w false f.fct i))
    (x : ℕ → Cx F) (z : ℕ → ℂ) (hx : ∀ j, j < f.fct → NearC A M h (x j) (z j) 0 1) (j : ℕ) (hj : j < f.fct) :
    ∃ y, coreOf L one fwd f x j = .ok y ∧ CoreNear A M h fwd f.fct y z j := by
  obtain ⟨p, ftw, tws⟩ := f
  simp only [] at *
  unfold coreOf
  simp only []
  by_cases c4 : p = 4
  · subst c4; rw [if_pos rfl]
    exact ⟨_, rfl, core4_near E (by exact_mod_cast hb) hx hj⟩
  rw [if_neg c4]
  by_cases c8 : p = 8
  · subst c8; rw [if_pos rfl]
    exact ⟨_, rfl, core8_near E H (by exact_mod_cast hb) hx hj⟩
  rw [if_neg c8]
  by_cases c2 : p = 2
  · subst c2; rw [if_pos rfl]
    exact ⟨_, rfl, core2_near E (by exact_mod_cast hb) hx hj⟩
  rw [if_neg c2]
  by_cases c3 : p = 3
  · subst c3; rw [if_pos rfl]
    exact ⟨_, rfl, core3_near E H (by exact_mod_cast hb) hx hj⟩
  rw [if_neg c3]
  by_cases c5 : p = 5
  · subst c5; rw [if_pos rfl]
    exact ⟨_, rfl, core5_near E H (by exact_mod_cast hb) hx hj⟩
  rw [if_neg c5]
  by_cases c7 : p = 7
  · subst c7; rw [if_pos rfl]
    exact ⟨_, rfl, core7_near E H (by exact_mod_cast hb) hx hj⟩
  rw [if_neg c7]
  by_cases c11 : p = 11
  · subst c11; rw [if_pos rfl]
    exact ⟨_, rfl, core11_near E H (by exact_mod_cast hb) hx hj⟩
  rw [if_neg c11]
  obtain ⟨hpr, h11⟩ := Pocket.radix_other hr c4 c8 c2 c3 c5 c7 c11
  have hw : gwal one fwd tws = tab p (fun i => if i = 0 then ⟨one, 0⟩
      else ⟨(T i).re, if fwd then -(T i).im else (T i).im⟩) := by
    unfold gwal
    rw [hT h11, Pocket.tab_length]
    apply Pocket.tab_congr
    intro i hi
    rw [List.getD_eq_getElem?_getD, Pocket.tab_get?, if_pos hi]
    rfl
  rw [hw]
  refine coreG_near E hpr (by omega) hb hx ?_ hj
  intro i h0 hi
  rw [if_neg (by omega)]
  have t := hTa i h0 hi
  refine ⟨t.re, ?_⟩
  rw [w_im]
  cases fwd
  · exact t.im
  · exact t.im.neg

/-! ### all passes -/

/-- what the tables of exact roots must look like -/
def TwOk (A : FloatArithNeg F) (h : ℝ) (N : ℕ) (tw : ℕ → Cx F) : Prop :=
  ∀ idx, idx ≤ N → ConstC A h (tw idx) (w false N idx)

theorem ctwiddle_near {tw : ℕ → Cx F} {ip : ℕ} (hN : 0 < N) (ht : TwOk A h N tw) (hd : N = ido * ip * l1) :
    ∃ (W' : ℕ → Cx F) (T : ℕ → Cx F), (ctwiddle tw l1 ip ido).fct = ip ∧
      (ctwiddle tw l1 ip ido).tw = tab ((ip - 1) * (ido - 1)) W' ∧
      (11 < ip → (ctwiddle tw l1 ip ido).tws = tab ip T) ∧
      (∀ i, 0 < i → i < ip → ConstC A h (T i) (w false ip i)) ∧
      (∀ i j, 0 < i → i < ido → 0 < j → j < ip → ConstC A h (W' (wx ido (j - 1) i)) (w false N (j * l1 * i))) := by
  refine ⟨_, fun j => tw (j * l1 * ido), rfl, rfl, fun h => ?_, ?_, ?_⟩
  · unfold ctwiddle
    simp only []
    rw [if_pos h]
    rfl
  · intro i h0 hi
    have hpos : 0 < l1 * ido := by
      rcases Nat.eq_zero_or_pos (l1 * ido) with e | e
      · have : N = l1 * ido * ip := by rw [hd]; ring
        rw [e] at this; omega
      · exact e
    have := ht (i * l1 * ido) (by
      calc i * l1 * ido ≤ ip * l1 * ido := Nat.mul_le_mul_right _ (Nat.mul_le_mul_right _ hi.le)
        _ = N := by rw [hd]; ring)
    have e : w false N (i * l1 * ido) = w false ip i := by
      rw [show N = ip * (l1 * ido) by rw [hd]; ring, show i * l1 * ido = i * (l1 * ido) by ring, Pocket.w_scale _ hpos]
    rwa [e] at this
  · intro i j hi hi' hj hj'
    have e4 : (i - 1 + (j - 1) * (ido - 1)) / (ido - 1) = j - 1 := by
      rw [Nat.add_mul_div_right _ _ (by omega), Nat.div_eq_of_lt (by omega), Nat.zero_add]
    have e5 : (i - 1 + (j - 1) * (ido - 1)) % (ido - 1) = i - 1 := by
      rw [Nat.add_mul_mod_self_right, Nat.mod_eq_of_lt (by omega)]
    unfold wx
    rw [e4, e5, Nat.sub_add_cancel hi, Nat.sub_add_cancel hj]
    apply ht
    calc j * l1 * i ≤ ip * l1 * ido := Nat.mul_le_mul (Nat.mul_le_mul_right _ hj'.le) hi'.le
      _ = N := by rw [hd]; ring

/-- the numbers of one step -/
theorem env_step {X P S D : ℝ} {p l1 N : ℕ} (h1 : 1 ≤ h) (hX : 0 ≤ X) (hS : 0 ≤ S) (hP : p + S + 1 ≤ P)
    (hp : 1 ≤ p) (hl : 1 ≤ l1) (hN : p * l1 ≤ N) (hu : 96 * (h * P) ^ 2 * A.u ≤ 1)
    (hH : 2400 * h ^ 3 * P ^ 2 * N * (X + A.tiny) ≤ A.huge) (hD : D = A.u * X + A.tiny) :
    Env A (l1 * X + l1 * (48 * h * S * D)) h (48 * (p : ℝ) ^ 2) ∧
      32 * (p : ℝ) ^ 2 * h * (A.u * (l1 * X + l1 * (48 * h * S * D)) + A.tiny) ≤ 48 * (p : ℝ) ^ 2 * h * (l1 * D) := by
  have u0 := A.u_nonneg
  have t0 := A.tiny_nonneg
  have hp1 : (1 : ℝ) ≤ p := by exact_mod_cast hp
  have hl1 : (1 : ℝ) ≤ l1 := by exact_mod_cast hl
  have hNN : (p : ℝ) * l1 ≤ N := by exact_mod_cast hN
  have hP1 : 1 ≤ P := by linarith
  have hhP : 1 ≤ h * P := one_le_mul_of_one_le_of_one_le h1 hP1
  have hD0 : 0 ≤ D := by rw [hD]; positivity
  have q1 : h * P ≤ (h * P) ^ 2 := by nlinarith
  have hSP : h * S ≤ (h * P) ^ 2 := by
    have : h * S ≤ h * P := mul_le_mul_of_nonneg_left (by linarith) (by linarith)
    linarith
  have hsu : 48 * h * S * A.u ≤ 1 / 2 := by
    have : h * S * A.u ≤ (h * P) ^ 2 * A.u := mul_le_mul_of_nonneg_right hSP u0
    linarith
  have hu1 : A.u ≤ 1 := by
    have : 1 * A.u ≤ (h * P) ^ 2 * A.u := mul_le_mul_of_nonneg_right (by linarith) u0
    linarith
  have hDX : D ≤ X + A.tiny := by
    have : A.u * X ≤ 1 * X := mul_le_mul_of_nonneg_right hu1 hX
    rw [hD]; linarith
  refine ⟨⟨by positivity, h1, ?_, ?_⟩, ?_⟩
  · have : (p : ℝ) ^ 2 ≤ P ^ 2 := by
      have : (p : ℝ) ≤ P := by linarith
      gcongr
    have g : (p : ℝ) ^ 2 * (h ^ 2 * A.u) ≤ P ^ 2 * (h ^ 2 * A.u) := by gcongr
    have e : (h * P) ^ 2 * A.u = P ^ 2 * (h ^ 2 * A.u) := by ring
    have : 0 ≤ P ^ 2 * (h ^ 2 * A.u) := by positivity
    linarith
  · have g1 : l1 * X + l1 * (48 * h * S * D) + A.tiny ≤ 49 * (h * P) * (l1 * (X + A.tiny)) := by
      have a1 : A.tiny ≤ l1 * A.tiny := by nlinarith
      have a2 : l1 * X + l1 * A.tiny ≤ h * P * (l1 * (X + A.tiny)) := by
        have : 0 ≤ (l1 : ℝ) * (X + A.tiny) := by positivity
        nlinarith
      have a3 : l1 * (48 * h * S * D) ≤ l1 * (48 * h * P * (X + A.tiny)) := by
        have : S ≤ P := by linarith
        gcongr
      linarith
    have g2 : (p : ℝ) * P * (p * l1) ≤ P * P * N := by
      have : (p : ℝ) ≤ P := by linarith
      gcongr
    have hXt : 0 ≤ X + A.tiny := by positivity
    calc 48 * (p : ℝ) ^ 2 * h ^ 2 * (l1 * X + l1 * (48 * h * S * D) + A.tiny)
        ≤ 48 * (p : ℝ) ^ 2 * h ^ 2 * (49 * (h * P) * (l1 * (X + A.tiny))) := by gcongr
      _ = 2352 * h ^ 3 * (p * P * (p * l1)) * (X + A.tiny) := by ring
      _ ≤ 2400 * h ^ 3 * (P * P * N) * (X + A.tiny) := by gcongr; norm_num
      _ = 2400 * h ^ 3 * P ^ 2 * N * (X + A.tiny) := by ring
      _ ≤ _ := hH
  · have g1 : A.u * (l1 * X + l1 * (48 * h * S * D)) + A.tiny ≤ 3 / 2 * (l1 * D) := by
      have a1 : A.tiny ≤ l1 * A.tiny := by nlinarith
      have a2 : (48 * h * S * A.u) * (l1 * D) ≤ 1 / 2 * (l1 * D) := by gcongr
      have e : A.u * (l1 * X + l1 * (48 * h * S * D)) = l1 * (A.u * X) + (48 * h * S * A.u) * (l1 * D) := by ring
      rw [e]
      have : l1 * D = l1 * (A.u * X) + l1 * A.tiny := by rw [hD]; ring
      linarith
    have : 32 * (p : ℝ) ^ 2 * h * (A.u * (l1 * X + l1 * (48 * h * S * D)) + A.tiny)
        ≤ 32 * (p : ℝ) ^ 2 * h * (3 / 2 * (l1 * D)) := by gcongr
    linarith

theorem passLoopAll_near {tw : ℕ → Cx F} {X P D : ℝ} {x : ℕ → ℂ} (hN : 0 < N) (H : LitsOk A h L) (ht : TwOk A h N tw)
    (h1 : 1 ≤ h) (hX : 0 ≤ X) (hu : 96 * (h * P) ^ 2 * A.u ≤ 1)
    (hH : 2400 * h ^ 3 * P ^ 2 * N * (X + A.tiny) ≤ A.huge) (hD : D = A.u * X + A.tiny) :
    ∀ (fs : List ℕ) (l1 : ℕ) (S : ℝ) (B : ℕ → Cx F) (C : ℕ → ℂ) (p2 : List (Cx F)), (∀ f ∈ fs, Pocket.Radix f) →
      l1 * fs.prod = N → 0 < l1 → 0 ≤ S → S + (fs.sum : ℕ) + 1 ≤ P → p2.length = N →
      Pocket.Rows fwd N l1 (N / l1) x C → (∀ n, n < N → ‖C n‖ ≤ l1 * X) →
      (∀ n, n < N → FinC A (B n) ∧ ‖cval A (B n) - C n‖ ≤ l1 * (48 * h * S * D)) →
      ∃ B', passLoopAll L one fwd N l1 (ctwiddles tw N l1 fs) (tab N B) p2 = .ok (tab N B') ∧
        ∀ k, k < N → FinC A (B' k) ∧ ‖cval A (B' k) - ∑ n ∈ Finset.range N, x n * w fwd N (n * k)‖
          ≤ N * (48 * h * (S + (fs.sum : ℕ)) * D)
  | [], l1, S, B, C, p2, hr, hpr, hl, hS, hP, hp2, hrows, hC, hB => by
    have e : l1 = N := by simpa using hpr
    subst e
    rw [Nat.div_self hl] at hrows
    refine ⟨B, rfl, fun k hk => ⟨(hB k hk).1, ?_⟩⟩
    rw [← Pocket.rows_end hrows hk]
    simpa using (hB k hk).2
  | p :: fs, l1, S, B, C, p2, hr, hpr, hl, hS, hP, hp2, hrows, hC, hB => by
    have hrp : Pocket.Radix p := hr p (by simp)
    have hp := Pocket.radix_pos hrp
    rw [List.prod_cons] at hpr
    rw [List.sum_cons] at hP ⊢
    rw [Nat.cast_add] at hP ⊢
    have hs0 : (0 : ℝ) ≤ (fs.sum : ℕ) := Nat.cast_nonneg _
    obtain ⟨ido, hido'⟩ : ∃ ido, ido = fs.prod := ⟨_, rfl⟩
    have hNN : N = ido * p * l1 := by rw [← hpr, hido']; ring
    have hido : 0 < ido := by
      rcases Nat.eq_zero_or_pos ido with e | e
      · rw [e] at hNN; simp at hNN; omega
      · exact e
    have hM1 : N / l1 = ido * p := by rw [hNN, Nat.mul_div_cancel _ hl]
    have hM2 : N / (l1 * p) = ido := by
      rw [hNN, show ido * p * l1 = ido * (l1 * p) by ring, Nat.mul_div_cancel _ (Nat.mul_pos hl (by omega))]
    have hM3 : N / (p * l1) = ido := by rw [Nat.mul_comm p l1, hM2]
    rw [hM1] at hrows
    have hpl : p * l1 ≤ N := by
      rw [hNN, Nat.mul_assoc]; exact Nat.le_mul_of_pos_left _ hido
    obtain ⟨E, hstep⟩ := env_step (A := A) (h := h) (X := X) (P := P) (S := S) (D := D) (p := p) (l1 := l1) (N := N)
      h1 hX hS (by linarith) (by omega) hl hpl hu hH hD
    obtain ⟨W', T, g1, g2, g3, g4, g5⟩ := ctwiddle_near (l1 := l1) (ido := ido) (ip := p) hN ht hNN
    obtain ⟨W, hWdef⟩ : ∃ W : ℕ → ℂ, ∀ i j, 0 < i → i < ido → 0 < j → j < p →
        W (wx ido (j - 1) i) = w false N (j * l1 * i) := by
      refine ⟨fun n => w false N ((n / (ido - 1) + 1) * l1 * (n % (ido - 1) + 1)), ?_⟩
      intro i j hi hi' hj hj'
      have e4 : (i - 1 + (j - 1) * (ido - 1)) / (ido - 1) = j - 1 := by
        rw [Nat.add_mul_div_right _ _ (by omega), Nat.div_eq_of_lt (by omega), Nat.zero_add]
      have e5 : (i - 1 + (j - 1) * (ido - 1)) % (ido - 1) = i - 1 := by
        rw [Nat.add_mul_mod_self_right, Nat.mod_eq_of_lt (by omega)]
      unfold wx
      simp only [e4, e5, Nat.sub_add_cancel hi, Nat.sub_add_cancel hj]
    have hBM : ∀ n, n < N → FinC A (B n) ∧ ‖cval A (B n)‖ ≤ l1 * X + l1 * (48 * h * S * D) := by
      intro n hn
      refine ⟨(hB n hn).1, ?_⟩
      calc ‖cval A (B n)‖ = ‖C n + (cval A (B n) - C n)‖ := by ring_nf
        _ ≤ ‖C n‖ + ‖cval A (B n) - C n‖ := norm_add_le _ _
        _ ≤ _ := add_le_add (hC n hn) (hB n hn).2
    have hpass := passF_near (fwd := fwd) (p := p) (ido := ido) (l1 := l1) (B := B) (W' := W') (W := W) (ch := p2)
      (core := coreOf L one fwd (ctwiddle tw l1 p ido)) E le_rfl (by omega) hido hl
      (by
        intro x z hx j hj
        have := coreOf_near (one := one) (fwd := fwd) (f := ctwiddle tw l1 p ido) (T := T) E H (by rw [g1]; exact hrp)
          (by rw [g1]) (by rw [g1]; exact g3) (by rw [g1]; exact g4) x z (by rw [g1]; exact hx) j (by rw [g1]; exact hj)
        rwa [g1] at this)
      (by rw [← hNN]; exact hBM)
      (by intro i j hi hi' hj hj'; rw [hWdef i j hi hi' hj hj']; exact g5 i j hi hi' hj hj')
      (by rw [hp2, hNN])
    obtain ⟨B', e1, e2⟩ := hpass
    rw [← hNN] at e1 e2
    have hrows' := Pocket.rows_step (fwd := fwd) (x := x) (A := C) (W := W) hido (show 0 < p by omega) hl
      (by rw [← hNN]; exact hWdef) (by rw [← hNN]; exact hrows)
    rw [← hNN] at hrows'
    have hWex : ∀ i j, 0 < i → i < ido → 0 < j → j < p → ∃ m, W (wx ido (j - 1) i) = w false N m :=
      fun i j a1 a2 a3 a4 => ⟨_, hWdef i j a1 a2 a3 a4⟩
    have ih := passLoopAll_near (tw := tw) (x := x) hN H ht h1 hX hu hH hD fs (p * l1) (S + p) B'
      (stageV fwd p ido l1 C W) (tab N B) (fun f hf => hr f (by simp [hf]))
      (by rw [← hpr]; ring) (Nat.mul_pos (by omega) hl) (by positivity) (by linarith) (by simp)
      (by rw [hM3]; exact hrows')
      (by
        intro n hn
        have := stageV_norm (fwd := fwd) (B := C) (W := W) (D := l1 * X) (p := p) (ido := ido) (l1 := l1) (N := N)
          (by omega) hl hWex (by rw [← hNN]; exact hC) (n := n) (by rw [← hNN]; exact hn)
        push_cast
        linarith)
      (by
        intro n hn
        refine ⟨(e2 n hn).1, ?_⟩
        have a1 := (e2 n hn).2
        have a2 := stageV_lip (fwd := fwd) (B := fun n => cval A (B n)) (C := C) (W := W)
          (D := l1 * (48 * h * S * D)) (p := p) (ido := ido) (l1 := l1) (N := N)
          (by omega) hl hWex (by rw [← hNN]; exact fun n hn => (hB n hn).2) (n := n) (by rw [← hNN]; exact hn)
        have a3 := norm_sub_le_norm_sub_add_norm_sub (cval A (B' n))
          (stageV fwd p ido l1 (fun n => cval A (B n)) W n) (stageV fwd p ido l1 C W n)
        push_cast
        have e : (p : ℝ) * l1 * (48 * h * (S + p) * D)
            = 48 * (p : ℝ) ^ 2 * h * (l1 * D) + p * (l1 * (48 * h * S * D)) := by ring
        rw [e]
        linarith)
    obtain ⟨B'', i1, i2⟩ := ih
    refine ⟨B'', ?_, fun k hk => ?_⟩
    · rw [ctwiddles, passLoopAll, hM2]
      simp only [g1]
      rw [hM3, g2, e1, Out.ok_bind, Nat.mul_comm l1 p]
      exact i1
    · have := i2 k hk
      rwa [add_assoc] at this

end Verif.PocketF
