import Verif.Lemmas.PocketFTwiddle
import Verif.Lemmas.PocketBlue
import Verif.Lemmas.FFT
import Verif.Lemmas.BinaryFormat
import Verif.Props.RoundedConvolution
import Verif.Spec.Dft

/-! # C89: the complex FFT in floating point -/

set_option linter.unusedSimpArgs false
set_option linter.unusedSectionVars false
set_option linter.unusedVariables false

namespace Verif
open PocketF

variable {F : Type} [Zero F] [Add F] [Sub F] [Mul F] [Fma F] [Neg F]

namespace PocketF

theorem primeSum_mul {a b : ℕ} (ha : a ≠ 0) (hb : b ≠ 0) : primeSum (a * b) = primeSum a + primeSum b := by
  unfold primeSum
  rw [(Nat.perm_primeFactorsList_mul ha hb).sum_eq, List.sum_append]

theorem radix_sum : ∀ fs : List ℕ, (∀ f ∈ fs, Pocket.Radix f) → fs.prod ≠ 0 ∧ 3 * fs.sum ≤ 4 * primeSum fs.prod
  | [], _ => by simp [primeSum]
  | f :: fs, h => by
    obtain ⟨h1, h2⟩ := radix_sum fs (fun g hg => h g (by simp [hg]))
    have hf := Pocket.radix_pos (h f (by simp))
    rw [List.prod_cons, List.sum_cons, primeSum_mul (by omega) h1]
    refine ⟨Nat.mul_ne_zero (by omega) h1, ?_⟩
    have : 3 * f ≤ 4 * primeSum f := by
      rcases h f (by simp) with e | e | e
      · subst e
        have : primeSum 4 = 4 := by
          rw [show (4 : ℕ) = 2 * 2 by norm_num, primeSum_mul (by norm_num) (by norm_num)]
          simp [primeSum, Nat.primeFactorsList_prime Nat.prime_two]
        omega
      · subst e
        have : primeSum 8 = 6 := by
          rw [show (8 : ℕ) = 2 * 2 * 2 by norm_num, primeSum_mul (by norm_num) (by norm_num),
            primeSum_mul (by norm_num) (by norm_num)]
          simp [primeSum, Nat.primeFactorsList_prime Nat.prime_two]
        omega
      · have : primeSum f = f := by simp [primeSum, Nat.primeFactorsList_prime e]
        omega
    omega

theorem list_tabC {α : Type} (x : List α) (d : α) : x = Pocket.tab x.length (fun m => x.getD m d) := by
  apply Pocket.eq_tab rfl
  intro n hn
  rw [List.getElem?_eq_getElem hn, List.getD_eq_getElem?_getD, List.getElem?_eq_getElem hn]
  rfl

variable {A : FloatArithNeg F}

theorem TableOk.twOk {h : ℝ} {n : ℕ} {tw : ℕ → Cx F} (ht : TableOk A h n tw) : TwOk A h n tw := by
  intro idx hi
  obtain ⟨a, b⟩ := ht idx hi
  refine ⟨⟨?_, ?_⟩, ⟨?_, ?_⟩⟩
  · simpa [Pocket.w, Pocket.cR] using a
  · simpa [Pocket.w, Pocket.cR] using Real.abs_cos_le_one _
  · simpa [Pocket.w, Pocket.cI] using b
  · simpa [Pocket.w, Pocket.cI] using Real.abs_sin_le_one _

/-- the exact transform that is being approximated, by entry -/
noncomputable def dftSum (A : FloatArithNeg F) (fwd : Bool) (x : List (Cx F)) (k : ℕ) : ℂ :=
  ∑ j ∈ Finset.range x.length,
    cval A (x.getD j ⟨0, 0⟩) * rootOfUnity x.length ((if fwd then -1 else 1) * ((j : ℤ) * k))

theorem dftSum_w (fwd : Bool) (x : List (Cx F)) (k : ℕ) :
    ∑ n ∈ Finset.range x.length, cval A (x.getD n ⟨0, 0⟩) * Pocket.w fwd x.length (n * k) = dftSum A fwd x k := by
  apply Finset.sum_congr rfl
  intro m _
  rw [Pocket.w_ru]
  simp only [Pocket.sgn, Nat.cast_mul]

end PocketF

open PocketF

/-- **C89**: the mixed-radix complex transform of every length, in any floating point format: no overflow, and every
bin is within `64 h n Q` rounding errors of the exact transform, where `Q` is the sum of the prime factors of `n`. -/
theorem C89_mixed_radix (A : FloatArithNeg F) (h X : ℝ) (L : Lits F) (one : F) (tw : ℕ → Cx F) (fwd : Bool)
    (x scratch : List (Cx F)) (hx : x ≠ []) (hs : scratch.length = x.length)
    (h1 : 1 ≤ h) (hL : LitsOk A h L) (ht : TableOk A h x.length tw)
    (hf : ∀ c ∈ x, FinC A c ∧ ‖cval A c‖ ≤ X)
    (hu : 192 * (h * (primeSum x.length + 1)) ^ 2 * A.u ≤ 1)
    (hH : 4800 * h ^ 3 * (primeSum x.length + 1) ^ 2 * x.length * (X + A.tiny) ≤ A.huge) :
    ∃ y, cfftExec L one tw fwd none x scratch = .ok y ∧ y.length = x.length ∧ ∀ k, k < x.length →
      FinC A (y.getD k ⟨0, 0⟩) ∧
      ‖cval A (y.getD k ⟨0, 0⟩)
          - ∑ j ∈ Finset.range x.length,
            cval A (x.getD j ⟨0, 0⟩) * rootOfUnity x.length ((if fwd then -1 else 1) * ((j : ℤ) * k))‖
        ≤ 64 * h * x.length * primeSum x.length * (A.u * X + A.tiny) := by
  have hn : 0 < x.length := List.length_pos_iff.2 hx
  have u0 := A.u_nonneg
  have t0 := A.tiny_nonneg
  have hX : 0 ≤ X := (norm_nonneg _).trans (hf _ (List.getElem_mem hn)).2
  have hget : ∀ n, n < x.length → x.getD n ⟨0, 0⟩ ∈ x := by
    intro n hn
    rw [List.getD_eq_getElem?_getD, List.getElem?_eq_getElem hn]
    exact List.getElem_mem hn
  by_cases hn1 : x.length = 1
  · have e : cfftExec L one tw fwd none x scratch = .ok x := by
      unfold cfftExec
      rw [if_neg (by omega), if_pos hn1]
    refine ⟨x, e, rfl, fun k hk => ⟨(hf _ (hget k hk)).1, ?_⟩⟩
    have hk0 : k = 0 := by omega
    subst hk0
    rw [hn1]
    simp [rootOfUnity]
    positivity
  obtain ⟨fs, e1, e2, e3⟩ := Pocket.cfactorize_ok hn
  obtain ⟨g1, g2⟩ := radix_sum fs e3
  rw [e2] at g2
  obtain ⟨Q, hQ⟩ : ∃ Q : ℝ, Q = primeSum x.length := ⟨_, rfl⟩
  have g3 : 3 * ((fs.sum : ℕ) : ℝ) ≤ 4 * Q := by rw [hQ]; exact_mod_cast g2
  have s0 : (0 : ℝ) ≤ ((fs.sum : ℕ) : ℝ) := Nat.cast_nonneg _
  rw [← hQ] at hu hH ⊢
  have hP : ((fs.sum : ℕ) : ℝ) + 1 ≤ 4 / 3 * (Q + 1) := by linarith
  have key := passLoopAll_near (A := A) (h := h) (L := L) (one := one) (fwd := fwd) (N := x.length) (tw := tw) (X := X)
    (P := (fs.sum : ℕ) + 1) (D := A.u * X + A.tiny) (x := fun n => cval A (x.getD n ⟨0, 0⟩)) hn hL ht.twOk h1 hX
    (by
      have : (h * (((fs.sum : ℕ) : ℝ) + 1)) ^ 2 ≤ (h * (4 / 3 * (Q + 1))) ^ 2 := by gcongr
      have : (h * (((fs.sum : ℕ) : ℝ) + 1)) ^ 2 * A.u ≤ (h * (4 / 3 * (Q + 1))) ^ 2 * A.u := by gcongr
      have e : (h * (4 / 3 * (Q + 1))) ^ 2 * A.u = 16 / 9 * ((h * (Q + 1)) ^ 2 * A.u) := by ring
      have : 0 ≤ (h * (Q + 1)) ^ 2 * A.u := by positivity
      linarith)
    (by
      refine le_trans ?_ hH
      have : (((fs.sum : ℕ) : ℝ) + 1) ^ 2 ≤ (4 / 3 * (Q + 1)) ^ 2 := by gcongr
      have : (((fs.sum : ℕ) : ℝ) + 1) ^ 2 ≤ 2 * (Q + 1) ^ 2 := by nlinarith [sq_nonneg (Q + 1)]
      calc 2400 * h ^ 3 * (((fs.sum : ℕ) : ℝ) + 1) ^ 2 * x.length * (X + A.tiny)
          ≤ 2400 * h ^ 3 * (2 * (Q + 1) ^ 2) * x.length * (X + A.tiny) := by gcongr
        _ = _ := by ring)
    rfl fs 1 0 (fun n => x.getD n ⟨0, 0⟩) (fun n => cval A (x.getD n ⟨0, 0⟩)) scratch e3
    (by rw [e2, one_mul]) one_pos le_rfl (by linarith) hs (by rw [Nat.div_one]; exact Pocket.rows_start)
    (by intro n hn; simpa using (hf _ (hget n hn)).2)
    (by intro n hn; exact ⟨(hf _ (hget n hn)).1, by simp⟩)
  obtain ⟨B, k1, k2⟩ := key
  rw [← list_tabC] at k1
  refine ⟨Pocket.tab x.length B, ?_, by simp, fun k hk => ?_⟩
  · unfold cfftExec
    rw [if_neg (by omega), if_neg hn1, e1, Out.ok_bind, k1, Out.ok_bind]
  · obtain ⟨a1, a2⟩ := k2 k hk
    have e : (Pocket.tab x.length B).getD k ⟨0, 0⟩ = B k := by
      rw [List.getD_eq_getElem?_getD, Pocket.tab_get?, if_pos hk]; rfl
    rw [e]
    refine ⟨a1, ?_⟩
    rw [dftSum_w] at a2
    change ‖cval A (B k) - dftSum A fwd x k‖ ≤ _
    refine a2.trans ?_
    have hD : 0 ≤ A.u * X + A.tiny := by positivity
    have : 48 * ((fs.sum : ℕ) : ℝ) ≤ 64 * Q := by linarith
    have c : 0 ≤ h * x.length * (A.u * X + A.tiny) := by positivity
    calc (x.length : ℝ) * (48 * h * (0 + ((fs.sum : ℕ) : ℝ)) * (A.u * X + A.tiny))
        = (48 * ((fs.sum : ℕ) : ℝ)) * (h * x.length * (A.u * X + A.tiny)) := by ring
      _ ≤ (64 * Q) * (h * x.length * (A.u * X + A.tiny)) := by gcongr
      _ = _ := by ring

/-- **C89**: the same with the scale factor that the front end passes (`1/n` for the inverse transform). -/
theorem C89_scaled (A : FloatArithNeg F) (h X : ℝ) (L : Lits F) (one f : F) (tw : ℕ → Cx F) (fwd : Bool)
    (x scratch : List (Cx F)) (hx : x ≠ []) (hs : scratch.length = x.length)
    (h1 : 1 ≤ h) (hL : LitsOk A h L) (ht : TableOk A h x.length tw)
    (hf : ∀ c ∈ x, FinC A c ∧ ‖cval A c‖ ≤ X)
    (hff : A.finite f) (hf2 : |A.val f| ≤ 2)
    (hu : 192 * (h * (primeSum x.length + 1)) ^ 2 * A.u ≤ 1)
    (hH : 4800 * h ^ 3 * (primeSum x.length + 1) ^ 2 * x.length * (X + A.tiny) ≤ A.huge) :
    ∃ y, cfftExec L one tw fwd (some f) x scratch = .ok y ∧ y.length = x.length ∧ ∀ k, k < x.length →
      FinC A (y.getD k ⟨0, 0⟩) ∧
      ‖cval A (y.getD k ⟨0, 0⟩)
          - A.val f * ∑ j ∈ Finset.range x.length,
            cval A (x.getD j ⟨0, 0⟩) * rootOfUnity x.length ((if fwd then -1 else 1) * ((j : ℤ) * k))‖
        ≤ |A.val f| * (h * x.length * (65 * primeSum x.length + 2) * (A.u * X + A.tiny)) + 2 * A.tiny := by
  obtain ⟨y, e, hl, hy⟩ := C89_mixed_radix A h X L one tw fwd x scratch hx hs h1 hL ht hf hu hH
  have hn : 0 < x.length := List.length_pos_iff.2 hx
  have u0 := A.u_nonneg
  have t0 := A.tiny_nonneg
  have hX : 0 ≤ X := (norm_nonneg _).trans (hf _ (List.getElem_mem hn)).2
  refine ⟨y.map (·.scale f), ?_, by simpa using hl, fun k hk => ?_⟩
  · unfold cfftExec at e ⊢
    rw [if_neg (by omega)] at e ⊢
    by_cases hn1 : x.length = 1
    · rw [if_pos hn1] at e ⊢
      cases e
      rfl
    · rw [if_neg hn1] at e ⊢
      obtain ⟨fs, e1, e⟩ := Out.bind_eq_ok.1 e
      obtain ⟨p1, e2, e⟩ := Out.bind_eq_ok.1 e
      cases e
      rw [e1, Out.ok_bind, e2, Out.ok_bind]
  obtain ⟨⟨fr, fi⟩, he⟩ := hy k hk
  change ‖cval A (y.getD k ⟨0, 0⟩) - dftSum A fwd x k‖ ≤ _ at he
  have hg : (y.map (·.scale f)).getD k ⟨0, 0⟩ = (y.getD k ⟨0, 0⟩).scale f := by
    have hk' : k < y.length := by omega
    rw [List.getD_eq_getElem?_getD, List.getD_eq_getElem?_getD, List.getElem?_eq_getElem hk',
      List.getElem?_eq_getElem (by simpa using hk')]
    simp
  change _ ∧ ‖_ - A.val f * dftSum A fwd x k‖ ≤ _
  rw [hg]
  obtain ⟨a, ha⟩ : ∃ a, a = y.getD k ⟨0, 0⟩ := ⟨_, rfl⟩
  rw [← ha] at fr fi he ⊢
  obtain ⟨Y, hY⟩ : ∃ Y, Y = dftSum A fwd x k := ⟨_, rfl⟩
  have hYn : ‖Y‖ ≤ x.length * X := by
    rw [hY, ← dftSum_w]
    have : ∀ n ∈ Finset.range x.length, ‖cval A (x.getD n ⟨0, 0⟩) * Pocket.w fwd x.length (n * k)‖ ≤ X := by
      intro n hn
      rw [norm_mul, norm_w, mul_one]
      have hn := Finset.mem_range.mp hn
      apply (hf _ _).2
      rw [List.getD_eq_getElem?_getD, List.getElem?_eq_getElem hn]
      exact List.getElem_mem hn
    refine (norm_sum_le_of_le _ this).trans (by simp)
  rw [← hY] at he ⊢
  obtain ⟨D, hD⟩ : ∃ D, D = A.u * X + A.tiny := ⟨_, rfl⟩
  obtain ⟨Q, hQ⟩ : ∃ Q : ℝ, Q = primeSum x.length := ⟨_, rfl⟩
  obtain ⟨N, hN⟩ : ∃ N : ℝ, N = x.length := ⟨_, rfl⟩
  have hQ0 : 0 ≤ Q := by rw [hQ]; exact Nat.cast_nonneg _
  have hN0 : 1 ≤ N := by rw [hN]; exact_mod_cast hn
  rw [← hD, ← hQ, ← hN] at he ⊢
  rw [← hQ] at hu hH
  rw [← hN] at hH hYn
  have hD0 : 0 ≤ D := by rw [hD]; positivity
  have hhQ : 1 ≤ h * (Q + 1) := one_le_mul_of_one_le_of_one_le h1 (by linarith)
  have hu1 : 192 * A.u ≤ 1 := by
    have : 1 * A.u ≤ (h * (Q + 1)) ^ 2 * A.u := mul_le_mul_of_nonneg_right (one_le_pow₀ hhQ) u0
    linarith
  have hDX : D ≤ X + A.tiny := by
    have : A.u * X ≤ 1 * X := mul_le_mul_of_nonneg_right (by linarith) hX
    rw [hD]; linarith
  have han : ‖cval A a‖ ≤ N * X + 64 * h * N * Q * D := by
    calc ‖cval A a‖ = ‖Y + (cval A a - Y)‖ := by ring_nf
      _ ≤ ‖Y‖ + ‖cval A a - Y‖ := norm_add_le _ _
      _ ≤ _ := add_le_add hYn he
  have hfit : 2 * (N * X + 64 * h * N * Q * D) ≤ A.huge := by
    refine le_trans ?_ hH
    have b1 : h ≤ h ^ 3 := by nlinarith [sq_nonneg h, mul_nonneg (by linarith : (0 : ℝ) ≤ h) (sq_nonneg (h - 1)), mul_self_nonneg (h - 1)]
    have b2 : Q ≤ (Q + 1) ^ 2 := by nlinarith
    have b3 : 1 ≤ (Q + 1) ^ 2 := one_le_pow₀ (by linarith)
    have b4 : 1 ≤ h ^ 3 := one_le_pow₀ h1
    have b5 : N * X ≤ h ^ 3 * (Q + 1) ^ 2 * N * (X + A.tiny) := by
      have : 1 * 1 * N * X ≤ h ^ 3 * (Q + 1) ^ 2 * N * (X + A.tiny) := by gcongr; linarith
      linarith
    have b6 : 64 * h * N * Q * D ≤ 64 * h ^ 3 * N * (Q + 1) ^ 2 * (X + A.tiny) := by gcongr
    have b7 : 0 ≤ h ^ 3 * (Q + 1) ^ 2 * N * (X + A.tiny) := by positivity
    nlinarith
  have comp : ∀ c, |A.val c| ≤ ‖cval A a‖ → A.finite c → A.finite (c * f) ∧
      |A.val (c * f) - A.val c * A.val f| ≤ A.u * (|A.val f| * (N * X + 64 * h * N * Q * D)) + A.tiny := by
    intro c hc hcf
    have p1 : |A.val c * A.val f| ≤ |A.val f| * (N * X + 64 * h * N * Q * D) := by
      rw [abs_mul, mul_comm]
      exact mul_le_mul_of_nonneg_left (hc.trans han) (abs_nonneg _)
    have p2 : |A.val c * A.val f| ≤ A.huge := by
      refine p1.trans (le_trans ?_ hfit)
      exact mul_le_mul_of_nonneg_right hf2 ((norm_nonneg _).trans han)
    obtain ⟨q1, q2⟩ := A.mul c f hcf hff p2
    refine ⟨q1, q2.trans ?_⟩
    gcongr
  obtain ⟨r1, r2⟩ := comp a.re (Complex.abs_re_le_norm (cval A a)) fr
  obtain ⟨i1, i2⟩ := comp a.im (Complex.abs_im_le_norm (cval A a)) fi
  refine ⟨⟨r1, i1⟩, ?_⟩
  have n1 : ‖cval A (a.scale f) - A.val f * cval A a‖
      ≤ 2 * (A.u * (|A.val f| * (N * X + 64 * h * N * Q * D)) + A.tiny) := by
    have g := Complex.norm_le_abs_re_add_abs_im (cval A (a.scale f) - A.val f * cval A a)
    have gr : (cval A (a.scale f) - A.val f * cval A a).re = A.val (a.re * f) - A.val a.re * A.val f := by
      simp [cval, Cx.scale]; ring
    have gi : (cval A (a.scale f) - A.val f * cval A a).im = A.val (a.im * f) - A.val a.im * A.val f := by
      simp [cval, Cx.scale]; ring
    rw [gr, gi] at g
    linarith
  have n2 : ‖(A.val f : ℂ) * cval A a - A.val f * Y‖ ≤ |A.val f| * (64 * h * N * Q * D) := by
    rw [← mul_sub, norm_mul, Complex.norm_real, Real.norm_eq_abs]
    exact mul_le_mul_of_nonneg_left he (abs_nonneg _)
  have n3 := norm_sub_le_norm_sub_add_norm_sub (cval A (a.scale f)) (A.val f * cval A a) (A.val f * Y)
  have c1 : 2 * (A.u * (N * X + 64 * h * N * Q * D)) ≤ 2 * (h * N * D) + h * N * Q * D := by
    have d1 : A.u * (N * X) ≤ h * N * D := by
      have : A.u * X ≤ D := by rw [hD]; linarith
      have : 1 * N * (A.u * X) ≤ h * N * D := by gcongr
      linarith
    have d2 : A.u * (64 * h * N * Q * D) ≤ 1 / 192 * (64 * h * N * Q * D) := by
      have : 0 ≤ 64 * h * N * Q * D := by positivity
      gcongr
      linarith
    have : 0 ≤ h * N * Q * D := by positivity
    linarith
  have c2 := mul_le_mul_of_nonneg_left c1 (abs_nonneg (A.val f))
  refine n3.trans ?_
  have e1 : |A.val f| * (h * N * (65 * Q + 2) * D) + 2 * A.tiny
      = |A.val f| * (64 * h * N * Q * D) + (|A.val f| * (2 * (h * N * D) + h * N * Q * D) + 2 * A.tiny) := by ring
  have e2 : 2 * (A.u * (|A.val f| * (N * X + 64 * h * N * Q * D)) + A.tiny)
      = |A.val f| * (2 * (A.u * (N * X + 64 * h * N * Q * D))) + 2 * A.tiny := by ring
  rw [e1]
  rw [e2] at n1
  linarith

/-- the exact backward transform undoes the exact forward transform -/
theorem PocketF.idft_dft {n : ℕ} (hn : n ≠ 0) (z : ℕ → ℂ) {j : ℕ} (hj : j < n) :
    ∑ k ∈ Finset.range n, (∑ i ∈ Finset.range n, z i * rootOfUnity n (-1 * ((i : ℤ) * k))) * rootOfUnity n (1 * ((k : ℤ) * j))
      = n * z j := by
  have e : ∀ k ∈ Finset.range n,
      (∑ i ∈ Finset.range n, z i * rootOfUnity n (-1 * ((i : ℤ) * k))) * rootOfUnity n (1 * ((k : ℤ) * j))
        = ∑ i ∈ Finset.range n, z i * rootOfUnity n (((j : ℤ) - i) * k) := by
    intro k _
    rw [Finset.sum_mul]
    apply Finset.sum_congr rfl
    intro i _
    rw [mul_assoc, ← ru_add]
    congr 2
    ring
  rw [Finset.sum_congr rfl e, Finset.sum_comm]
  simp only [← Finset.mul_sum]
  rw [Finset.sum_eq_single j]
  · rw [ru_sum _ hn, if_pos (by simp)]
    ring
  · intro i hi hne
    have hi := Finset.mem_range.1 hi
    rw [ru_sum _ hn, if_neg, mul_zero]
    rintro ⟨t, ht⟩
    have h1 : -(n : ℤ) < n * t := by omega
    have h2 : (n : ℤ) * t < n := by omega
    have hn' : (0 : ℤ) < n := by omega
    have : t = 0 := by
      have : -1 < t := by nlinarith
      have : t < 1 := by nlinarith
      omega
    subst this
    omega
  · intro h
    exact absurd (Finset.mem_range.2 hj) h

theorem PocketF.cancel_div {N : ℝ} (hN : 0 < N) (K Y : ℝ) : K / N * (N * Y) = K * Y := by field_simp

theorem PocketF.cancel_div' {N : ℝ} (hN : 0 < N) (K c D : ℝ) : K / N * (c * (4 / 3 * (N * D))) = K * (4 / 3 * (c * D)) := by
  field_simp

set_option maxHeartbeats 800000 in
/-- **C89**: transforming forward and back gives every sample back to within `160 h n (Q + 1)` rounding errors. -/
theorem C89_roundtrip (A : FloatArithNeg F) (h X : ℝ) (L : Lits F) (one f : F) (tw : ℕ → Cx F)
    (x scratch scratch' : List (Cx F)) (hx : x ≠ []) (hs : scratch.length = x.length)
    (hs' : scratch'.length = x.length)
    (h1 : 1 ≤ h) (hL : LitsOk A h L) (ht : TableOk A h x.length tw)
    (hf : ∀ c ∈ x, FinC A c ∧ ‖cval A c‖ ≤ X)
    (hff : A.finite f) (hfn : |A.val f - 1 / x.length| ≤ 2 * A.u / x.length)
    (hu : 192 * (h * (primeSum x.length + 1)) ^ 2 * A.u ≤ 1)
    (hH : 320000 * h ^ 4 * (primeSum x.length + 1) ^ 3 * x.length ^ 2 * (X + A.tiny) ≤ A.huge) :
    ∃ y z, cfftExec L one tw true none x scratch = .ok y ∧ cfftExec L one tw false (some f) y scratch' = .ok z ∧
      z.length = x.length ∧ ∀ j, j < x.length → FinC A (z.getD j ⟨0, 0⟩) ∧
        ‖cval A (z.getD j ⟨0, 0⟩) - cval A (x.getD j ⟨0, 0⟩)‖
          ≤ 160 * h * x.length * (primeSum x.length + 1) * (A.u * X + A.tiny) := by
  have hn : 0 < x.length := List.length_pos_iff.2 hx
  have u0 := A.u_nonneg
  have t0 := A.tiny_nonneg
  have hX : 0 ≤ X := (norm_nonneg _).trans (hf _ (List.getElem_mem hn)).2
  have hxb : ∀ i, i < x.length → ‖cval A (x.getD i ⟨0, 0⟩)‖ ≤ X := by
    intro i hi
    apply (hf _ _).2
    rw [List.getD_eq_getElem?_getD, List.getElem?_eq_getElem hi]
    exact List.getElem_mem hi
  obtain ⟨D, hD⟩ : ∃ D, D = A.u * X + A.tiny := ⟨_, rfl⟩
  obtain ⟨Q, hQ⟩ : ∃ Q : ℝ, Q = primeSum x.length := ⟨_, rfl⟩
  obtain ⟨N, hN⟩ : ∃ N : ℝ, N = x.length := ⟨_, rfl⟩
  have hQ0 : 0 ≤ Q := by rw [hQ]; exact Nat.cast_nonneg _
  have hN0 : 1 ≤ N := by rw [hN]; exact_mod_cast hn
  have hD0 : 0 ≤ D := by rw [hD]; positivity
  have hq1 : 1 ≤ Q + 1 := by linarith
  have hhQ : 1 ≤ h * (Q + 1) := one_le_mul_of_one_le_of_one_le h1 hq1
  have hu' := hu
  rw [← hQ] at hu'
  have hu1 : 192 * A.u ≤ 1 := by
    have : 1 * A.u ≤ (h * (Q + 1)) ^ 2 * A.u := mul_le_mul_of_nonneg_right (one_le_pow₀ hhQ) u0
    linarith
  have hhQu : 192 * (h * Q * A.u) ≤ 1 := by
    have a : h * Q ≤ (h * (Q + 1)) ^ 2 := by
      have : h * Q ≤ h * (Q + 1) := by gcongr; linarith
      nlinarith
    have : h * Q * A.u ≤ (h * (Q + 1)) ^ 2 * A.u := mul_le_mul_of_nonneg_right a u0
    linarith
  have hDX : D ≤ X + A.tiny := by
    have : A.u * X ≤ 1 * X := mul_le_mul_of_nonneg_right (by linarith) hX
    rw [hD]; linarith
  have hXt : 0 ≤ X + A.tiny := by positivity
  have hH1 : 4800 * h ^ 3 * (Q + 1) ^ 2 * N * (X + A.tiny) ≤ A.huge := by
    rw [← hQ, ← hN] at hH
    refine le_trans ?_ hH
    have b1 : h ^ 3 ≤ h ^ 4 := pow_le_pow_right₀ h1 (by norm_num)
    have b2 : (Q + 1) ^ 2 ≤ (Q + 1) ^ 3 := pow_le_pow_right₀ hq1 (by norm_num)
    have b3 : N ≤ N ^ 2 := by nlinarith
    gcongr
    norm_num
  obtain ⟨y, e1, hyl, hy⟩ := C89_mixed_radix A h X L one tw true x scratch hx hs h1 hL ht hf hu
    (by rw [← hQ, ← hN]; exact hH1)
  have hYn : ∀ k, ‖dftSum A true x k‖ ≤ N * X := by
    intro k
    rw [← dftSum_w]
    have : ∀ n ∈ Finset.range x.length, ‖cval A (x.getD n ⟨0, 0⟩) * Pocket.w true x.length (n * k)‖ ≤ X := by
      intro n hn
      rw [norm_mul, norm_w, mul_one]
      exact hxb n (Finset.mem_range.mp hn)
    refine (norm_sum_le_of_le _ this).trans (by simp [hN])
  have hye : ∀ k, k < x.length → ‖cval A (y.getD k ⟨0, 0⟩) - dftSum A true x k‖ ≤ 64 * h * N * Q * D := by
    intro k hk
    have := (hy k hk).2
    rw [← hD, ← hQ, ← hN] at this
    exact this
  have hyb : ∀ c ∈ y, FinC A c ∧ ‖cval A c‖ ≤ N * X + 64 * h * N * Q * D := by
    intro c hc
    obtain ⟨k, hk, rfl⟩ := List.getElem_of_mem hc
    have hk' : k < x.length := by omega
    have e : y.getD k ⟨0, 0⟩ = y[k] := by
      rw [List.getD_eq_getElem?_getD, List.getElem?_eq_getElem hk]; rfl
    have a1 := (hy k hk').1
    have a2 := hye k hk'
    rw [e] at a1 a2
    refine ⟨a1, ?_⟩
    calc ‖cval A y[k]‖ = ‖dftSum A true x k + (cval A y[k] - dftSum A true x k)‖ := by ring_nf
      _ ≤ ‖dftSum A true x k‖ + ‖cval A y[k] - dftSum A true x k‖ := norm_add_le _ _
      _ ≤ _ := add_le_add (hYn k) a2
  have hyne : y ≠ [] := List.ne_nil_of_length_pos (by omega)
  have hNpos : 0 < N := by linarith
  have hfa : |A.val f| ≤ (1 + 2 * A.u) / N := by
    rw [← hN] at hfn
    have e : |A.val f| ≤ |A.val f - 1 / N| + |1 / N| := by
      calc |A.val f| = |(A.val f - 1 / N) + 1 / N| := by ring_nf
        _ ≤ _ := abs_add_le _ _
    rw [abs_of_pos (by positivity : 0 < 1 / N)] at e
    rw [add_div]
    linarith
  have hf2 : |A.val f| ≤ 2 := by
    refine hfa.trans ?_
    rw [div_le_iff₀ hNpos]
    nlinarith
  obtain ⟨z, e2, hzl, hz⟩ := C89_scaled A h (N * X + 64 * h * N * Q * D) L one f tw false y scratch' hyne (by omega) h1 hL
    (by rw [hyl]; exact ht) hyb hff hf2 (by rw [hyl]; exact hu)
    (by
      rw [hyl, ← hQ, ← hN]
      rw [← hQ, ← hN] at hH
      refine le_trans ?_ hH
      have b : N * X + 64 * h * N * Q * D + A.tiny ≤ 65 * (h * N * (Q + 1) * (X + A.tiny)) := by
        have c1 : N * X + A.tiny ≤ h * N * (Q + 1) * (X + A.tiny) := by
          have g1 : A.tiny ≤ N * A.tiny := by nlinarith
          have g2 : (1 : ℝ) * (N * (X + A.tiny)) ≤ (h * (Q + 1)) * (N * (X + A.tiny)) := by gcongr
          linarith
        have c2 : 64 * h * N * Q * D ≤ 64 * h * N * (Q + 1) * (X + A.tiny) := by
          have : Q ≤ Q + 1 := by linarith
          gcongr
        linarith
      calc 4800 * h ^ 3 * (Q + 1) ^ 2 * N * (N * X + 64 * h * N * Q * D + A.tiny)
          ≤ 4800 * h ^ 3 * (Q + 1) ^ 2 * N * (65 * (h * N * (Q + 1) * (X + A.tiny))) := by gcongr
        _ = 312000 * (h ^ 4 * (Q + 1) ^ 3 * N ^ 2 * (X + A.tiny)) := by ring
        _ ≤ 320000 * (h ^ 4 * (Q + 1) ^ 3 * N ^ 2 * (X + A.tiny)) := by gcongr; norm_num
        _ = _ := by ring)
  rw [hyl] at hz
  refine ⟨y, z, e1, e2, by omega, fun j hj => ?_⟩
  obtain ⟨z1, z2⟩ := hz j hj
  refine ⟨z1, ?_⟩
  rw [← hD, ← hQ, ← hN]
  rw [← hQ, ← hN] at z2
  rw [← hN] at hfn
  obtain ⟨c, hc⟩ : ∃ c, c = cval A (z.getD j ⟨0, 0⟩) := ⟨_, rfl⟩
  obtain ⟨v, hv⟩ : ∃ v, v = cval A (x.getD j ⟨0, 0⟩) := ⟨_, rfl⟩
  obtain ⟨S, hS⟩ : ∃ S : ℂ, S = ∑ k ∈ Finset.range x.length,
      cval A (y.getD k ⟨0, 0⟩) * rootOfUnity x.length (1 * ((k : ℤ) * j)) := ⟨_, rfl⟩
  have hS' : (∑ k ∈ Finset.range x.length, cval A (y.getD k ⟨0, 0⟩)
      * rootOfUnity x.length ((if false = true then -1 else 1) * ((k : ℤ) * j))) = S := by rw [hS]; simp
  rw [hS', ← hc] at z2
  rw [← hc, ← hv]
  have hvX : ‖v‖ ≤ X := by rw [hv]; exact hxb j hj
  have hinv : ∑ k ∈ Finset.range x.length, dftSum A true x k * rootOfUnity x.length (1 * ((k : ℤ) * j)) = N * v := by
    have := PocketF.idft_dft (n := x.length) (by omega) (fun i => cval A (x.getD i ⟨0, 0⟩)) hj
    rw [hN, hv]
    push_cast
    rw [← this]
    rfl
  have hSv : ‖S - N * v‖ ≤ N * (64 * h * N * Q * D) := by
    rw [hS, ← hinv, ← Finset.sum_sub_distrib]
    have : ∀ k ∈ Finset.range x.length, ‖cval A (y.getD k ⟨0, 0⟩) * rootOfUnity x.length (1 * ((k : ℤ) * j))
        - dftSum A true x k * rootOfUnity x.length (1 * ((k : ℤ) * j))‖ ≤ 64 * h * N * Q * D := by
      intro k hk
      have e : rootOfUnity x.length (1 * ((k : ℤ) * j)) = Pocket.w false x.length (k * j) := by
        rw [Pocket.w_ru]; simp [Pocket.sgn]
      rw [← sub_mul, norm_mul, e, norm_w, mul_one]
      exact hye k (Finset.mem_range.mp hk)
    refine (norm_sum_le_of_le _ this).trans (by simp [hN])
  -- the four contributions
  have t1 : ‖(A.val f : ℂ) * S - A.val f * (N * v)‖ ≤ (1 + 2 * A.u) * (64 * h * N * Q * D) := by
    rw [← mul_sub, norm_mul, Complex.norm_real, Real.norm_eq_abs]
    calc |A.val f| * ‖S - N * v‖ ≤ (1 + 2 * A.u) / N * (N * (64 * h * N * Q * D)) := by gcongr
      _ = _ := PocketF.cancel_div hNpos _ _
  have t2 : ‖(A.val f : ℂ) * (N * v) - v‖ ≤ 2 * A.u * X := by
    have e : (A.val f : ℂ) * (N * v) - v = ((A.val f - 1 / N : ℝ) : ℂ) * (N * v) := by
      have : (N : ℂ) ≠ 0 := by exact_mod_cast hNpos.ne'
      push_cast
      field_simp
    rw [e, norm_mul, norm_mul, Complex.norm_real, Complex.norm_real, Real.norm_eq_abs, Real.norm_eq_abs,
      abs_of_pos hNpos]
    calc |A.val f - 1 / N| * (N * ‖v‖) ≤ 2 * A.u / N * (N * X) := by gcongr
      _ = 2 * A.u * X := PocketF.cancel_div hNpos _ _
  have t3 : |A.val f| * (h * N * (65 * Q + 2) * (A.u * (N * X + 64 * h * N * Q * D) + A.tiny))
      ≤ (1 + 2 * A.u) * (4 / 3 * (h * N * (65 * Q + 2) * D)) := by
    have g1 : A.u * (N * X + 64 * h * N * Q * D) + A.tiny ≤ 4 / 3 * (N * D) := by
      have a1 : A.tiny ≤ N * A.tiny := by nlinarith
      have a2 : (192 * (h * Q * A.u)) * (N * D) ≤ 1 * (N * D) := by gcongr
      have e : N * D = N * (A.u * X) + N * A.tiny := by rw [hD]; ring
      have e2 : A.u * (64 * h * N * Q * D) = 1 / 3 * ((192 * (h * Q * A.u)) * (N * D)) := by ring
      have e3 : A.u * (N * X + 64 * h * N * Q * D) = N * (A.u * X) + A.u * (64 * h * N * Q * D) := by ring
      linarith
    calc |A.val f| * (h * N * (65 * Q + 2) * (A.u * (N * X + 64 * h * N * Q * D) + A.tiny))
        ≤ (1 + 2 * A.u) / N * (h * N * (65 * Q + 2) * (4 / 3 * (N * D))) := by gcongr
      _ = _ := PocketF.cancel_div' hNpos _ _ _
  have n1 := norm_sub_le_norm_sub_add_norm_sub c ((A.val f : ℂ) * S) v
  have n2 := norm_sub_le_norm_sub_add_norm_sub ((A.val f : ℂ) * S) ((A.val f : ℂ) * (N * v)) v
  have k1 : 0 ≤ h * N * Q * D := by positivity
  have k2 : 0 ≤ h * N * D := by positivity
  have k3 : D ≤ h * N * D := by
    have : 1 * 1 * D ≤ h * N * D := by gcongr
    linarith
  have k4 : A.u * X ≤ D := by rw [hD]; linarith
  have k5 : A.tiny ≤ D := by rw [hD]; nlinarith [mul_nonneg u0 hX]
  have k6 : A.u * (h * N * Q * D) ≤ 1 / 192 * (h * N * Q * D) := by gcongr; linarith
  have k7 : A.u * (h * N * D) ≤ 1 / 192 * (h * N * D) := by gcongr; linarith
  have e1 : (1 + 2 * A.u) * (4 / 3 * (h * N * (65 * Q + 2) * D))
      = 260 / 3 * (h * N * Q * D) + 8 / 3 * (h * N * D) + 520 / 3 * (A.u * (h * N * Q * D)) + 16 / 3 * (A.u * (h * N * D)) := by
    ring
  have e2 : (1 + 2 * A.u) * (64 * h * N * Q * D) = 64 * (h * N * Q * D) + 128 * (A.u * (h * N * Q * D)) := by ring
  have e3 : 160 * h * N * (Q + 1) * D = 160 * (h * N * Q * D) + 160 * (h * N * D) := by ring
  rw [e1] at t3
  rw [e2] at t1
  rw [e3]
  linarith

/-- **C89**: for powers of two the error grows with `n log n`. -/
theorem C89_power_of_two (A : FloatArithNeg F) (h X : ℝ) (L : Lits F) (one : F) (tw : ℕ → Cx F) (fwd : Bool) (e : ℕ)
    (x scratch : List (Cx F)) (hx : x.length = 2 ^ e) (hs : scratch.length = 2 ^ e)
    (h1 : 1 ≤ h) (hL : LitsOk A h L) (ht : TableOk A h (2 ^ e) tw)
    (hf : ∀ c ∈ x, FinC A c ∧ ‖cval A c‖ ≤ X)
    (hu : 192 * (h * (2 * e + 1)) ^ 2 * A.u ≤ 1)
    (hH : 4800 * h ^ 3 * (2 * e + 1) ^ 2 * 2 ^ e * (X + A.tiny) ≤ A.huge) :
    ∃ y, cfftExec L one tw fwd none x scratch = .ok y ∧ y.length = 2 ^ e ∧ ∀ k, k < 2 ^ e →
      FinC A (y.getD k ⟨0, 0⟩) ∧
      ‖cval A (y.getD k ⟨0, 0⟩)
          - ∑ j ∈ Finset.range (2 ^ e),
            cval A (x.getD j ⟨0, 0⟩) * rootOfUnity (2 ^ e) ((if fwd then -1 else 1) * ((j : ℤ) * k))‖
        ≤ 128 * h * 2 ^ e * e * (A.u * X + A.tiny) := by
  have hp : primeSum (2 ^ e) = 2 * e := by
    unfold primeSum
    rw [Nat.Prime.primeFactorsList_pow Nat.prime_two]
    simp [mul_comm]
  have h2 : 0 < 2 ^ e := by positivity
  have key := C89_mixed_radix A h X L one tw fwd x scratch (List.ne_nil_of_length_pos (by omega)) (by omega) h1 hL
    (by rw [hx]; exact ht) hf (by rw [hx, hp]; push_cast; exact hu) (by rw [hx, hp]; push_cast; exact hH)
  rw [hx, hp] at key
  obtain ⟨y, a, b, c⟩ := key
  refine ⟨y, a, b, fun k hk => ⟨(c k hk).1, (c k hk).2.trans (le_of_eq ?_)⟩⟩
  push_cast
  ring

/-- **C89**: the twiddle table that is computed once per length, in the format `G` (`double`), and converted to `F`:
every entry is within `h` rounding errors of the root of unity, for every length. -/
theorem C89_twiddle_table {G : Type} [Zero G] [Add G] [Sub G] [Mul G] [Fma G] [Neg G] (B : FloatArithNeg G)
    (A : FloatArithNeg F) (T : TwOps G F) (hl h : ℝ) (n : ℕ) (hn : 0 < n) (hB : HighOk B hl)
    (hT : TwOpsOk B A T hl n) (hh : 2 * A.u + A.tiny + 6 * (hl + 5) * B.u ≤ h * A.u) :
    ∃ (t : SinCos G) (tw : ℕ → Cx F), sincos T n = .ok t ∧ (∀ idx, idx ≤ n → t.get T idx = .ok (tw idx)) ∧
      TableOk A h n tw := by
  obtain ⟨t, tw, e1, e2⟩ := sincos_near hB hT hn hh
  refine ⟨t, tw, e1, fun idx hi => (e2 idx hi).1, fun idx hi => ?_⟩
  obtain ⟨-, a, b⟩ := e2 idx hi
  exact ⟨by simpa [Pocket.w, Pocket.cR] using a, by simpa [Pocket.w, Pocket.cI] using b⟩

/-! ### the hypotheses can be met -/

namespace PocketF.Example

noncomputable instance binNeg {p : ℕ} {emin : ℤ} : Neg (Bin p emin) where
  neg
    | .num x h => .num (-x) (by obtain ⟨k, hk⟩ := h; exact ⟨-k, by rw [hk]; push_cast; ring⟩)
    | .overflow => .overflow

noncomputable def arithNeg (p : ℕ) (emin : ℤ) (hp : 0 < p) (hemin : emin ≤ 0) : FloatArithNeg (Bin p emin) where
  toFloatArith := Bin.arith p emin hp hemin
  neg := by
    rintro (⟨x, hx⟩ | _) ha
    · refine ⟨?_, rfl⟩
      change |-x| ≤ 2 ^ 128
      rw [abs_neg]
      exact ha
    · exact ha.elim

/-- `float` and `double` -/
noncomputable abbrev fl : FloatArithNeg (Bin 24 (-149)) := arithNeg 24 (-149) (by norm_num) (by norm_num)
noncomputable abbrev db : FloatArithNeg (Bin 53 (-1074)) := arithNeg 53 (-1074) (by norm_num) (by norm_num)

theorem pack_near {p : ℕ} {emin : ℤ} (hp : 0 < p) (hemin : emin ≤ 0) {x : ℝ} (hx : |x| ≤ 2) :
    (arithNeg p emin hp hemin).finite (Bin.pack p emin x) ∧
      |(arithNeg p emin hp hemin).val (Bin.pack p emin x) - x| ≤ (2 : ℝ) ^ (-(p : ℤ)) * |x| + 2 ^ (emin - 1) := by
  obtain ⟨h1, h2⟩ := Bin.pack_spec (p := p) (emin := emin) hp (x := x) (hx.trans (by norm_num)) hemin
  refine ⟨h1, ?_⟩
  change |(Bin.pack p emin x).val - x| ≤ _
  rw [h2]
  exact (binRound_err p emin x).1

/-- correctly rounded literals -/
noncomputable def lits : Lits (Bin 24 (-149)) where
  cos n j := Bin.pack 24 (-149) (Real.cos (2 * Real.pi * j / n))
  sin n j := Bin.pack 24 (-149) (Real.sin (2 * Real.pi * j / n))
  hsqt2 := Bin.pack 24 (-149) (1 / Real.sqrt 2)

theorem pack_acc {x : ℝ} (hx : |x| ≤ 1) : fl.Accurate 3 (Bin.pack 24 (-149) x) x := by
  obtain ⟨a, b⟩ := pack_near (p := 24) (emin := -149) (by norm_num) (by norm_num) (hx.trans (by norm_num : (1 : ℝ) ≤ 2))
  refine ⟨a, b.trans ?_⟩
  change _ ≤ 3 * (2 : ℝ) ^ (-(24 : ℤ))
  have : (2 : ℝ) ^ (-((24 : ℕ) : ℤ)) * |x| ≤ 2 ^ (-((24 : ℕ) : ℤ)) * 1 := by gcongr
  norm_num at this ⊢
  linarith

theorem lits_ok : LitsOk fl 3 lits where
  cos n j _ _ _ := pack_acc (Real.abs_cos_le_one _)
  sin n j _ _ _ := pack_acc (Real.abs_sin_le_one _)
  hsqt2 := pack_acc (by
    have h1 : 1 ≤ Real.sqrt 2 := Real.one_le_sqrt.2 (by norm_num)
    rw [abs_of_nonneg (by positivity), div_le_one (by positivity)]
    exact h1)

/-- a mathematical library with correctly rounded functions, twiddle factors in `double`, data in `float` -/
noncomputable def ops : TwOps (Bin 53 (-1074)) (Bin 24 (-149)) where
  ofSize m := .num m ⟨m * 2 ^ 1074, by
    push_cast
    rw [mul_assoc]
    norm_num⟩
  cos a := Bin.pack 53 (-1074) (Real.cos a.val)
  sin a := Bin.pack 53 (-1074) (Real.sin a.val)
  ang n := Bin.pack 53 (-1074) (Real.pi / (4 * n))
  one := .num 1 ⟨2 ^ 1074, by push_cast; norm_num⟩
  down a := Bin.pack 24 (-149) a.val

theorem high_ok : HighOk db 2 where
  hl1 := by norm_num
  u := by
    change 100 * (2 + 5) * (2 : ℝ) ^ (-(53 : ℤ)) ≤ 1
    norm_num
  tiny := by
    change (2 : ℝ) ^ ((-1074 : ℤ) - 1) ≤ 2 ^ (-(53 : ℤ))
    exact zpow_le_zpow_right₀ (by norm_num) (by norm_num)
  huge := by
    change (4 : ℝ) ≤ 2 ^ 126
    norm_num

theorem tiny_db {x : ℝ} (hx : 2 ^ (-(1000 : ℤ)) ≤ x) : (2 : ℝ) ^ ((-1074 : ℤ) - 1) ≤ 2 ^ (-(53 : ℤ)) * x := by
  calc (2 : ℝ) ^ ((-1074 : ℤ) - 1) ≤ 2 ^ (-(1053 : ℤ)) := zpow_le_zpow_right₀ (by norm_num) (by norm_num)
    _ = 2 ^ (-(53 : ℤ)) * 2 ^ (-(1000 : ℤ)) := by rw [← zpow_add₀ (by norm_num : (2 : ℝ) ≠ 0)]; norm_num
    _ ≤ _ := by gcongr

theorem ops_ok {n : ℕ} (h0 : 0 < n) (hn : n ≤ 2 ^ 100) : TwOpsOk db fl ops 2 n where
  ofSize m hm := by
    have hm' : (m : ℝ) ≤ 2 ^ 128 := by
      have : (m : ℝ) ≤ n := by exact_mod_cast hm
      have : (n : ℝ) ≤ 2 ^ 100 := by exact_mod_cast hn
      have : (2 : ℝ) ^ 100 ≤ 2 ^ 128 := by norm_num
      linarith
    constructor
    · change |(m : ℝ)| ≤ 2 ^ 128
      rw [abs_of_nonneg (Nat.cast_nonneg _)]
      exact hm'
    · change |(m : ℝ) - m| ≤ (2 : ℝ) ^ (-(53 : ℤ)) * m
      rw [sub_self, abs_zero]
      positivity
  ang := by
    have hn0 : (1 : ℝ) ≤ n := by exact_mod_cast h0
    have hnn : (n : ℝ) ≤ 2 ^ 100 := by exact_mod_cast hn
    have hp := Real.pi_pos
    have hp3 := Real.pi_gt_three
    have hp4 := Real.pi_lt_four
    have hx0 : 0 < Real.pi / (4 * n) := by positivity
    have hx1 : |Real.pi / (4 * n)| ≤ 2 := by
      rw [abs_of_pos hx0, div_le_iff₀ (by positivity)]
      nlinarith
    have hxs : (2 : ℝ) ^ (-(1000 : ℤ)) ≤ Real.pi / (4 * n) := by
      calc (2 : ℝ) ^ (-(1000 : ℤ)) ≤ 2 ^ (-(102 : ℤ)) := zpow_le_zpow_right₀ (by norm_num) (by norm_num)
        _ ≤ Real.pi / (4 * n) := by
          rw [le_div_iff₀ (by positivity)]
          have : (2 : ℝ) ^ (-(102 : ℤ)) * (4 * n) ≤ 2 ^ (-(102 : ℤ)) * (4 * 2 ^ 100) := by gcongr
          norm_num at this ⊢
          linarith
    obtain ⟨a, b⟩ := pack_near (p := 53) (emin := -1074) (by norm_num) (by norm_num) hx1
    refine ⟨a, b.trans ?_⟩
    rw [abs_of_pos hx0]
    have := tiny_db hxs
    change (2 : ℝ) ^ (-(53 : ℤ)) * (Real.pi / (4 * n)) + 2 ^ ((-1074 : ℤ) - 1)
      ≤ 2 * 2 ^ (-(53 : ℤ)) * (Real.pi / (4 * n))
    linarith
  cos a _ _ := by
    obtain ⟨h1, h2⟩ := pack_near (p := 53) (emin := -1074) (by norm_num) (by norm_num)
      ((Real.abs_cos_le_one a.val).trans (by norm_num : (1 : ℝ) ≤ 2))
    refine ⟨h1, h2.trans ?_⟩
    have g1 := tiny_db (x := 1) (by
      calc (2 : ℝ) ^ (-(1000 : ℤ)) ≤ 2 ^ (0 : ℤ) := zpow_le_zpow_right₀ (by norm_num) (by norm_num)
        _ = 1 := by norm_num)
    have g2 : (2 : ℝ) ^ (-(53 : ℤ)) * |Real.cos a.val| ≤ 2 ^ (-(53 : ℤ)) * 1 := by
      gcongr; exact Real.abs_cos_le_one _
    change (2 : ℝ) ^ (-(53 : ℤ)) * |Real.cos a.val| + 2 ^ ((-1074 : ℤ) - 1) ≤ 2 * 2 ^ (-(53 : ℤ))
    linarith
  sin a _ _ := by
    obtain ⟨h1, h2⟩ := pack_near (p := 53) (emin := -1074) (by norm_num) (by norm_num)
      ((Real.abs_sin_le_one a.val).trans (by norm_num : (1 : ℝ) ≤ 2))
    refine ⟨h1, h2.trans ?_⟩
    have g1 := tiny_db (x := 1) (by
      calc (2 : ℝ) ^ (-(1000 : ℤ)) ≤ 2 ^ (0 : ℤ) := zpow_le_zpow_right₀ (by norm_num) (by norm_num)
        _ = 1 := by norm_num)
    have g2 : (2 : ℝ) ^ (-(53 : ℤ)) * |Real.sin a.val| ≤ 2 ^ (-(53 : ℤ)) * 1 := by
      gcongr; exact Real.abs_sin_le_one _
    change (2 : ℝ) ^ (-(53 : ℤ)) * |Real.sin a.val| + 2 ^ ((-1074 : ℤ) - 1) ≤ 2 * 2 ^ (-(53 : ℤ))
    linarith
  one := by
    refine ⟨?_, rfl⟩
    change |(1 : ℝ)| ≤ 2 ^ 128
    norm_num
  down a _ ha := by
    obtain ⟨h1, h2⟩ := pack_near (p := 24) (emin := -149) (by norm_num) (by norm_num) (x := a.val) ha
    exact ⟨h1, h2⟩

/-- twelve samples of a ramp: twiddle factors from the table, three rounding errors each, `4 * 3` passes -/
example : ∃ (t : SinCos (Bin 53 (-1074))) (tw : ℕ → Cx (Bin 24 (-149))) (y : List (Cx (Bin 24 (-149)))),
    sincos ops 12 = .ok t ∧ (∀ idx, idx ≤ 12 → t.get ops idx = .ok (tw idx)) ∧
    cfftExec lits (Bin.int 1) tw true none ((List.range 12).map fun k : ℕ => ⟨Bin.int k, 0⟩)
      (List.replicate 12 ⟨0, 0⟩) = .ok y ∧ y.length = 12 ∧ ∀ k, k < 12 →
      ‖cval fl (y.getD k ⟨0, 0⟩) - ∑ j ∈ Finset.range 12, (j : ℂ) * rootOfUnity 12 (-((j : ℤ) * k))‖ ≤ 1 / 50 := by
  have hu : fl.u = 2 ^ (-(24 : ℤ)) := rfl
  have htn : fl.tiny = 2 ^ (-150 : ℤ) := by change (2 : ℝ) ^ ((-149 : ℤ) - 1) = _; norm_num
  have hdu : db.u = 2 ^ (-(53 : ℤ)) := rfl
  have hps : primeSum 12 = 7 := by
    rw [show (12 : ℕ) = 2 * (2 * 3) by norm_num, primeSum_mul (by norm_num) (by norm_num),
      primeSum_mul (by norm_num) (by norm_num)]
    simp [primeSum, Nat.primeFactorsList_prime Nat.prime_two, Nat.primeFactorsList_prime Nat.prime_three]
  obtain ⟨t, tw, e1, e2, e3⟩ := C89_twiddle_table db fl ops 2 3 12 (by norm_num) high_ok
    (ops_ok (by norm_num) (by norm_num)) (by rw [hu, htn, hdu]; norm_num)
  obtain ⟨x, hx⟩ : ∃ x : List (Cx (Bin 24 (-149))), x = (List.range 12).map fun k : ℕ => ⟨Bin.int k, 0⟩ := ⟨_, rfl⟩
  have hxl : x.length = 12 := by rw [hx]; simp
  have hval : ∀ k : ℕ, cval fl (⟨Bin.int k, 0⟩ : Cx (Bin 24 (-149))) = k := by
    intro k
    apply Complex.ext
    · change (((k : ℤ) : ℝ)) = _
      simp
    · change (0 : ℝ) = _
      simp
  have hxg : ∀ j, j < 12 → cval fl (x.getD j ⟨0, 0⟩) = j := by
    intro j hj
    rw [hx, List.getD_eq_getElem?_getD, List.getElem?_map, List.getElem?_range hj]
    exact hval j
  obtain ⟨y, g1, g2, g3⟩ := C89_mixed_radix fl 3 12 lits (Bin.int 1) tw true x (List.replicate 12 ⟨0, 0⟩)
    (List.ne_nil_of_length_pos (by omega)) (by simp [hxl]) (by norm_num) lits_ok (by rw [hxl]; exact e3)
    (by
      intro c hc
      rw [hx] at hc
      obtain ⟨k, hk, rfl⟩ := List.mem_map.1 hc
      have hk : k < 12 := List.mem_range.1 hk
      have hk' : (k : ℝ) ≤ 12 := by exact_mod_cast hk.le
      refine ⟨⟨?_, fl.zero_finite⟩, ?_⟩
      · apply Bin.finite_int
        push_cast
        rw [abs_of_nonneg (Nat.cast_nonneg _)]
        refine hk'.trans (by norm_num)
      · rw [hval k, Complex.norm_natCast]
        exact hk')
    (by rw [hxl, hps, hu]; norm_num)
    (by
      rw [hxl, hps, htn]
      change _ ≤ (2 : ℝ) ^ 126
      norm_num)
  rw [hxl] at g2 g3
  refine ⟨t, tw, y, e1, e2, hx ▸ g1, g2, fun k hk => ?_⟩
  obtain ⟨-, g⟩ := g3 k hk
  have hsum : ∑ j ∈ Finset.range 12, cval fl (x.getD j ⟨0, 0⟩) * rootOfUnity 12 ((if true then -1 else 1) * ((j : ℤ) * k))
      = ∑ j ∈ Finset.range 12, (j : ℂ) * rootOfUnity 12 (-((j : ℤ) * k)) := by
    apply Finset.sum_congr rfl
    intro j hj
    rw [hxg j (Finset.mem_range.1 hj)]
    simp
  rw [hsum] at g
  refine g.trans ?_
  rw [hps, hu, htn]
  norm_num

end PocketF.Example

end Verif
