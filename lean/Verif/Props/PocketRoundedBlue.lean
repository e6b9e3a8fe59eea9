import Verif.Lemmas.PocketFBlue

/-! # C90: the complex FFT of every length in floating point, whichever plan is chosen -/

set_option linter.unusedSimpArgs false
set_option linter.unusedSectionVars false
set_option linter.unusedVariables false

namespace Verif
open PocketF

variable {F : Type} [Zero F] [Add F] [Sub F] [Mul F] [Fma F] [Neg F]

namespace PocketF

theorem w_spec (fwd : Bool) (n m k : ℕ) :
    Pocket.w fwd n (m * k) = rootOfUnity n ((if fwd then -1 else 1) * ((m : ℤ) * k)) := by
  rw [Pocket.w_ru]; simp only [Pocket.sgn, Nat.cast_mul]

theorem getD_tab {α : Type} {n k : ℕ} (z : ℕ → α) (d : α) (hk : k < n) : (Pocket.tab n z).getD k d = z k := by
  rw [List.getD_eq_getElem?_getD, Pocket.tab_get?, if_pos hk]; rfl

end PocketF

/-- **C90**: Bluestein's plan, in any floating point format.  The plan can be constructed, nothing overflows, and every bin
is within `560 h (Q + 1) N ^ 2` rounding errors of the exact transform times the factor, where `N` is the padded length and
`Q` the sum of its prime factors. -/
theorem C90_bluestein (A : FloatArithNeg F) (h X : ℝ) (L : Lits F) (one xn2 f : F) (tw2 tmp : ℕ → Cx F) (fwd : Bool)
    (x : List (Cx F)) (junk junk' : ℕ → Cx F) (N : ℕ) (hx : x ≠ [])
    (hN : Pocket.goodSizeCmplx (2 * x.length - 1) = .ok N)
    (h1 : 1 ≤ h) (hL : LitsOk A h L) (ht2 : TableOk A h N tw2) (htm : TableOk A h (2 * x.length) tmp)
    (hone : A.finite one ∧ A.val one = 1) (hxn : A.finite xn2 ∧ |A.val xn2 - 1 / N| ≤ 2 * A.u / N)
    (hf : ∀ c ∈ x, FinC A c ∧ ‖cval A c‖ ≤ X) (hff : A.finite f) (hf2 : |A.val f| ≤ 2)
    (hu : 192 * (h * (primeSum N + 1)) ^ 2 * A.u ≤ 1) (ht : N * A.tiny ≤ A.u)
    (hH : 10000 * (h * (primeSum N + 1)) ^ 3 ≤ A.huge)
    (hH' : 1600000 * (h * (primeSum N + 1)) ^ 4 * N ^ 2 * (X + A.tiny) ≤ A.huge) :
    ∃ p y, fftblue L one xn2 tw2 tmp x.length junk = .ok p ∧ p.exec L one x f fwd junk' = .ok y ∧ y.length = x.length ∧
      ∀ k, k < x.length → FinC A (y.getD k ⟨0, 0⟩) ∧
        ‖cval A (y.getD k ⟨0, 0⟩)
            - A.val f * ∑ j ∈ Finset.range x.length,
              cval A (x.getD j ⟨0, 0⟩) * rootOfUnity x.length ((if fwd then -1 else 1) * ((j : ℤ) * k))‖
          ≤ |A.val f| * (560 * h * (primeSum N + 1) * N ^ 2 * (A.u * X + A.tiny)) + 2 * A.tiny := by
  have hn : 0 < x.length := List.length_pos_iff.2 hx
  have hget : ∀ n, n < x.length → x.getD n ⟨0, 0⟩ ∈ x := by
    intro n hn
    rw [List.getD_eq_getElem?_getD, List.getElem?_eq_getElem hn]
    exact List.getElem_mem hn
  obtain ⟨p, e1, hp, hpn⟩ := fftblue_near hn hN h1 hL ht2 htm hone hxn.1 hxn.2 hu hH ht junk
  obtain ⟨z, e2, hz⟩ := blue_near (one := one) (x := fun m => x.getD m ⟨0, 0⟩) hn hp h1 hL (fun m hm => hf _ (hget m hm)) hff hf2 fwd
    (by rw [hpn]; exact hu) (by rw [hpn]; exact hH') junk'
  rw [← list_tabC] at e2
  refine ⟨p, _, e1, e2, by simp, fun k hk => ?_⟩
  rw [getD_tab _ _ hk]
  obtain ⟨a, b⟩ := hz k hk
  refine ⟨a, ?_⟩
  simp only [w_spec, hpn] at b
  refine b.trans (le_of_eq ?_)
  ring

/-- **C90**: `c2c`, whatever plan the cost estimate selects, whatever the output array contained: every bin is within
`560 h (Q + 1) N ^ 2` rounding errors of the exact transform times the factor, where `N` is the length Bluestein's plan
pads to and `Q` bounds the sums of the prime factors of `n` and `N`. -/
theorem C90_complex_fft (A : FloatArithNeg F) (h X Q : ℝ) (L : Lits F) (one xn2 : F) (f : Option F)
    (tw tw2 tmp : ℕ → Cx F) (cost : ℕ → ℝ) (fwd : Bool)
    (x out : List (Cx F)) (junk : ℕ → Cx F) (N : ℕ) (hx : x ≠ []) (ho : out.length = x.length)
    (hN : Pocket.goodSizeCmplx (2 * x.length - 1) = .ok N)
    (hQ : primeSum x.length ≤ Q) (hQ' : primeSum N ≤ Q)
    (h1 : 1 ≤ h) (hL : LitsOk A h L) (ht1 : TableOk A h x.length tw) (ht2 : TableOk A h N tw2)
    (htm : TableOk A h (2 * x.length) tmp)
    (hone : A.finite one ∧ A.val one = 1) (hxn : A.finite xn2 ∧ |A.val xn2 - 1 / N| ≤ 2 * A.u / N)
    (hf : ∀ c ∈ x, FinC A c ∧ ‖cval A c‖ ≤ X) (hff : A.finite (f.getD one)) (hf2 : |A.val (f.getD one)| ≤ 2)
    (hu : 192 * (h * (Q + 1)) ^ 2 * A.u ≤ 1) (ht : N * A.tiny ≤ A.u)
    (hH : 10000 * (h * (Q + 1)) ^ 3 ≤ A.huge)
    (hH' : 1600000 * (h * (Q + 1)) ^ 4 * N ^ 2 * (X + A.tiny) ≤ A.huge) :
    ∃ y, c2c L one xn2 tw tw2 tmp cost fwd f x out junk = .ok y ∧ y.length = x.length ∧
      ∀ k, k < x.length → FinC A (y.getD k ⟨0, 0⟩) ∧
        ‖cval A (y.getD k ⟨0, 0⟩)
            - A.val (f.getD one) * ∑ j ∈ Finset.range x.length,
              cval A (x.getD j ⟨0, 0⟩) * rootOfUnity x.length ((if fwd then -1 else 1) * ((j : ℤ) * k))‖
          ≤ |A.val (f.getD one)| * (560 * h * (Q + 1) * N ^ 2 * (A.u * X + A.tiny)) + 2 * A.tiny := by
  have u0 := A.u_nonneg
  have t0 := A.tiny_nonneg
  have hn : 0 < x.length := List.length_pos_iff.2 hx
  have hX : 0 ≤ X := (norm_nonneg _).trans (hf _ (List.getElem_mem hn)).2
  have hD : 0 ≤ A.u * X + A.tiny := by positivity
  obtain ⟨N', e1, e2, -⟩ := Pocket.goodSizeCmplx_ok (n := 2 * x.length - 1) (by omega)
  obtain rfl : N' = N := by rw [hN] at e1; cases e1; rfl
  have hnN : (x.length : ℝ) ≤ N' := by exact_mod_cast (by omega : x.length ≤ N')
  have hNr : (1 : ℝ) ≤ N' := by exact_mod_cast (by omega : 1 ≤ N')
  have hNN : (N' : ℝ) ≤ N' ^ 2 := by nlinarith
  have hq : (0 : ℝ) ≤ primeSum x.length := Nat.cast_nonneg _
  have hq' : (0 : ℝ) ≤ primeSum N' := Nat.cast_nonneg _
  -- the copy
  have hcopy : forN x.length (fun i buf => do
      let v ← Pocket.ld x i
      Pocket.st buf i v) out = .ok x := by
    have := Pocket.copy_ok (N := x.length) (A := fun m => x.getD m ⟨0, 0⟩) le_rfl ho
    rw [← list_tabC] at this
    exact this
  -- both plans
  have pack : ∃ y, (CxPlan.pack tw).exec L one x f fwd junk = .ok y ∧ y.length = x.length ∧
      ∀ k, k < x.length → FinC A (y.getD k ⟨0, 0⟩) ∧ ‖cval A (y.getD k ⟨0, 0⟩)
            - A.val (f.getD one) * ∑ j ∈ Finset.range x.length,
              cval A (x.getD j ⟨0, 0⟩) * rootOfUnity x.length ((if fwd then -1 else 1) * ((j : ℤ) * k))‖
          ≤ |A.val (f.getD one)| * (560 * h * (Q + 1) * N' ^ 2 * (A.u * X + A.tiny)) + 2 * A.tiny := by
    have hu' : 192 * (h * (primeSum x.length + 1)) ^ 2 * A.u ≤ 1 := by
      refine le_trans ?_ hu
      gcongr
    have hH2 : 4800 * h ^ 3 * (primeSum x.length + 1) ^ 2 * x.length * (X + A.tiny) ≤ A.huge := by
      refine le_trans ?_ hH'
      obtain ⟨P, hP⟩ : ∃ P, P = Q + 1 := ⟨_, rfl⟩
      have hP1 : 1 ≤ P := by linarith
      have a1 : 4800 * h ^ 3 * ((primeSum x.length : ℝ) + 1) ^ 2 * x.length * (X + A.tiny)
          ≤ 4800 * h ^ 4 * P ^ 4 * N' ^ 2 * (X + A.tiny) := by
        have b1 : h ^ 3 ≤ h ^ 4 := pow_le_pow_right₀ h1 (by norm_num)
        have b2 : ((primeSum x.length : ℝ) + 1) ^ 2 ≤ P ^ 4 := by
          calc ((primeSum x.length : ℝ) + 1) ^ 2 ≤ P ^ 2 := by gcongr; linarith
            _ ≤ P ^ 4 := pow_le_pow_right₀ hP1 (by norm_num)
        have b3 : (x.length : ℝ) ≤ N' ^ 2 := hnN.trans hNN
        gcongr
      rw [← hP]
      have a2 : 0 ≤ h ^ 4 * P ^ 4 * N' ^ 2 * (X + A.tiny) := by positivity
      have e3 : 1600000 * (h * P) ^ 4 * N' ^ 2 * (X + A.tiny) = 1600000 * (h ^ 4 * P ^ 4 * N' ^ 2 * (X + A.tiny)) := by ring
      rw [e3]
      linarith
    have big : ∀ c : ℝ, 0 ≤ c → c ≤ 560 * (Q + 1) → h * x.length * c * (A.u * X + A.tiny)
        ≤ 560 * h * (Q + 1) * N' ^ 2 * (A.u * X + A.tiny) := by
      intro c c0 hc
      have b3 : (x.length : ℝ) ≤ N' ^ 2 := hnN.trans hNN
      calc h * x.length * c * (A.u * X + A.tiny) ≤ h * N' ^ 2 * (560 * (Q + 1)) * (A.u * X + A.tiny) := by gcongr
        _ = _ := by ring
    cases f with
    | none =>
      obtain ⟨y, y1, y2, y3⟩ := C89_mixed_radix A h X L one tw fwd x (Pocket.fresh junk x.length) hx
        (Pocket.fresh_length _ _) h1 hL ht1 hf hu' hH2
      refine ⟨y, y1, y2, fun k hk => ⟨(y3 k hk).1, ?_⟩⟩
      have := (y3 k hk).2
      simp only [Option.getD_none, hone.2, abs_one, one_mul, Complex.ofReal_one]
      refine this.trans ?_
      have b := big (64 * primeSum x.length) (by positivity) (by linarith)
      have e3 : h * x.length * (64 * (primeSum x.length : ℝ)) * (A.u * X + A.tiny)
          = 64 * h * x.length * primeSum x.length * (A.u * X + A.tiny) := by ring
      linarith
    | some f =>
      obtain ⟨y, y1, y2, y3⟩ := C89_scaled A h X L one f tw fwd x (Pocket.fresh junk x.length) hx
        (Pocket.fresh_length _ _) h1 hL ht1 hf hff hf2 hu' hH2
      refine ⟨y, y1, y2, fun k hk => ⟨(y3 k hk).1, ?_⟩⟩
      have := (y3 k hk).2
      simp only [Option.getD_some]
      refine this.trans ?_
      have b := big (65 * primeSum x.length + 2) (by positivity) (by linarith)
      have b2 := mul_le_mul_of_nonneg_left b (abs_nonneg (A.val f))
      linarith
  obtain ⟨p, y, b1, b2, b3, b4⟩ := C90_bluestein A h X L one xn2 (f.getD one) tw2 tmp fwd x junk junk N' hx hN h1 hL ht2 htm hone
    hxn hf hff hf2
    (by
      refine le_trans ?_ hu
      gcongr) ht
    (by
      refine le_trans ?_ hH
      gcongr)
    (by
      refine le_trans ?_ hH'
      gcongr)
  have blue : ∃ y, (CxPlan.blue p).exec L one x f fwd junk = .ok y ∧ y.length = x.length ∧
      ∀ k, k < x.length → FinC A (y.getD k ⟨0, 0⟩) ∧ ‖cval A (y.getD k ⟨0, 0⟩)
            - A.val (f.getD one) * ∑ j ∈ Finset.range x.length,
              cval A (x.getD j ⟨0, 0⟩) * rootOfUnity x.length ((if fwd then -1 else 1) * ((j : ℤ) * k))‖
          ≤ |A.val (f.getD one)| * (560 * h * (Q + 1) * N' ^ 2 * (A.u * X + A.tiny)) + 2 * A.tiny := by
    refine ⟨y, b2, b3, fun k hk => ⟨(b4 k hk).1, (b4 k hk).2.trans ?_⟩⟩
    gcongr
  have sel : ∃ q, pocketfftC L one xn2 tw tw2 tmp cost x.length junk = .ok q ∧ (q = .pack tw ∨ q = .blue p) := by
    obtain ⟨l, l1, -⟩ := Pocket.largestPrimeFactor_ok hn
    have key : ∀ m : ℕ, ∃ q, (if m * m ≤ x.length then pure (CxPlan.pack tw)
        else do
          let good ← Pocket.goodSizeCmplx (2 * x.length - 1)
          if 2 * cost good * 1.5 < cost x.length then do
            let p ← fftblue L one xn2 tw2 tmp x.length junk
            pure (.blue p)
          else pure (.pack tw) : Out (CxPlan F)) = .ok q ∧ (q = .pack tw ∨ q = .blue p) := by
      intro m
      split
      · exact ⟨_, rfl, Or.inl rfl⟩
      · simp only [hN, Out.ok_bind]
        split
        · simp only [b1, Out.ok_bind]; exact ⟨_, rfl, Or.inr rfl⟩
        · exact ⟨_, rfl, Or.inl rfl⟩
    unfold pocketfftC
    rw [if_neg (by omega)]
    by_cases h5 : x.length < 50
    · simp only [if_pos h5, Out.pure_def, Out.ok_bind]
      exact key 0
    · simp only [if_neg h5, l1, Out.ok_bind]
      exact key l
  obtain ⟨q, q1, q2⟩ := sel
  unfold c2c
  rw [if_neg (by omega), q1, Out.ok_bind, hcopy, Out.ok_bind]
  rcases q2 with rfl | rfl
  · exact pack
  · exact blue

/-- **C90**: the padded length is below four times the length, and the sum of its prime factors is at most four times its
logarithm. -/
theorem C90_padding (n : ℕ) (hn : 0 < n) :
    ∃ N, Pocket.goodSizeCmplx (2 * n - 1) = .ok N ∧ 2 * n - 1 ≤ N ∧ N < 4 * n ∧ 2 ^ primeSum N ≤ N ^ 4 := by
  obtain ⟨N, e1, e2, e3, e4⟩ := Pocket.goodSizeCmplx_ok (n := 2 * n - 1) (by omega)
  refine ⟨N, e1, e2, ?_, ?_⟩
  · obtain ⟨k, hk1, hk2⟩ : ∃ k, 2 * n - 1 ≤ 2 ^ k ∧ 2 ^ k < 4 * n := by
      refine ⟨Nat.clog 2 (2 * n - 1), Nat.le_pow_clog (by norm_num) _, ?_⟩
      by_cases h1 : n = 1
      · subst h1; simp
      · have := Nat.pow_pred_clog_lt_self (b := 2) (by norm_num) (x := 2 * n - 1) (by omega)
        have hc : 0 < Nat.clog 2 (2 * n - 1) := Nat.clog_pos (by norm_num) (by omega)
        obtain ⟨c, hcc⟩ : ∃ c, Nat.clog 2 (2 * n - 1) = c + 1 := ⟨_, (Nat.succ_pred_eq_of_pos hc).symm⟩
        rw [hcc] at this ⊢
        simp only [Nat.pred_succ, Nat.succ_eq_add_one, pow_succ] at this ⊢
        omega
    have := e4 (2 ^ k) hk1 (by
      intro p hp hd
      have := (Nat.prime_dvd_prime_iff_eq hp Nat.prime_two).1 (hp.dvd_of_dvd_pow hd)
      omega)
    omega
  · have hN : N ≠ 0 := by omega
    have key : ∀ l : List ℕ, (∀ p ∈ l, p.Prime ∧ p ≤ 11) → 2 ^ l.sum ≤ l.prod ^ 4 := by
      intro l
      induction l with
      | nil => simp
      | cons p l ih =>
        intro hl
        rw [List.sum_cons, List.prod_cons, pow_add, mul_pow]
        apply Nat.mul_le_mul _ (ih fun q hq => hl q (by simp [hq]))
        obtain ⟨hp, hp'⟩ := hl p (by simp)
        have := hp.two_le
        interval_cases p <;> norm_num
    have := key N.primeFactorsList (by
      intro p hp
      exact ⟨Nat.prime_of_mem_primeFactorsList hp, e3 p (Nat.prime_of_mem_primeFactorsList hp) (Nat.dvd_of_mem_primeFactorsList hp)⟩)
    rw [Nat.prod_primeFactorsList hN] at this
    exact this

/-! ### the hypotheses can be met -/

namespace PocketF.Example

/-- Bluestein's algorithm for five samples `0, 1, 2, 3, 4`, twiddle factors computed in `double`, data in `float`. -/
example : ∃ (tw2 tmp : ℕ → Cx (Bin 24 (-149))) (p : PocketF.Blue (Bin 24 (-149))) (y : List (Cx (Bin 24 (-149)))),
    fftblue lits (Bin.int 1) (Bin.pack 24 (-149) (1 / 9)) tw2 tmp 5 (fun _ => ⟨0, 0⟩) = .ok p ∧
      p.exec lits (Bin.int 1) ((List.range 5).map fun k : ℕ => ⟨Bin.int k, 0⟩) (Bin.int 1) true (fun _ => ⟨0, 0⟩) = .ok y ∧
      ∀ k, k < 5 → ‖cval fl (y.getD k ⟨0, 0⟩) - ∑ j ∈ Finset.range 5, (j : ℂ) * rootOfUnity 5 (-((j : ℤ) * k))‖ ≤ 1 / 3 := by
  have hu : fl.u = 2 ^ (-(24 : ℤ)) := rfl
  have htn : fl.tiny = 2 ^ (-150 : ℤ) := by change (2 : ℝ) ^ ((-149 : ℤ) - 1) = _; norm_num
  have hdu : db.u = 2 ^ (-(53 : ℤ)) := rfl
  have hps : primeSum 9 = 6 := by
    rw [show (9 : ℕ) = 3 * 3 by norm_num, primeSum_mul (by norm_num) (by norm_num)]
    simp [primeSum, Nat.primeFactorsList_prime Nat.prime_three]
  obtain ⟨-, tw2, -, -, t2⟩ := C89_twiddle_table db fl ops 2 3 9 (by norm_num) high_ok
    (ops_ok (by norm_num) (by norm_num)) (by rw [hu, htn, hdu]; norm_num)
  obtain ⟨-, tmp, -, -, tm⟩ := C89_twiddle_table db fl ops 2 3 10 (by norm_num) high_ok
    (ops_ok (by norm_num) (by norm_num)) (by rw [hu, htn, hdu]; norm_num)
  obtain ⟨x, hx⟩ : ∃ x : List (Cx (Bin 24 (-149))), x = (List.range 5).map fun k : ℕ => ⟨Bin.int k, 0⟩ := ⟨_, rfl⟩
  have hxl : x.length = 5 := by rw [hx]; simp
  have hval : ∀ k : ℕ, cval fl (⟨Bin.int k, 0⟩ : Cx (Bin 24 (-149))) = k := by
    intro k
    apply Complex.ext
    · change (((k : ℤ) : ℝ)) = _
      simp
    · rfl
  have hxg : ∀ j, j < 5 → cval fl (x.getD j ⟨0, 0⟩) = j := by
    intro j hj
    rw [hx, List.getD_eq_getElem?_getD, List.getElem?_eq_getElem (by simpa using hj)]
    simp only [List.getElem_map, List.getElem_range, Option.getD_some]
    exact hval j
  have h1f : fl.finite (Bin.int 1) ∧ fl.val (Bin.int 1) = 1 := by
    constructor
    · change |(((1 : ℤ) : ℝ))| ≤ 2 ^ 128
      norm_num
    · change (((1 : ℤ) : ℝ)) = 1
      simp
  obtain ⟨p1, p2⟩ := pack_near (p := 24) (emin := -149) (by norm_num) (by norm_num) (x := 1 / 9) (by norm_num)
  have hN : Pocket.goodSizeCmplx (2 * x.length - 1) = .ok 9 := by rw [hxl]; rfl
  obtain ⟨p, y, g1, g2, g3, g4⟩ := C90_bluestein fl 3 4 lits (Bin.int 1) (Bin.pack 24 (-149) (1 / 9)) (Bin.int 1) tw2 tmp true x
    (fun _ => ⟨0, 0⟩) (fun _ => ⟨0, 0⟩) 9 (by rw [hx]; simp) hN (by norm_num) lits_ok t2 (by rw [hxl]; exact tm) h1f
    ⟨p1, p2.trans (by
      rw [abs_of_pos (by norm_num : (0 : ℝ) < 1 / 9), hu]
      norm_num)⟩
    (by
      intro c hc
      rw [hx] at hc
      simp only [List.mem_map, List.mem_range] at hc
      obtain ⟨k, hk, rfl⟩ := hc
      have hk' : (k : ℝ) ≤ 4 := by exact_mod_cast (by omega : k ≤ 4)
      refine ⟨⟨?_, fl.zero_finite⟩, ?_⟩
      · change |(((k : ℤ) : ℝ))| ≤ 2 ^ 128
        simp only [Int.cast_natCast]
        rw [abs_of_nonneg (Nat.cast_nonneg _)]
        refine hk'.trans (by norm_num)
      · rw [hval k, Complex.norm_natCast]
        exact hk') h1f.1 (by rw [h1f.2]; norm_num)
    (by rw [hps, hu]; norm_num) (by rw [hu, htn]; norm_num)
    (by
      rw [hps]
      change _ ≤ (2 : ℝ) ^ 126
      norm_num)
    (by
      rw [hps, htn]
      change _ ≤ (2 : ℝ) ^ 126
      norm_num)
  rw [hxl] at g1 g3 g4
  refine ⟨tw2, tmp, p, y, g1, hx ▸ g2, fun k hk => ?_⟩
  obtain ⟨-, g⟩ := g4 k hk
  have hsum : ∑ j ∈ Finset.range 5, cval fl (x.getD j ⟨0, 0⟩) * rootOfUnity 5 ((if true then -1 else 1) * ((j : ℤ) * k))
      = ∑ j ∈ Finset.range 5, (j : ℂ) * rootOfUnity 5 (-((j : ℤ) * k)) := by
    apply Finset.sum_congr rfl
    intro j hj
    rw [hxg j (Finset.mem_range.1 hj)]
    simp
  rw [hsum, h1f.2] at g
  simp only [Complex.ofReal_one, one_mul, abs_one] at g
  refine g.trans ?_
  rw [hps, hu, htn]
  norm_num

end PocketF.Example

end Verif
