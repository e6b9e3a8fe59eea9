import Verif.Model.PocketBlueFloat
import Verif.Props.PocketRounded

/-! # Bluestein's algorithm in floating point -/

set_option linter.unusedSimpArgs false
set_option linter.unusedSectionVars false
set_option linter.unusedVariables false
set_option linter.unnecessarySeqFocus false

namespace Verif.PocketF
open Complex Verif.Pocket

variable {F : Type} [Zero F] [Add F] [Sub F] [Mul F] [Fma F] [Neg F]

/-! ### what the loops store -/

/-- entry `m` of `b_k` -/
def bkV (one : F) (tmp : ℕ → Cx F) (n m : ℕ) : Cx F := if m = 0 then ⟨one, 0⟩ else tmp (m * m % (2 * n))

theorem blueBk_tab {one : F} {tmp : ℕ → Cx F} {n : ℕ} (hn : 0 < n) (junk : ℕ → Cx F) :
    PocketF.blueBk one tmp n junk = .ok (tab n (bkV one tmp n)) := by
  unfold PocketF.blueBk
  obtain ⟨bk0, e0, f0⟩ := filled_st (L := n) (V := bkV one tmp n) (S := fun _ => False)
    (ch := fresh junk n) (a := 0) (v := ⟨one, 0⟩) ⟨fresh_length _ _, fun _ _ h => h.elim⟩ hn
    (by simp [bkV])
  rw [e0, Out.ok_bind]
  have key := forN_inv (body := fun m0 (s : ℕ × List (Cx F)) => do
      let m := m0 + 1
      let coeff := s.1 + (2 * m - 1)
      let coeff := if coeff ≥ 2 * n then coeff - 2 * n else coeff
      let bk ← st s.2 m (tmp coeff)
      pure (coeff, bk))
    (fun k s => s.1 = k * k % (2 * n) ∧ Filled n (bkV one tmp n) (fun i => i ≤ k) s.2) (n - 1) (0, bk0)
    ⟨by simp, f0.mono (by intro i _ hi; right; omega)⟩
  replace key := key (by
    rintro k ⟨co, bk⟩ hk ⟨h1, h2⟩
    simp only [] at h1 h2 ⊢
    subst h1
    rw [sq_mod_step (by omega)]
    obtain ⟨bk', e1, f1⟩ := filled_st h2 (a := k + 1) (v := tmp ((k + 1) * (k + 1) % (2 * n)))
      (by omega) (by simp [bkV])
    rw [e1, Out.ok_bind]
    exact ⟨_, rfl, rfl, f1.mono (by intro i _ hi; omega)⟩)
  obtain ⟨s, e1, h1, h2⟩ := key
  rw [e1, Out.ok_bind, Out.pure_def, eq_tab h2.1 (fun i hi => h2.2 i hi (by omega))]

/-- entry `j` of the padded chirp -/
def tbkfV (xn2 : F) (n n2 : ℕ) (bk : ℕ → Cx F) (j : ℕ) : Cx F :=
  if j < n then (bk j).scale xn2 else if n2 < n + j then (bk (n2 - j)).scale xn2 else ⟨0, 0⟩

theorem tbkfV_refl {xn2 : F} {n n2 j : ℕ} {bk : ℕ → Cx F} (hn2 : 2 * n - 1 ≤ n2) (h0 : 0 < j) (hj : j < n) :
    tbkfV xn2 n n2 bk (n2 - j) = (bk j).scale xn2 := by
  unfold tbkfV
  rw [if_neg (by omega), if_pos (by omega), show n2 - (n2 - j) = j by omega]

theorem blueTbkf_tab {xn2 : F} {n n2 : ℕ} {bk : ℕ → Cx F} (hn : 0 < n) (hn2 : 2 * n - 1 ≤ n2) (junk : ℕ → Cx F) :
    PocketF.blueTbkf xn2 n n2 (tab n bk) junk = .ok (tab n2 (tbkfV xn2 n n2 bk)) := by
  unfold PocketF.blueTbkf
  simp only [ld_tab hn, Out.ok_bind]
  have hv : ∀ j, j < n → (bk j).scale xn2 = tbkfV xn2 n n2 bk j := by
    intro j hj
    unfold tbkfV
    rw [if_pos hj]
  refine fills_all (L := n2) (V := tbkfV xn2 n n2 bk) (f := fun ch => st ch 0 _ >>= fun tbkf =>
      forN (n - 1) (fun m0 tbkf => do
        let b ← ld (tab n bk) (m0 + 1)
        let tbkf ← st tbkf (n2 - (m0 + 1)) (b.scale xn2)
        st tbkf (m0 + 1) (b.scale xn2)) tbkf >>=
      forN (n2 - n + 1 - n) (fun m0 tbkf => st tbkf (n + m0) ⟨0, 0⟩))
    (fills_st_bind (by omega) (hv 0 hn) (fills_bind (fills_forN (T := fun m0 i => i = n2 - (m0 + 1) ∨ i = m0 + 1) ?_)
      (fills_forN (T := fun m0 i => i = n + m0) ?_))) ?_ (fresh_length _ _)
  · intro k hk
    simp only [ld_tab (show k + 1 < n by omega), Out.ok_bind]
    refine fills_st_bind (by omega) ?_ (fills_st (by omega) (hv _ (by omega)))
    rw [tbkfV_refl hn2 (by omega) (by omega)]
  · intro k hk
    refine fills_st (by omega) ?_
    unfold tbkfV
    rw [if_neg (by omega), if_neg (by omega)]
  · intro i hi
    by_cases h0 : i = 0
    · exact Or.inl h0
    · right
      by_cases h1 : i < n
      · exact Or.inl ⟨i - 1, by omega, Or.inr (by omega)⟩
      · by_cases h2 : n2 < n + i
        · exact Or.inl ⟨n2 - i - 1, by omega, Or.inl (by omega)⟩
        · exact Or.inr ⟨i - n, by omega, by omega⟩

/-- entry `m` of the padded chirped input -/
def startV (fwd : Bool) (n : ℕ) (x bk : ℕ → Cx F) (m : ℕ) : Cx F :=
  if m < n then PocketF.smul fwd (x m) (bk m) else (PocketF.smul fwd (x 0) (bk 0)).scale 0

theorem blueStart_tab {p : PocketF.Blue F} {n : ℕ} (hn : 0 < n) {bk : ℕ → Cx F} (p1 : p.n = n) (p2 : 2 * n - 1 ≤ p.n2)
    (p4 : p.bk = tab n bk) (fwd : Bool) (x junk : ℕ → Cx F) :
    PocketF.blueStart p fwd (tab n x) junk = .ok (tab p.n2 (startV fwd n x bk)) := by
  unfold PocketF.blueStart
  rw [p1, p4]
  obtain ⟨a1, e1, f1⟩ := fills_forN (L := p.n2) (V := startV fwd n x bk) (m := n)
    (f := fun m akf => do
      let x ← ld (tab n x) m
      let b ← ld (tab n bk) m
      st akf m (PocketF.smul fwd x b)) (T := fun k i => i = k) (by
    intro k hk
    simp only [ld_tab hk, Out.ok_bind]
    refine fills_st (by omega) ?_
    unfold startV
    rw [if_pos hk]) (fun _ => False) (fresh junk p.n2) ⟨fresh_length _ _, fun _ _ h => h.elim⟩
  rw [e1, Out.ok_bind]
  have h0 : ld a1 0 = .ok (startV fwd n x bk 0) := by
    have := f1.2 0 (by omega) (Or.inr ⟨0, hn, rfl⟩)
    simp [ld, this]
  rw [h0, Out.ok_bind]
  obtain ⟨a2, e2, f2⟩ := fills_forN (L := p.n2) (V := startV fwd n x bk) (m := p.n2 - n)
    (f := fun m0 akf => st akf (n + m0) ((startV fwd n x bk 0).scale 0)) (T := fun k i => i = n + k) (by
    intro k hk
    refine fills_st (by omega) ?_
    unfold startV
    rw [if_pos hn, if_neg (by omega)]) _ a1 f1
  rw [e2, eq_tab f2.1]
  intro i hi
  apply f2.2 i hi
  by_cases h : i < n
  · exact Or.inl (Or.inr ⟨i, h, rfl⟩)
  · exact Or.inr ⟨i - n, by omega, by omega⟩

/-- the index of the transformed chirp used at `k` -/
def fold2 (N k : ℕ) : ℕ := if 2 * k ≤ N then k else N - k

/-- entry `k` of the product -/
def mulV (fwd : Bool) (N : ℕ) (a bkf : ℕ → Cx F) (k : ℕ) : Cx F := PocketF.smul (!fwd) (a k) (bkf (fold2 N k))

theorem blueMul_tab {p : PocketF.Blue F} {N : ℕ} (h0 : 0 < N) {bkf : ℕ → Cx F} (hN : p.n2 = N)
    (p5 : p.bkf = tab (N / 2 + 1) bkf) (fwd : Bool) (a : ℕ → Cx F) :
    PocketF.blueMul p fwd (tab N a) = .ok (tab N (mulV fwd N a bkf)) := by
  unfold PocketF.blueMul
  rw [p5, hN]
  have hlo : ∀ k, 2 * k ≤ N → PocketF.smul (!fwd) (a k) (bkf k) = mulV fwd N a bkf k := by
    intro k hk
    unfold mulV fold2
    rw [if_pos hk]
  have m1 : Maps N a (mulV fwd N a bkf) (fun akf => do
      let x ← ld akf 0
      let b ← ld (tab (N / 2 + 1) bkf) 0
      st akf 0 (PocketF.smul (!fwd) x b)) (fun i => i = 0) := by
    intro S hS
    simp only []
    rw [ld_mix_old h0 (hS 0 h0 rfl), Out.ok_bind, ld_tab (by omega), Out.ok_bind, st_mix h0 (hlo 0 (by omega))]
  have m2 : Maps N a (mulV fwd N a bkf) (forN ((N + 1) / 2 - 1) (fun m0 akf => do
      let b ← ld (tab (N / 2 + 1) bkf) (m0 + 1)
      let x ← ld akf (m0 + 1)
      let akf ← st akf (m0 + 1) (PocketF.smul (!fwd) x b)
      let x ← ld akf (N - (m0 + 1))
      st akf (N - (m0 + 1)) (PocketF.smul (!fwd) x b)))
      (fun i => ∃ k, k < (N + 1) / 2 - 1 ∧ (i = k + 1 ∨ i = N - (k + 1))) := by
    apply maps_forN
    · intro k hk S hS
      have h1 : k + 1 < N := by omega
      have h2 : N - (k + 1) < N := by omega
      have n2 : ¬ (S (N - (k + 1)) ∨ N - (k + 1) = k + 1) := by
        rintro (h' | h')
        · exact hS _ h2 (Or.inr rfl) h'
        · omega
      simp only []
      rw [ld_tab (by omega), Out.ok_bind, ld_mix_old h1 (hS _ h1 (Or.inl rfl)), Out.ok_bind,
        st_mix h1 (hlo _ (by omega)), Out.ok_bind, ld_mix_old h2 n2, Out.ok_bind, st_mix h2]
      · congr 1
        apply mix_congr
        intro i _
        tauto
      · unfold mulV fold2
        rw [if_neg (by omega), show N - (N - (k + 1)) = k + 1 by omega]
    · rintro k k' i hk hk' _ (h1 | h1) (h2 | h2) <;> omega
  have m3 : Maps N a (mulV fwd N a bkf) (fun akf => if N % 2 = 0 then do
      let x ← ld akf (N / 2)
      let b ← ld (tab (N / 2 + 1) bkf) (N / 2)
      st akf (N / 2) (PocketF.smul (!fwd) x b)
    else pure akf) (fun i => N % 2 = 0 ∧ i = N / 2) := by
    intro S hS
    simp only []
    by_cases h : N % 2 = 0
    · rw [if_pos h, ld_mix_old (by omega) (hS _ (by omega) ⟨h, rfl⟩), Out.ok_bind, ld_tab (by omega), Out.ok_bind,
        st_mix (by omega) (hlo _ (by omega))]
      congr 1
      apply mix_congr
      intro i _
      tauto
    · rw [if_neg h, Out.pure_def]
      congr 1
      apply mix_congr
      intro i _
      tauto
  have m4 := maps_bind m1 (maps_bind m2 m3 (by rintro i hi ⟨k, hk, h⟩ ⟨h1, h2⟩; omega)) (by
    rintro i hi h (⟨k, hk, h1⟩ | ⟨h1, h2⟩) <;> omega)
  have m5 := maps_all m4
  simp only [bind_assoc] at m5
  refine m5.trans ?_
  congr 1
  unfold mix
  apply tab_congr
  intro i hi
  rw [if_pos]
  by_cases e0 : i = 0
  · exact Or.inl e0
  · right
    by_cases e1 : 2 * i < N
    · exact Or.inl ⟨i - 1, by omega, Or.inl (by omega)⟩
    · by_cases e2 : 2 * i = N
      · exact Or.inr ⟨by omega, by omega⟩
      · exact Or.inl ⟨N - i - 1, by omega, Or.inr (by omega)⟩

/-! ### rounding of one operation -/

variable {A : FloatArithNeg F}

theorem scale_err {a : Cx F} {f : F} {V W : ℝ} (ha : FinC A a) (hf : A.finite f) (hV : ‖cval A a‖ ≤ V)
    (hW : |A.val f| ≤ W) (hH : V * W ≤ A.huge) :
    FinC A (a.scale f) ∧ ‖cval A (a.scale f) - A.val f * cval A a‖ ≤ 2 * (A.u * (V * W) + A.tiny) := by
  have u0 := A.u_nonneg
  have hV0 : 0 ≤ V := (norm_nonneg _).trans hV
  have hW0 : 0 ≤ W := (abs_nonneg _).trans hW
  have comp : ∀ c, |A.val c| ≤ ‖cval A a‖ → A.finite c → A.finite (c * f) ∧
      |A.val (c * f) - A.val c * A.val f| ≤ A.u * (V * W) + A.tiny := by
    intro c hc hcf
    have p1 : |A.val c * A.val f| ≤ V * W := by
      rw [abs_mul]; exact mul_le_mul (hc.trans hV) hW (abs_nonneg _) hV0
    obtain ⟨q1, q2⟩ := A.mul c f hcf hf (p1.trans hH)
    exact ⟨q1, q2.trans (by gcongr)⟩
  obtain ⟨r1, r2⟩ := comp a.re (Complex.abs_re_le_norm (cval A a)) ha.1
  obtain ⟨i1, i2⟩ := comp a.im (Complex.abs_im_le_norm (cval A a)) ha.2
  refine ⟨⟨r1, i1⟩, ?_⟩
  have g := Complex.norm_le_abs_re_add_abs_im (cval A (a.scale f) - A.val f * cval A a)
  have gr : (cval A (a.scale f) - A.val f * cval A a).re = A.val (a.re * f) - A.val a.re * A.val f := by
    simp [cval, Cx.scale]; ring
  have gi : (cval A (a.scale f) - A.val f * cval A a).im = A.val (a.im * f) - A.val a.im * A.val f := by
    simp [cval, Cx.scale]; ring
  rw [gr, gi] at g
  linarith

theorem smul_err {v c : Cx F} {V W : ℝ} (fwd : Bool) (hv : FinC A v) (hc : FinC A c) (hV : ‖cval A v‖ ≤ V)
    (hW : ‖cval A c‖ ≤ W) (hu : 192 * A.u ≤ 1) (hH : 4 * (V * W + A.tiny) ≤ A.huge) :
    FinC A (PocketF.smul fwd v c) ∧
      ‖cval A (PocketF.smul fwd v c) - Pocket.smul fwd (cval A v) (cval A c)‖ ≤ 10 * (A.u * (V * W) + A.tiny) := by
  have u0 := A.u_nonneg
  have t0 := A.tiny_nonneg
  have hV0 : 0 ≤ V := (norm_nonneg _).trans hV
  have hW0 : 0 ≤ W := (norm_nonneg _).trans hW
  obtain ⟨P, hP⟩ : ∃ P, P = V * W := ⟨_, rfl⟩
  have hP0 : 0 ≤ P := by rw [hP]; positivity
  rw [← hP] at hH ⊢
  have hPu : A.u * P ≤ 1 / 192 * P := mul_le_mul_of_nonneg_right (by linarith) hP0
  have hTu : A.u * A.tiny ≤ 1 / 192 * A.tiny := mul_le_mul_of_nonneg_right (by linarith) t0
  have prod : ∀ a b, A.finite a → A.finite b → |A.val a| ≤ ‖cval A v‖ → |A.val b| ≤ ‖cval A c‖ →
      A.finite (a * b) ∧ |A.val (a * b) - A.val a * A.val b| ≤ A.u * P + A.tiny ∧ |A.val a * A.val b| ≤ P := by
    intro a b ha hb h1 h2
    have p1 : |A.val a * A.val b| ≤ P := by
      rw [abs_mul, hP]; exact mul_le_mul (h1.trans hV) (h2.trans hW) (abs_nonneg _) hV0
    obtain ⟨q1, q2⟩ := A.mul a b ha hb (by linarith)
    exact ⟨q1, q2.trans (by gcongr), p1⟩
  have sum : ∀ p q r : F, ∀ x y : ℝ, |A.val p - x| ≤ A.u * P + A.tiny → |x| ≤ P → |A.val q - y| ≤ A.u * P + A.tiny →
      |y| ≤ P → ∀ s t : ℝ, |s - t| ≤ |A.val p - x| + |A.val q - y| → |t| ≤ |x| + |y| →
      (|s| ≤ A.huge → A.finite r ∧ |A.val r - s| ≤ A.u * |s|) →
      A.finite r ∧ |A.val r - t| ≤ 5 * (A.u * P + A.tiny) := by
    intro p q r x y h1 h2 h3 h4 s t h5 h6 h7
    have hs : |s| ≤ 2 * P + 2 * (A.u * P + A.tiny) := by
      have := abs_add_le (s - t) t
      rw [sub_add_cancel] at this
      linarith
    obtain ⟨k1, k2⟩ := h7 (by linarith)
    refine ⟨k1, ?_⟩
    have g := abs_add_le (A.val r - s) (s - t)
    rw [sub_add_sub_cancel] at g
    have hus : A.u * |s| ≤ A.u * (2 * P + 2 * (A.u * P + A.tiny)) := mul_le_mul_of_nonneg_left hs u0
    have huu : A.u * (A.u * P) ≤ 1 / 192 * (A.u * P) := mul_le_mul_of_nonneg_right (by linarith) (by positivity)
    have : A.u * (2 * P + 2 * (A.u * P + A.tiny)) = 2 * (A.u * P) + 2 * (A.u * (A.u * P)) + 2 * (A.u * A.tiny) := by ring
    have : 0 ≤ A.u * P := by positivity
    linarith
  have vr : |A.val v.re| ≤ ‖cval A v‖ := Complex.abs_re_le_norm (cval A v)
  have vi : |A.val v.im| ≤ ‖cval A v‖ := Complex.abs_im_le_norm (cval A v)
  have cr : |A.val c.re| ≤ ‖cval A c‖ := Complex.abs_re_le_norm (cval A c)
  have ci : |A.val c.im| ≤ ‖cval A c‖ := Complex.abs_im_le_norm (cval A c)
  obtain ⟨f1, e1, m1⟩ := prod v.re c.re hv.1 hc.1 vr cr
  obtain ⟨f2, e2, m2⟩ := prod v.im c.im hv.2 hc.2 vi ci
  obtain ⟨f3, e3, m3⟩ := prod v.re c.im hv.1 hc.2 vr ci
  obtain ⟨f4, e4, m4⟩ := prod v.im c.re hv.2 hc.1 vi cr
  have hadd : ∀ x y p q : ℝ, |p + q - (x + y)| ≤ |p - x| + |q - y| := by
    intro x y p q
    calc |p + q - (x + y)| = |(p - x) + (q - y)| := by ring_nf
      _ ≤ _ := abs_add_le _ _
  have hsub : ∀ x y p q : ℝ, |p - q - (x - y)| ≤ |p - x| + |q - y| := by
    intro x y p q
    calc |p - q - (x - y)| = |(p - x) - (q - y)| := by ring_nf
      _ ≤ _ := abs_sub _ _
  have g := Complex.norm_le_abs_re_add_abs_im (cval A (PocketF.smul fwd v c) - Pocket.smul fwd (cval A v) (cval A c))
  cases fwd
  · obtain ⟨k1, k2⟩ := sum _ _ (v.re * c.re - v.im * c.im) _ _ e1 m1 e2 m2 (A.val (v.re * c.re) - A.val (v.im * c.im))
      (A.val v.re * A.val c.re - A.val v.im * A.val c.im) (hsub _ _ _ _) (abs_sub _ _) (fun h => A.sub _ _ f1 f2 h)
    obtain ⟨k3, k4⟩ := sum _ _ (v.re * c.im + v.im * c.re) _ _ e3 m3 e4 m4 (A.val (v.re * c.im) + A.val (v.im * c.re))
      (A.val v.re * A.val c.im + A.val v.im * A.val c.re) (hadd _ _ _ _) (abs_add_le _ _) (fun h => A.add _ _ f3 f4 h)
    refine ⟨⟨k1, k3⟩, g.trans ?_⟩
    simp only [cval, PocketF.smul, Pocket.smul, Complex.sub_re, Complex.sub_im, Bool.false_eq_true, if_false]
    linarith
  · obtain ⟨k1, k2⟩ := sum _ _ (v.re * c.re + v.im * c.im) _ _ e1 m1 e2 m2 (A.val (v.re * c.re) + A.val (v.im * c.im))
      (A.val v.re * A.val c.re + A.val v.im * A.val c.im) (hadd _ _ _ _) (abs_add_le _ _) (fun h => A.add _ _ f1 f2 h)
    obtain ⟨k3, k4⟩ := sum _ _ (v.im * c.re - v.re * c.im) _ _ e4 m4 e3 m3 (A.val (v.im * c.re) - A.val (v.re * c.im))
      (A.val v.im * A.val c.re - A.val v.re * A.val c.im) (hsub _ _ _ _) (abs_sub _ _) (fun h => A.sub _ _ f4 f3 h)
    refine ⟨⟨k1, k3⟩, g.trans ?_⟩
    simp only [cval, PocketF.smul, Pocket.smul, Complex.sub_re, Complex.sub_im, if_true]
    linarith

/-! ### approximate arrays -/

/-- `y` holds `Y` up to `e`, and `Y` is at most `m`. -/
def Close (A : FloatArithNeg F) (N : ℕ) (y : ℕ → Cx F) (Y : ℕ → ℂ) (e m : ℝ) : Prop :=
  ∀ k, k < N → FinC A (y k) ∧ ‖cval A (y k) - Y k‖ ≤ e ∧ ‖Y k‖ ≤ m

theorem norm_of_close {a b : ℂ} {e m : ℝ} (h1 : ‖a - b‖ ≤ e) (h2 : ‖b‖ ≤ m) : ‖a‖ ≤ m + e := by
  calc ‖a‖ = ‖b + (a - b)‖ := by ring_nf
    _ ≤ ‖b‖ + ‖a - b‖ := norm_add_le _ _
    _ ≤ _ := add_le_add h2 h1

theorem fft_close {h : ℝ} {L : Lits F} {one : F} {tw : ℕ → Cx F} {N : ℕ} (hN : 0 < N) (h1 : 1 ≤ h) (hL : LitsOk A h L)
    (ht : TableOk A h N tw) (hu : 192 * (h * (primeSum N + 1)) ^ 2 * A.u ≤ 1) (fwd : Bool) {y : ℕ → Cx F} {Y : ℕ → ℂ}
    {e m : ℝ} (hy : Close A N y Y e m)
    (hH : 4800 * (h * (primeSum N + 1)) ^ 3 * N * (m + e + A.tiny) ≤ A.huge)
    (scratch : List (Cx F)) (hs : scratch.length = N) :
    ∃ z, cfftExec L one tw fwd none (tab N y) scratch = .ok (tab N z) ∧ ∀ k, k < N → FinC A (z k) ∧
      ‖cval A (z k) - ∑ j ∈ Finset.range N, Y j * w fwd N (j * k)‖
        ≤ 64 * (h * (primeSum N + 1)) * N * (A.u * (m + e) + A.tiny) + N * e := by
  have t0 := A.tiny_nonneg
  have u0 := A.u_nonneg
  have e0 : 0 ≤ e := (norm_nonneg _).trans (hy 0 hN).2.1
  have m0 : 0 ≤ m := (norm_nonneg _).trans (hy 0 hN).2.2
  have hg : ∀ k, k < N → (tab N y).getD k ⟨0, 0⟩ = y k := by
    intro k hk
    rw [List.getD_eq_getElem?_getD, tab_get?, if_pos hk]; rfl
  obtain ⟨Q, hQ⟩ : ∃ Q : ℝ, Q = primeSum N := ⟨_, rfl⟩
  have hQ0 : 0 ≤ Q := by rw [hQ]; exact Nat.cast_nonneg _
  obtain ⟨z, z1, z2, z3⟩ := C89_mixed_radix A h (m + e) L one tw fwd (tab N y) scratch
    (by intro hc; have := congrArg List.length hc; simp at this; omega) (by simpa using hs) h1 hL (by simpa using ht)
    (by
      intro c hc
      obtain ⟨k, hk, rfl⟩ := List.getElem_of_mem hc
      have hk' : k < N := by simpa using hk
      rw [tab_get]
      obtain ⟨a1, a2, a3⟩ := hy k hk'
      exact ⟨a1, norm_of_close a2 a3⟩)
    (by simpa using hu)
    (by
      refine le_trans ?_ hH
      rw [tab_length, ← hQ]
      have b1 : 4800 * h ^ 3 * (Q + 1) ^ 2 ≤ 4800 * (h * (Q + 1)) ^ 3 := by
        have : (Q + 1) ^ 2 ≤ (Q + 1) ^ 3 := pow_le_pow_right₀ (by linarith) (by norm_num)
        rw [mul_pow]
        have : h ^ 3 * (Q + 1) ^ 2 ≤ h ^ 3 * (Q + 1) ^ 3 := by gcongr
        linarith
      have : 4800 * h ^ 3 * (Q + 1) ^ 2 * (N * (m + e + A.tiny)) ≤ 4800 * (h * (Q + 1)) ^ 3 * (N * (m + e + A.tiny)) := by
        gcongr
      linarith)
  rw [tab_length] at z2
  refine ⟨fun k => z.getD k ⟨0, 0⟩, ?_, fun k hk => ?_⟩
  · rw [z1]
    congr 1
    conv_lhs => rw [list_tabC z ⟨0, 0⟩]
    rw [z2]
  · obtain ⟨a1, a2⟩ := z3 k (by simpa using hk)
    refine ⟨a1, ?_⟩
    rw [tab_length, ← hQ] at a2
    have d1 : ‖(∑ j ∈ Finset.range N, cval A ((tab N y).getD j ⟨0, 0⟩) * rootOfUnity N ((if fwd then -1 else 1) * ((j : ℤ) * k)))
        - ∑ j ∈ Finset.range N, Y j * w fwd N (j * k)‖ ≤ N * e := by
      rw [← Finset.sum_sub_distrib]
      have : ∀ j ∈ Finset.range N, ‖cval A ((tab N y).getD j ⟨0, 0⟩) * rootOfUnity N ((if fwd then -1 else 1) * ((j : ℤ) * k))
          - Y j * w fwd N (j * k)‖ ≤ e := by
        intro j hj
        have hj := Finset.mem_range.mp hj
        have ew : rootOfUnity N ((if fwd then -1 else 1) * ((j : ℤ) * k)) = w fwd N (j * k) := by
          rw [Pocket.w_ru]; simp only [Pocket.sgn, Nat.cast_mul]
        rw [hg j hj, ew, ← sub_mul, norm_mul, norm_w, mul_one]
        exact (hy j hj).2.1
      refine (norm_sum_le_of_le _ this).trans (by simp)
    have d2 := norm_sub_le_norm_sub_add_norm_sub (cval A (z.getD k ⟨0, 0⟩))
      (∑ j ∈ Finset.range N, cval A ((tab N y).getD j ⟨0, 0⟩) * rootOfUnity N ((if fwd then -1 else 1) * ((j : ℤ) * k)))
      (∑ j ∈ Finset.range N, Y j * w fwd N (j * k))
    refine d2.trans (add_le_add (a2.trans ?_) d1)
    have c1 : h * N * Q ≤ h * N * (Q + 1) := by gcongr; linarith
    have c2 : 0 ≤ A.u * (m + e) + A.tiny := by positivity
    rw [← hQ]
    calc 64 * h * N * Q * (A.u * (m + e) + A.tiny) = 64 * (h * N * Q) * (A.u * (m + e) + A.tiny) := by ring
      _ ≤ 64 * (h * N * (Q + 1)) * (A.u * (m + e) + A.tiny) := by gcongr
      _ = _ := by ring

theorem smul_norm (fwd : Bool) (x b : ℂ) : ‖Pocket.smul fwd x b‖ = ‖x‖ * ‖b‖ := by
  rw [smul_mul, norm_mul]
  cases fwd
  · simp
  · simp

theorem smul_sub2 (fwd : Bool) (x x' b b' : ℂ) :
    Pocket.smul fwd x b - Pocket.smul fwd x' b' = Pocket.smul fwd x (b - b') + Pocket.smul fwd (x - x') b' := by
  simp only [smul_mul]
  cases fwd
  · simp; ring
  · simp; ring

theorem smul_close {v c : Cx F} {z b : ℂ} {ev mv ec mc : ℝ} (fwd : Bool) (hv : FinC A v) (hc : FinC A c)
    (h1 : ‖cval A v - z‖ ≤ ev) (h2 : ‖z‖ ≤ mv) (h3 : ‖cval A c - b‖ ≤ ec) (h4 : ‖b‖ ≤ mc) (hu : 192 * A.u ≤ 1)
    (hH : 4 * ((mv + ev) * (mc + ec) + A.tiny) ≤ A.huge) :
    FinC A (PocketF.smul fwd v c) ∧ ‖cval A (PocketF.smul fwd v c) - Pocket.smul fwd z b‖
      ≤ 10 * (A.u * ((mv + ev) * (mc + ec)) + A.tiny) + (mv + ev) * ec + ev * mc := by
  have n1 := norm_of_close h1 h2
  have n2 := norm_of_close h3 h4
  obtain ⟨k1, k2⟩ := smul_err fwd hv hc n1 n2 hu hH
  refine ⟨k1, ?_⟩
  have d := norm_sub_le_norm_sub_add_norm_sub (cval A (PocketF.smul fwd v c)) (Pocket.smul fwd (cval A v) (cval A c))
    (Pocket.smul fwd z b)
  have d2 : ‖Pocket.smul fwd (cval A v) (cval A c) - Pocket.smul fwd z b‖ ≤ (mv + ev) * ec + ev * mc := by
    rw [smul_sub2]
    refine (norm_add_le _ _).trans ?_
    rw [smul_norm, smul_norm]
    exact add_le_add (mul_le_mul n1 h3 (norm_nonneg _) ((norm_nonneg _).trans n1))
      (mul_le_mul h1 h4 (norm_nonneg _) ((norm_nonneg _).trans h1))
  linarith

theorem chirp_norm (fwd : Bool) {n N : ℕ} (hN : 0 < N) (j : ℕ) : ‖chirp fwd n N j‖ ≤ 1 / N := by
  have hr : ∀ a b, ‖rootOfUnity a b‖ = 1 := by
    intro a b
    unfold rootOfUnity
    rw [show (2 * (Real.pi : ℂ) * I * (b : ℂ) / (a : ℂ)) = ((2 * Real.pi * b / a : ℝ) : ℂ) * I by push_cast; ring]
    exact Complex.norm_exp_ofReal_mul_I _
  unfold chirp
  split
  · rw [norm_div, hr, Complex.norm_natCast]
  · split
    · rw [norm_div, hr, Complex.norm_natCast]
    · rw [norm_zero]; positivity

theorem chirpF_norm (fwd : Bool) {n N : ℕ} (hN : 0 < N) (k : ℕ) : ‖chirpF fwd n N k‖ ≤ 1 := by
  unfold chirpF
  have : ∀ j ∈ Finset.range N, ‖chirp fwd n N j * rootOfUnity N (-(j * k))‖ ≤ 1 / N := by
    intro j _
    have e : rootOfUnity N (-((j : ℤ) * k)) = w true N (j * k) := by rw [w_true_ru]
    rw [e, norm_mul, norm_w, mul_one]
    exact chirp_norm fwd hN j
  refine (norm_sum_le_of_le _ this).trans ?_
  have : (0 : ℝ) < N := by exact_mod_cast hN
  simp
  rw [mul_inv_cancel₀ this.ne']

/-! ### the plan -/

theorem gu_small {g u : ℝ} (hg : 1 ≤ g) (u0 : 0 ≤ u) (hu : 192 * g ^ 2 * u ≤ 1) : 192 * (g * u) ≤ 1 ∧ 192 * u ≤ 1 := by
  have h1 : g * u ≤ g ^ 2 * u := mul_le_mul_of_nonneg_right (by nlinarith) u0
  have h2 : 1 * u ≤ g * u := mul_le_mul_of_nonneg_right hg u0
  constructor <;> linarith

/-- A Bluestein plan in floating point. -/
structure GoodBlueF (A : FloatArithNeg F) (h : ℝ) (n : ℕ) (p : PocketF.Blue F) : Prop where
  len : p.n = n
  pad : 2 * n - 1 ≤ p.n2
  table : TableOk A h p.n2 p.tw
  bk : ∃ b, p.bk = tab n b ∧ ∀ m, m < n → FinC A (b m) ∧ ‖cval A (b m) - w false (2 * n) (m * m)‖ ≤ 2 * (h * A.u)
  bkf : ∃ f, p.bkf = tab (p.n2 / 2 + 1) f ∧ ∀ k, 2 * k ≤ p.n2 → FinC A (f k) ∧
    ‖cval A (f k) - chirpF true n p.n2 k‖ ≤ 141 * (h * (primeSum p.n2 + 1) * A.u)

theorem bkV_close {h : ℝ} (h0 : 0 ≤ h) {one : F} {tmp : ℕ → Cx F} {n : ℕ} (hn : 0 < n) (hone : A.finite one ∧ A.val one = 1)
    (ht : TableOk A h (2 * n) tmp) (m : ℕ) :
    FinC A (bkV one tmp n m) ∧ ‖cval A (bkV one tmp n m) - w false (2 * n) (m * m)‖ ≤ 2 * (h * A.u) := by
  have u0 := A.u_nonneg
  unfold bkV
  split
  · next hm =>
    subst hm
    refine ⟨⟨hone.1, A.zero_finite⟩, ?_⟩
    have : cval A ⟨one, 0⟩ = w false (2 * n) (0 * 0) := by
      rw [Nat.mul_zero, w_zero]
      apply Complex.ext
      · simp [cval, hone.2]
      · simp [cval, A.val_zero]
    rw [this, sub_self, norm_zero]
    positivity
  · have hlt : m * m % (2 * n) < 2 * n := Nat.mod_lt _ (by omega)
    obtain ⟨a, b⟩ := ht.twOk _ hlt.le
    refine ⟨⟨a.acc.1, b.acc.1⟩, ?_⟩
    rw [show w false (2 * n) (m * m) = w false (2 * n) (m * m % (2 * n)) by rw [w_mod]]
    have g := Complex.norm_le_abs_re_add_abs_im (cval A (tmp (m * m % (2 * n))) - w false (2 * n) (m * m % (2 * n)))
    have a2 := a.acc.2
    have b2 := b.acc.2
    simp only [cval, Complex.sub_re, Complex.sub_im] at g ⊢
    linarith

theorem tbkf_num {g u N t W f : ℝ} (hg : 1 ≤ g) (u0 : 0 ≤ u) (hgu : 192 * (g * u) ≤ 1) (hu1 : 192 * u ≤ 1) (hN : 0 < N) (t0 : 0 ≤ t)
    (ht : N * t ≤ u) : 2 * (u * ((1 + 2 * (g * u)) * ((1 + 2 * u) / N)) + t) + (1 + 2 * (g * u)) * (2 * u / N) + 2 * (g * u) / N
      ≤ 9 * (g * u) / N := by
  have e : 2 * (u * ((1 + 2 * (g * u)) * ((1 + 2 * u) / N)) + t) + (1 + 2 * (g * u)) * (2 * u / N) + 2 * (g * u) / N
      = (2 * (u * ((1 + 2 * (g * u)) * (1 + 2 * u))) + 2 * (N * t) + (1 + 2 * (g * u)) * (2 * u) + 2 * (g * u)) / N := by
    field_simp
    try ring
  rw [e]
  apply div_le_div_of_nonneg_right _ hN.le
  have a1 : u ≤ g * u := by nlinarith
  have g0 : 0 ≤ g * u := by positivity
  have a2 : (1 + 2 * (g * u)) * (1 + 2 * u) ≤ (1 + 2 / 192) * (1 + 2 / 192) := by
    apply mul_le_mul <;> linarith
  have a3 : u * ((1 + 2 * (g * u)) * (1 + 2 * u)) ≤ u * ((1 + 2 / 192) * (1 + 2 / 192)) := mul_le_mul_of_nonneg_left a2 u0
  have a4 : (1 + 2 * (g * u)) * (2 * u) ≤ (1 + 2 / 192) * (2 * u) := mul_le_mul_of_nonneg_right (by linarith) (by linarith)
  linarith

theorem tbkf_close {h g : ℝ} (hg : 1 ≤ g) (hhg : h ≤ g) (h0 : 0 ≤ h) {n N : ℕ} (hn : 0 < n) (hN : 2 * n - 1 ≤ N)
    {b : ℕ → Cx F} (hb : ∀ m, m < n → FinC A (b m) ∧ ‖cval A (b m) - w false (2 * n) (m * m)‖ ≤ 2 * (h * A.u))
    {xn2 : F} (hx : A.finite xn2) (hxn : |A.val xn2 - 1 / N| ≤ 2 * A.u / N)
    (hgu : 192 * (g * A.u) ≤ 1) (hu1 : 192 * A.u ≤ 1) (hH : 10 ≤ A.huge) (ht : N * A.tiny ≤ A.u) :
    Close A N (tbkfV xn2 n N b) (chirp true n N) (9 * (g * A.u) / N) (1 / N) := by
  have hN0 : 0 < N := by omega
  have hNr : (1 : ℝ) ≤ N := by exact_mod_cast hN0
  have u0 := A.u_nonneg
  have t0 := A.tiny_nonneg
  have hf : |A.val xn2| ≤ (1 + 2 * A.u) / N := by
    have := abs_add_le (A.val xn2 - 1 / N) (1 / N)
    rw [sub_add_cancel, abs_of_nonneg (by positivity : (0 : ℝ) ≤ 1 / N)] at this
    have e : (1 + 2 * A.u) / N = 1 / N + 2 * A.u / (N : ℝ) := by ring
    rw [e]; linarith
  have key : ∀ m, m < n → FinC A ((b m).scale xn2) ∧
      ‖cval A ((b m).scale xn2) - w false (2 * n) (m * m) / N‖ ≤ 9 * (g * A.u) / N := by
    intro m hm
    obtain ⟨b1, b2⟩ := hb m hm
    have b2' : ‖cval A (b m) - w false (2 * n) (m * m)‖ ≤ 2 * (g * A.u) := by
      refine b2.trans ?_
      gcongr
    have b3 := norm_of_close b2' (norm_w false (2 * n) (m * m)).le
    obtain ⟨k1, k2⟩ := scale_err b1 hx b3 hf (by
      refine le_trans ?_ hH
      have : (1 + 2 * A.u) / (N : ℝ) ≤ 2 := by
        rw [div_le_iff₀ (by linarith)]; nlinarith
      calc (1 + 2 * (g * A.u)) * ((1 + 2 * A.u) / N) ≤ 2 * 2 := by
            apply mul_le_mul _ this (by positivity) (by norm_num); linarith
        _ ≤ 10 := by norm_num)
    refine ⟨k1, ?_⟩
    have d1 : ‖(A.val xn2 : ℂ) * cval A (b m) - w false (2 * n) (m * m) / N‖
        ≤ (1 + 2 * (g * A.u)) * (2 * A.u / N) + 2 * (g * A.u) / N := by
      have e : (A.val xn2 : ℂ) * cval A (b m) - w false (2 * n) (m * m) / N
          = cval A (b m) * ((A.val xn2 - 1 / N : ℝ) : ℂ) + (cval A (b m) - w false (2 * n) (m * m)) * ((1 / N : ℝ) : ℂ) := by
        push_cast; ring
      rw [e]
      refine (norm_add_le _ _).trans ?_
      rw [norm_mul, norm_mul, Complex.norm_real, Complex.norm_real, Real.norm_eq_abs, Real.norm_eq_abs,
        abs_of_nonneg (by positivity : (0 : ℝ) ≤ 1 / N)]
      refine add_le_add (mul_le_mul b3 hxn (abs_nonneg _) (by positivity)) ?_
      rw [mul_one_div]
      gcongr
    have d2 := norm_sub_le_norm_sub_add_norm_sub (cval A ((b m).scale xn2)) ((A.val xn2 : ℂ) * cval A (b m))
      (w false (2 * n) (m * m) / N)
    have d3 := tbkf_num (W := 0) (f := 0) hg u0 hgu hu1 (by linarith : (0 : ℝ) < N) t0 ht
    linarith
  intro j hj
  refine ⟨?_, ?_, chirp_norm true hN0 j⟩
  · unfold tbkfV
    split
    · exact (key j ‹_›).1
    · split
      · exact (key _ (by omega)).1
      · exact ⟨A.zero_finite, A.zero_finite⟩
  · unfold tbkfV chirp
    split
    · rw [show rootOfUnity (2 * n) (-(sgn true) * ((j : ℤ) * j)) = w false (2 * n) (j * j) by rw [w_false_chirp]]
      exact (key j ‹_›).2
    · split
      · rw [show rootOfUnity (2 * n) (-(sgn true) * (((N - j : ℕ) : ℤ) * ((N - j : ℕ) : ℤ))) = w false (2 * n) ((N - j) * (N - j)) by
          rw [w_false_chirp]]
        exact (key _ (by omega)).2
      · have : cval A ⟨0, 0⟩ = 0 := by apply Complex.ext <;> simp [cval, A.val_zero]
        rw [this, sub_zero, norm_zero]
        positivity

theorem bkf_num {g u N t : ℝ} (hg : 1 ≤ g) (u0 : 0 ≤ u) (hgu : 192 * (g * u) ≤ 1) (hN : 0 < N) (t0 : 0 ≤ t)
    (ht : N * t ≤ u) : 64 * g * N * (u * (1 / N + 9 * (g * u) / N) + t) + N * (9 * (g * u) / N) ≤ 141 * (g * u) := by
  have e : 64 * g * N * (u * (1 / N + 9 * (g * u) / N) + t) + N * (9 * (g * u) / N)
      = 64 * (g * u) * (1 + 9 * (g * u)) + 64 * (g * (N * t)) + 9 * (g * u) := by
    field_simp
    try ring
  rw [e]
  have g0 : 0 ≤ g * u := by positivity
  have a1 : g * (N * t) ≤ g * u := mul_le_mul_of_nonneg_left ht (by linarith)
  have a2 : (g * u) * (1 + 9 * (g * u)) ≤ (g * u) * (1 + 9 / 192) := mul_le_mul_of_nonneg_left (by linarith) g0
  linarith

theorem fftblue_near {h : ℝ} {L : Lits F} {one xn2 : F} {tw2 tmp : ℕ → Cx F} {n N : ℕ} (hn : 0 < n)
    (hN : goodSizeCmplx (2 * n - 1) = .ok N) (h1 : 1 ≤ h) (hL : LitsOk A h L)
    (ht2 : TableOk A h N tw2) (htm : TableOk A h (2 * n) tmp) (hone : A.finite one ∧ A.val one = 1)
    (hx : A.finite xn2) (hxn : |A.val xn2 - 1 / N| ≤ 2 * A.u / N)
    (hu : 192 * (h * (primeSum N + 1)) ^ 2 * A.u ≤ 1)
    (hH : 10000 * (h * (primeSum N + 1)) ^ 3 ≤ A.huge) (ht : N * A.tiny ≤ A.u) (junk : ℕ → Cx F) :
    ∃ p, PocketF.fftblue L one xn2 tw2 tmp n junk = .ok p ∧ GoodBlueF A h n p ∧ p.n2 = N := by
  have u0 := A.u_nonneg
  have t0 := A.tiny_nonneg
  obtain ⟨N', e1, e2, -⟩ := goodSizeCmplx_ok (n := 2 * n - 1) (by omega)
  obtain rfl : N' = N := by rw [hN] at e1; cases e1; rfl
  have hN0 : 0 < N' := by omega
  obtain ⟨g, hg⟩ : ∃ g : ℝ, g = h * (primeSum N' + 1) := ⟨_, rfl⟩
  have hQ0 : (0 : ℝ) ≤ primeSum N' := Nat.cast_nonneg _
  have hhg : h ≤ g := by rw [hg]; nlinarith
  have hg1 : 1 ≤ g := h1.trans hhg
  obtain ⟨hgu, hu1⟩ := gu_small hg1 u0 (by rw [hg]; exact hu)
  have hbk := fun m (_ : m < n) => bkV_close (A := A) (by linarith : (0 : ℝ) ≤ h) hn hone htm m
  rw [← hg] at hH
  have hg3 : 1 ≤ g ^ 3 := one_le_pow₀ hg1
  have hc := tbkf_close (A := A) hg1 hhg (by linarith) hn e2 hbk hx hxn hgu hu1 (by linarith) ht
  have hNr : (0 : ℝ) < N' := by exact_mod_cast hN0
  obtain ⟨z, z1, z2⟩ := fft_close (one := one) hN0 h1 hL ht2 hu true hc (by
    rw [← hg]
    refine le_trans ?_ hH
    have e : 4800 * g ^ 3 * N' * (1 / N' + 9 * (g * A.u) / N' + A.tiny)
        = 4800 * (g ^ 3 * (1 + 9 * (g * A.u) + N' * A.tiny)) := by
      field_simp
      try ring
    rw [e]
    have : g ^ 3 * (1 + 9 * (g * A.u) + N' * A.tiny) ≤ g ^ 3 * 2 := by
      apply mul_le_mul_of_nonneg_left _ (by positivity)
      linarith
    linarith) (fresh junk N') (fresh_length _ _)
  refine ⟨⟨n, N', tw2, tab n (bkV one tmp n), tab (N' / 2 + 1) z⟩, ?_, ⟨rfl, e2, ht2, ⟨_, rfl, hbk⟩, ⟨_, rfl, ?_⟩⟩, rfl⟩
  · unfold PocketF.fftblue
    simp only []
    rw [Nat.mul_comm n 2, hN, Out.ok_bind, blueBk_tab hn, Out.ok_bind, blueTbkf_tab hn e2, Out.ok_bind, z1, Out.ok_bind,
      copy_ok (by omega) (fresh_length _ _), Out.ok_bind]
    rfl
  · intro k hk
    simp only [] at hk ⊢
    obtain ⟨a, b⟩ := z2 k (by omega)
    refine ⟨a, ?_⟩
    rw [← hg] at b ⊢
    have e : ∑ j ∈ Finset.range N', chirp true n N' j * w true N' (j * k) = chirpF true n N' k := by
      unfold chirpF
      simp [w_true_ru]
    rw [e] at b
    exact b.trans (bkf_num hg1 u0 hgu hNr t0 ht)

/-! ### execution -/

theorem start_num {g u X t : ℝ} (hg : 1 ≤ g) (u0 : 0 ≤ u) (hgu : 192 * (g * u) ≤ 1) (hX : 0 ≤ X) (t0 : 0 ≤ t) :
    10 * (u * ((X + 0) * (1 + 2 * (g * u))) + t) + (X + 0) * (2 * (g * u)) + 0 * 1 ≤ 13 * (g * (u * X + t)) := by
  have c0 : 0 ≤ u * X := by positivity
  have a1 : (u * X) * (1 + 2 * (g * u)) ≤ (u * X) * (1 + 2 / 192) := mul_le_mul_of_nonneg_left (by linarith) c0
  have a2 : 1 * (u * X) ≤ g * (u * X) := mul_le_mul_of_nonneg_right hg c0
  have a3 : 1 * t ≤ g * t := mul_le_mul_of_nonneg_right hg t0
  have e : 10 * (u * ((X + 0) * (1 + 2 * (g * u))) + t) + (X + 0) * (2 * (g * u)) + 0 * 1
      = 10 * ((u * X) * (1 + 2 * (g * u))) + 10 * t + 2 * (g * (u * X)) := by ring
  rw [e, mul_add]
  linarith

theorem start_close {h g X : ℝ} (hg : 1 ≤ g) (hhg : h ≤ g) (h0 : 0 ≤ h) {n N : ℕ} (hn : 0 < n) (fwd : Bool)
    {b x : ℕ → Cx F} (hb : ∀ m, m < n → FinC A (b m) ∧ ‖cval A (b m) - w false (2 * n) (m * m)‖ ≤ 2 * (h * A.u))
    (hx : ∀ m, m < n → FinC A (x m) ∧ ‖cval A (x m)‖ ≤ X) (hgu : 192 * (g * A.u) ≤ 1) (hu1 : 192 * A.u ≤ 1)
    (hH : 10 * (X + A.tiny) ≤ A.huge) (N : ℕ) :
    Close A N (startV fwd n x b) (chirped fwd n (fun m => cval A (x m))) (13 * (g * (A.u * X + A.tiny))) X := by
  have u0 := A.u_nonneg
  have t0 := A.tiny_nonneg
  have hX : 0 ≤ X := (norm_nonneg _).trans (hx 0 hn).2
  have key : ∀ m, m < n → FinC A (PocketF.smul fwd (x m) (b m)) ∧
      ‖cval A (PocketF.smul fwd (x m) (b m)) - cval A (x m) * w fwd (2 * n) (m * m)‖ ≤ 13 * (g * (A.u * X + A.tiny)) := by
    intro m hm
    obtain ⟨x1, x2⟩ := hx m hm
    obtain ⟨b1, b2⟩ := hb m hm
    have b2' : ‖cval A (b m) - w false (2 * n) (m * m)‖ ≤ 2 * (g * A.u) := by
      refine b2.trans ?_
      gcongr
    obtain ⟨k1, k2⟩ := smul_close fwd x1 b1 (z := cval A (x m)) (ev := 0) (by simp) x2 b2' (norm_w false (2 * n) (m * m)).le hu1 (by
      have : (X + 0) * (1 + 2 * (g * A.u)) ≤ (X + 0) * 2 := mul_le_mul_of_nonneg_left (by linarith) (by linarith)
      linarith)
    rw [smul_w] at k2
    exact ⟨k1, k2.trans (start_num hg u0 hgu hX t0)⟩
  intro m hm
  unfold startV chirped
  split
  · refine ⟨(key m ‹_›).1, (key m ‹_›).2, ?_⟩
    rw [norm_mul, norm_w, mul_one]
    exact (hx m ‹_›).2
  · obtain ⟨k1, k2⟩ := scale_err (V := ‖cval A (PocketF.smul fwd (x 0) (b 0))‖) (W := 0) (key 0 hn).1 A.zero_finite le_rfl
      (by rw [A.val_zero, abs_zero]) (by rw [mul_zero]; linarith)
    refine ⟨k1, ?_, by simpa using hX⟩
    rw [A.val_zero] at k2
    simp only [Complex.ofReal_zero, zero_mul, mul_zero, zero_add] at k2
    refine k2.trans ?_
    have c0 : 0 ≤ A.u * X := by positivity
    have a3 : 1 * A.tiny ≤ g * A.tiny := mul_le_mul_of_nonneg_right hg t0
    have a2 : 0 ≤ g * (A.u * X) := by positivity
    rw [mul_add]
    linarith

theorem fft1_num {g u X t N D : ℝ} (hg : 1 ≤ g) (u0 : 0 ≤ u) (hgu : 192 * (g * u) ≤ 1) (hX : 0 ≤ X) (t0 : 0 ≤ t)
    (hN : 1 ≤ N) (hD : D = u * X + t) : 64 * g * N * (u * (X + 13 * (g * D)) + t) + N * (13 * (g * D)) ≤ 82 * (g * (N * D)) := by
  have D0 : 0 ≤ D := by rw [hD]; positivity
  have e : 64 * g * N * (u * (X + 13 * (g * D)) + t) + N * (13 * (g * D))
      = g * N * (64 * D + 832 * ((g * u) * D) + 13 * D) := by rw [hD]; ring
  rw [e]
  have a1 : (g * u) * D ≤ 1 / 192 * D := mul_le_mul_of_nonneg_right (by linarith) D0
  calc g * N * (64 * D + 832 * ((g * u) * D) + 13 * D) ≤ g * N * (82 * D) := by
        apply mul_le_mul_of_nonneg_left _ (by positivity)
        linarith
    _ = _ := by ring

theorem mul_num {g u X t N D : ℝ} (hg : 1 ≤ g) (u0 : 0 ≤ u) (hgu : 192 * (g * u) ≤ 1) (hX : 0 ≤ X) (t0 : 0 ≤ t)
    (hN : 1 ≤ N) (hD : D = u * X + t) :
    10 * (u * ((N * X + 82 * (g * (N * D))) * (1 + 141 * (g * u))) + t) + (N * X + 82 * (g * (N * D))) * (141 * (g * u))
      + 82 * (g * (N * D)) * 1 ≤ 323 * (g * (N * D)) := by
  have D0 : 0 ≤ D := by rw [hD]; positivity
  have ND : 0 ≤ N * D := by positivity
  have g0 : 0 ≤ g * u := by positivity
  have a0 : (g * u) * (N * D) ≤ 1 / 192 * (N * D) := mul_le_mul_of_nonneg_right (by linarith) ND
  have b1 : u * (N * X) ≤ N * D := by
    rw [hD, mul_add]
    have : 0 ≤ N * t := by positivity
    linarith
  have b2 : t ≤ N * D := by
    rw [hD]
    have : 1 * (u * X + t) ≤ N * (u * X + t) := mul_le_mul_of_nonneg_right hN (by positivity)
    have : 0 ≤ u * X := by positivity
    linarith
  obtain ⟨V, hV⟩ : ∃ V, V = N * X + 82 * (g * (N * D)) := ⟨_, rfl⟩
  rw [← hV]
  have b3 : u * V ≤ 1.43 * (N * D) := by
    rw [hV]
    have : u * (N * X + 82 * (g * (N * D))) = u * (N * X) + 82 * ((g * u) * (N * D)) := by ring
    rw [this]
    linarith
  have uV0 : 0 ≤ u * V := by rw [hV]; positivity
  have b4 : (u * V) * (1 + 141 * (g * u)) ≤ (1.43 * (N * D)) * (1.735) := by
    apply mul_le_mul b3 _ (by positivity) (by positivity)
    linarith
  have b5 : g * (u * V) ≤ g * (1.43 * (N * D)) := mul_le_mul_of_nonneg_left b3 (by linarith)
  have b6 : 1 * (N * D) ≤ g * (N * D) := mul_le_mul_of_nonneg_right hg ND
  have e : 10 * (u * (V * (1 + 141 * (g * u))) + t) + V * (141 * (g * u)) + 82 * (g * (N * D)) * 1
      = 10 * ((u * V) * (1 + 141 * (g * u))) + 10 * t + 141 * (g * (u * V)) + 82 * (g * (N * D)) := by ring
  rw [e]
  linarith

theorem fft2_num {g u X t N D : ℝ} (hg : 1 ≤ g) (u0 : 0 ≤ u) (hgu : 192 * (g * u) ≤ 1) (hX : 0 ≤ X) (t0 : 0 ≤ t)
    (hN : 1 ≤ N) (hD : D = u * X + t) :
    64 * g * N * (u * (N * X + 323 * (g * (N * D))) + t) + N * (323 * (g * (N * D))) ≤ 495 * (g * (N ^ 2 * D)) := by
  have D0 : 0 ≤ D := by rw [hD]; positivity
  have ND : 0 ≤ N * D := by positivity
  have a0 : (g * u) * (N * D) ≤ 1 / 192 * (N * D) := mul_le_mul_of_nonneg_right (by linarith) ND
  have b1 : u * (N * X) + t ≤ N * D := by
    rw [hD, mul_add]
    have : 1 * t ≤ N * t := mul_le_mul_of_nonneg_right hN t0
    linarith
  have e : 64 * g * N * (u * (N * X + 323 * (g * (N * D))) + t) + N * (323 * (g * (N * D)))
      = g * N * (64 * (u * (N * X) + t) + 20672 * ((g * u) * (N * D)) + 323 * (N * D)) := by ring
  rw [e]
  calc g * N * (64 * (u * (N * X) + t) + 20672 * ((g * u) * (N * D)) + 323 * (N * D)) ≤ g * N * (495 * (N * D)) := by
        apply mul_le_mul_of_nonneg_left _ (by positivity)
        linarith
    _ = _ := by ring

theorem last_num {g u X t N D : ℝ} (hg : 1 ≤ g) (u0 : 0 ≤ u) (hgu : 192 * (g * u) ≤ 1) (hX : 0 ≤ X) (t0 : 0 ≤ t)
    (hN : 1 ≤ N) (hD : D = u * X + t) :
    10 * (u * ((N * X + 495 * (g * (N ^ 2 * D))) * (1 + 2 * (g * u))) + t) + (N * X + 495 * (g * (N ^ 2 * D))) * (2 * (g * u))
      + 495 * (g * (N ^ 2 * D)) * 1 ≤ 549 * (g * (N ^ 2 * D)) := by
  have D0 : 0 ≤ D := by rw [hD]; positivity
  obtain ⟨Z, hZ⟩ : ∃ Z, Z = N ^ 2 * D := ⟨_, rfl⟩
  have Z0 : 0 ≤ Z := by rw [hZ]; positivity
  have hN2 : N ≤ N ^ 2 := by nlinarith
  have b1 : u * (N * X) ≤ Z := by
    have h1 : N * (u * X) ≤ N ^ 2 * (u * X) := mul_le_mul_of_nonneg_right hN2 (by positivity)
    have h2 : 0 ≤ N ^ 2 * t := by positivity
    rw [hZ, hD, mul_add]
    linarith
  have b2 : t ≤ Z := by
    have h1 : 1 * t ≤ N ^ 2 * t := mul_le_mul_of_nonneg_right (by linarith) t0
    have h2 : 0 ≤ N ^ 2 * (u * X) := by positivity
    rw [hZ, hD, mul_add]
    linarith
  rw [← hZ]
  have a0 : (g * u) * Z ≤ 1 / 192 * Z := mul_le_mul_of_nonneg_right (by linarith) Z0
  obtain ⟨V, hV⟩ : ∃ V, V = N * X + 495 * (g * Z) := ⟨_, rfl⟩
  rw [← hV]
  have b3 : u * V ≤ 3.58 * Z := by
    rw [hV]
    have : u * (N * X + 495 * (g * Z)) = u * (N * X) + 495 * ((g * u) * Z) := by ring
    rw [this]
    linarith
  have uV0 : 0 ≤ u * V := by rw [hV]; positivity
  have b4 : (u * V) * (1 + 2 * (g * u)) ≤ (3.58 * Z) * (1.011) := by
    apply mul_le_mul b3 _ (by positivity) (by positivity)
    linarith
  have b5 : g * (u * V) ≤ g * (3.58 * Z) := mul_le_mul_of_nonneg_left b3 (by linarith)
  have b6 : 1 * Z ≤ g * Z := mul_le_mul_of_nonneg_right hg Z0
  have e : 10 * (u * (V * (1 + 2 * (g * u))) + t) + V * (2 * (g * u)) + 495 * (g * Z) * 1
      = 10 * ((u * V) * (1 + 2 * (g * u))) + 10 * t + 2 * (g * (u * V)) + 495 * (g * Z) := by ring
  rw [e]
  linarith

theorem scale_num {g u X t N D f : ℝ} (hg : 1 ≤ g) (u0 : 0 ≤ u) (hgu : 192 * (g * u) ≤ 1) (hX : 0 ≤ X) (t0 : 0 ≤ t)
    (hN : 1 ≤ N) (hD : D = u * X + t) (hf : 0 ≤ f) :
    2 * (u * ((N * X + 549 * (g * (N ^ 2 * D))) * f) + t) + f * (549 * (g * (N ^ 2 * D)))
      ≤ f * (560 * (g * (N ^ 2 * D))) + 2 * t := by
  have D0 : 0 ≤ D := by rw [hD]; positivity
  obtain ⟨Z, hZ⟩ : ∃ Z, Z = N ^ 2 * D := ⟨_, rfl⟩
  have Z0 : 0 ≤ Z := by rw [hZ]; positivity
  have hN2 : N ≤ N ^ 2 := by nlinarith
  have b1 : u * (N * X) ≤ Z := by
    have h1 : N * (u * X) ≤ N ^ 2 * (u * X) := mul_le_mul_of_nonneg_right hN2 (by positivity)
    have h2 : 0 ≤ N ^ 2 * t := by positivity
    rw [hZ, hD, mul_add]
    linarith
  rw [← hZ]
  have a0 : (g * u) * Z ≤ 1 / 192 * Z := mul_le_mul_of_nonneg_right (by linarith) Z0
  have b6 : 1 * Z ≤ g * Z := mul_le_mul_of_nonneg_right hg Z0
  have b3 : u * (N * X + 549 * (g * Z)) ≤ 5.5 * (g * Z) := by
    have : u * (N * X + 549 * (g * Z)) = u * (N * X) + 549 * ((g * u) * Z) := by ring
    rw [this]
    linarith
  have b4 := mul_le_mul_of_nonneg_left b3 hf
  have e : 2 * (u * ((N * X + 549 * (g * Z)) * f) + t) + f * (549 * (g * Z))
      = 2 * (f * (u * (N * X + 549 * (g * Z)))) + 2 * t + f * (549 * (g * Z)) := by ring
  rw [e]
  linarith

/-- what the limit on the magnitudes is used for -/
theorem limits {g u X t N D H f : ℝ} (hg : 1 ≤ g) (u0 : 0 ≤ u) (hgu : 192 * (g * u) ≤ 1) (hu : 192 * u ≤ 1) (hX : 0 ≤ X)
    (t0 : 0 ≤ t) (hN : 1 ≤ N) (hD : D = u * X + t) (hf : f ≤ 2) (hf0 : 0 ≤ f) (hH : 1600000 * g ^ 4 * N ^ 2 * (X + t) ≤ H) :
    10 * (X + t) ≤ H ∧ 4800 * g ^ 3 * N * (X + 13 * (g * D) + t) ≤ H ∧
    4 * ((N * X + 82 * (g * (N * D))) * (1 + 141 * (g * u)) + t) ≤ H ∧
    4800 * g ^ 3 * N * (N * X + 323 * (g * (N * D)) + t) ≤ H ∧
    4 * ((N * X + 495 * (g * (N ^ 2 * D))) * (1 + 2 * (g * u)) + t) ≤ H ∧
    (N * X + 549 * (g * (N ^ 2 * D))) * f ≤ H := by
  have D0 : 0 ≤ D := by rw [hD]; positivity
  have hDS : D ≤ X + t := by
    rw [hD]
    have : u * X ≤ 1 * X := mul_le_mul_of_nonneg_right (by linarith) hX
    linarith
  obtain ⟨S, hS⟩ : ∃ S, S = X + t := ⟨_, rfl⟩
  rw [← hS] at hH hDS ⊢
  have S0 : 0 ≤ S := by rw [hS]; positivity
  have hXS : X ≤ S := by linarith
  have htS : t ≤ S := by linarith
  have hN2 : N ≤ N ^ 2 := by nlinarith
  have hg4 : g ≤ g ^ 4 := by
    calc g = g ^ 1 := (pow_one g).symm
      _ ≤ g ^ 4 := pow_le_pow_right₀ hg (by norm_num)
  have hg34 : g ^ 3 ≤ g ^ 4 := pow_le_pow_right₀ hg (by norm_num)
  have hg41 : 1 ≤ g ^ 4 := one_le_pow₀ hg
  have hN21 : 1 ≤ N ^ 2 := one_le_pow₀ hN
  obtain ⟨M, hM⟩ : ∃ M, M = g ^ 4 * (N ^ 2 * S) := ⟨_, rfl⟩
  have hH' : 1600000 * M ≤ H := by rw [hM]; linarith
  have M0 : 0 ≤ M := by rw [hM]; positivity
  have c1 : S ≤ N ^ 2 * S := by nlinarith
  have c1' : N * S ≤ N ^ 2 * S := mul_le_mul_of_nonneg_right hN2 S0
  have c2 : N ^ 2 * S ≤ M := by
    rw [hM]
    have : 1 * (N ^ 2 * S) ≤ g ^ 4 * (N ^ 2 * S) := mul_le_mul_of_nonneg_right hg41 (by positivity)
    linarith
  have c3 : g * (N ^ 2 * S) ≤ M := by rw [hM]; exact mul_le_mul_of_nonneg_right hg4 (by positivity)
  have d1 : N * X ≤ N * S := mul_le_mul_of_nonneg_left hXS (by linarith)
  have d2 : g * (N * D) ≤ g * (N ^ 2 * S) := by
    apply mul_le_mul_of_nonneg_left _ (by linarith)
    exact mul_le_mul hN2 hDS D0 (by positivity)
  have d3 : g * (N ^ 2 * D) ≤ g * (N ^ 2 * S) := by
    apply mul_le_mul_of_nonneg_left _ (by linarith)
    exact mul_le_mul_of_nonneg_left hDS (by positivity)
  have d4 : 0 ≤ g * (N * D) := by positivity
  have d5 : 0 ≤ g * (N ^ 2 * D) := by positivity
  have g0 : 0 ≤ g * u := by positivity
  have NX0 : 0 ≤ N * X := by positivity
  refine ⟨by linarith, ?_, ?_, ?_, ?_, ?_⟩
  · have e1 : X + 13 * (g * D) + t ≤ g * (14 * S) := by
      have h1 : g * D ≤ g * S := mul_le_mul_of_nonneg_left hDS (by linarith)
      have h2 : 1 * S ≤ g * S := mul_le_mul_of_nonneg_right hg S0
      linarith
    have e2 : 4800 * g ^ 3 * N * (X + 13 * (g * D) + t) ≤ 4800 * g ^ 3 * N * (g * (14 * S)) :=
      mul_le_mul_of_nonneg_left e1 (by positivity)
    have e3 : 4800 * g ^ 3 * N * (g * (14 * S)) = 67200 * (g ^ 4 * (N * S)) := by ring
    have e4 : g ^ 4 * (N * S) ≤ M := by rw [hM]; exact mul_le_mul_of_nonneg_left c1' (by positivity)
    linarith
  · have e1 : (N * X + 82 * (g * (N * D))) * (1 + 141 * (g * u)) ≤ (N * X + 82 * (g * (N * D))) * 2 :=
      mul_le_mul_of_nonneg_left (by linarith) (by linarith)
    linarith
  · have e1 : N * X + 323 * (g * (N * D)) + t ≤ g * (N * (324 * S)) := by
      have h1 : g * (N * D) ≤ g * (N * S) := by
        apply mul_le_mul_of_nonneg_left _ (by linarith)
        exact mul_le_mul_of_nonneg_left hDS (by linarith)
      have h2 : 1 * (N * S) ≤ g * (N * S) := mul_le_mul_of_nonneg_right hg (by positivity)
      have h3 : N * X + t ≤ N * S := by
        have : 1 * t ≤ N * t := mul_le_mul_of_nonneg_right hN t0
        rw [hS, mul_add]
        linarith
      linarith
    have e2 : 4800 * g ^ 3 * N * (N * X + 323 * (g * (N * D)) + t) ≤ 4800 * g ^ 3 * N * (g * (N * (324 * S))) :=
      mul_le_mul_of_nonneg_left e1 (by positivity)
    have e3 : 4800 * g ^ 3 * N * (g * (N * (324 * S))) = 1555200 * M := by rw [hM]; ring
    linarith
  · have e1 : (N * X + 495 * (g * (N ^ 2 * D))) * (1 + 2 * (g * u)) ≤ (N * X + 495 * (g * (N ^ 2 * D))) * 2 :=
      mul_le_mul_of_nonneg_left (by linarith) (by linarith)
    linarith
  · have e1 : (N * X + 549 * (g * (N ^ 2 * D))) * f ≤ (N * X + 549 * (g * (N ^ 2 * D))) * 2 :=
      mul_le_mul_of_nonneg_left hf (by linarith)
    linarith

theorem blue_near {h X : ℝ} {L : Lits F} {one f : F} {p : PocketF.Blue F} {n : ℕ} (hn : 0 < n) (hp : GoodBlueF A h n p)
    (h1 : 1 ≤ h) (hL : LitsOk A h L) {x : ℕ → Cx F} (hx : ∀ m, m < n → FinC A (x m) ∧ ‖cval A (x m)‖ ≤ X)
    (hff : A.finite f) (hf2 : |A.val f| ≤ 2) (fwd : Bool)
    (hu : 192 * (h * (primeSum p.n2 + 1)) ^ 2 * A.u ≤ 1)
    (hH : 1600000 * (h * (primeSum p.n2 + 1)) ^ 4 * p.n2 ^ 2 * (X + A.tiny) ≤ A.huge) (junk : ℕ → Cx F) :
    ∃ z, p.exec L one (tab n x) f fwd junk = .ok (tab n z) ∧ ∀ k, k < n → FinC A (z k) ∧
      ‖cval A (z k) - A.val f * ∑ m ∈ Finset.range n, cval A (x m) * w fwd n (m * k)‖
        ≤ |A.val f| * (560 * (h * (primeSum p.n2 + 1) * (p.n2 ^ 2 * (A.u * X + A.tiny)))) + 2 * A.tiny := by
  have u0 := A.u_nonneg
  have t0 := A.tiny_nonneg
  obtain ⟨pl, pp, pt, ⟨b, pb, hb⟩, ⟨c, pc, hc⟩⟩ := hp
  obtain ⟨N, hN⟩ : ∃ N, N = p.n2 := ⟨_, rfl⟩
  rw [← hN] at pp pt pc hc hu hH ⊢
  have hN0 : 0 < N := by omega
  have hNr : (1 : ℝ) ≤ N := by exact_mod_cast hN0
  obtain ⟨g, hg⟩ : ∃ g : ℝ, g = h * (primeSum N + 1) := ⟨_, rfl⟩
  have hQ0 : (0 : ℝ) ≤ primeSum N := Nat.cast_nonneg _
  have hhg : h ≤ g := by rw [hg]; nlinarith
  have hg1 : 1 ≤ g := h1.trans hhg
  obtain ⟨hgu, hu1⟩ := gu_small hg1 u0 (by rw [hg]; exact hu)
  have hX : 0 ≤ X := (norm_nonneg _).trans (hx 0 hn).2
  obtain ⟨D, hD⟩ : ∃ D, D = A.u * X + A.tiny := ⟨_, rfl⟩
  have D0 : 0 ≤ D := by rw [hD]; positivity
  rw [← hg] at hc hH ⊢
  obtain ⟨l1, l2, l3, l4, l5, l6⟩ := limits hg1 u0 hgu hu1 hX t0 hNr hD hf2 (abs_nonneg _) hH
  -- the chirped input and its transform
  have s1 := start_close (A := A) hg1 hhg (by linarith) (N := N) hn fwd hb hx hgu hu1 l1 N
  rw [← hD] at s1
  obtain ⟨z1, e1, s2⟩ := fft_close (one := one) hN0 h1 hL pt hu true s1 (by rw [← hg]; exact l2) (fresh junk N) (fresh_length _ _)
  rw [← hg] at s2
  obtain ⟨a, ha⟩ : ∃ a : ℕ → ℂ, a = fun k => ∑ j ∈ Finset.range N, chirped fwd n (fun m => cval A (x m)) j * w true N (j * k) :=
    ⟨_, rfl⟩
  have s2' : Close A N z1 a (82 * (g * (N * D))) (N * X) := by
    intro k hk
    obtain ⟨q1, q2⟩ := s2 k hk
    refine ⟨q1, ?_, ?_⟩
    · rw [ha]; exact q2.trans (fft1_num hg1 u0 hgu hX t0 hNr hD)
    · rw [ha]
      have : ∀ j ∈ Finset.range N, ‖chirped fwd n (fun m => cval A (x m)) j * w true N (j * k)‖ ≤ X := by
        intro j hj
        rw [norm_mul, norm_w, mul_one]
        exact (s1 j (Finset.mem_range.mp hj)).2.2
      refine (norm_sum_le_of_le _ this).trans (by simp)
  -- the product with the transformed chirp
  have s3 : Close A N (mulV fwd N z1 c) (fun k => a k * chirpF fwd n N k) (323 * (g * (N * D))) (N * X) := by
    intro k hk
    obtain ⟨q1, q2, q3⟩ := s2' k hk
    have hk2 : 2 * fold2 N k ≤ N := by unfold fold2; split <;> omega
    have hcc : chirpF true n N (fold2 N k) = chirpF true n N k := by
      unfold fold2
      split
      · rfl
      · exact chirpF_refl pp hN0 hk.le
    obtain ⟨c1, c2⟩ := hc (fold2 N k) hk2
    rw [hcc] at c2
    obtain ⟨r1, r2⟩ := smul_close (!fwd) q1 c1 q2 q3 c2 (chirpF_norm true hN0 k) hu1 l3
    rw [smul_chirpF pp hN0 hk.le] at r2
    refine ⟨r1, r2.trans (mul_num hg1 u0 hgu hX t0 hNr hD), ?_⟩
    rw [norm_mul]
    calc ‖a k‖ * ‖chirpF fwd n N k‖ ≤ ‖a k‖ * 1 := by
          exact mul_le_mul_of_nonneg_left (chirpF_norm fwd hN0 k) (norm_nonneg _)
      _ ≤ _ := by rw [mul_one]; exact q3
  obtain ⟨z2, e2, s4⟩ := fft_close (one := one) hN0 h1 hL pt hu false s3 (by rw [← hg]; exact l4) (fresh junk N) (fresh_length _ _)
  rw [← hg] at s4
  -- the last multiplication
  have hex : ∀ t, t < n → (∑ k ∈ Finset.range N, (a k * chirpF fwd n N k) * w false N (k * t)) * w fwd (2 * n) (t * t)
      = ∑ m ∈ Finset.range n, cval A (x m) * w fwd n (m * t) := by
    intro t ht
    have := bluestein (fwd := fwd) hn pp (fun m => cval A (x m)) ht
    have e : ∀ m, w fwd n (m * t) = rootOfUnity n (sgn fwd * (m * t)) := by
      intro m; rw [w_ru]; push_cast; rfl
    simp only [e]
    rw [← this]
    congr 1
    · apply Finset.sum_congr rfl
      intro k _
      congr 1
      · congr 1
        rw [ha]
        apply Finset.sum_congr rfl
        intro m _
        rw [w_true_ru]
        congr 1
        unfold chirped
        split
        · rw [w_ru]; push_cast; rfl
        · rfl
      · rw [w_ru]; simp [sgn]
    · rw [w_ru]; push_cast; rfl
  have hdft : ∀ t, ‖∑ m ∈ Finset.range n, cval A (x m) * w fwd n (m * t)‖ ≤ N * X := by
    intro t
    have : ∀ j ∈ Finset.range n, ‖cval A (x j) * w fwd n (j * t)‖ ≤ X := by
      intro j hj
      rw [norm_mul, norm_w, mul_one]
      exact (hx j (Finset.mem_range.mp hj)).2
    refine (norm_sum_le_of_le _ this).trans ?_
    simp
    apply mul_le_mul_of_nonneg_right _ hX
    exact_mod_cast (by omega : n ≤ N)
  refine ⟨fun m => (PocketF.smul fwd (z2 m) (b m)).scale f, ?_, ?_⟩
  · unfold PocketF.Blue.exec
    rw [blueStart_tab hn pl (by omega) pb, Out.ok_bind, ← hN, e1, Out.ok_bind, blueMul_tab hN0 hN.symm pc, Out.ok_bind, e2,
      Out.ok_bind, pl, pb]
    refine fills_all (fills_forN (T := fun k i => i = k) ?_) (fun i hi => ⟨i, hi, rfl⟩) (by simp)
    intro t ht
    simp only [ld_tab (show t < N by omega), ld_tab ht, Out.ok_bind]
    exact fills_st ht rfl
  · intro t ht
    obtain ⟨q1, q2⟩ := s4 t (by omega)
    have q2' := q2.trans (fft2_num hg1 u0 hgu hX t0 hNr hD)
    obtain ⟨b1, b2⟩ := hb t ht
    have b2' : ‖cval A (b t) - w false (2 * n) (t * t)‖ ≤ 2 * (g * A.u) := by
      refine b2.trans ?_
      gcongr
    have hS := hex t ht
    obtain ⟨Sx, hSx⟩ : ∃ Sx, Sx = ∑ k ∈ Finset.range N, (a k * chirpF fwd n N k) * w false N (k * t) := ⟨_, rfl⟩
    rw [← hSx] at hS q2'
    have hSn : ‖Sx‖ ≤ N * X := by
      have := hdft t
      rw [← hS, norm_mul, norm_w, mul_one] at this
      exact this
    obtain ⟨r1, r2⟩ := smul_close fwd q1 b1 q2' hSn b2' (norm_w false (2 * n) (t * t)).le hu1 l5
    rw [smul_w, hS] at r2
    have r3 := r2.trans (last_num hg1 u0 hgu hX t0 hNr hD)
    obtain ⟨v1, v2⟩ := scale_err r1 hff (norm_of_close r3 (hdft t)) le_rfl l6
    refine ⟨v1, ?_⟩
    have d1 := norm_sub_le_norm_sub_add_norm_sub (cval A ((PocketF.smul fwd (z2 t) (b t)).scale f))
      ((A.val f : ℂ) * cval A (PocketF.smul fwd (z2 t) (b t)))
      (A.val f * ∑ m ∈ Finset.range n, cval A (x m) * w fwd n (m * t))
    have d2 : ‖(A.val f : ℂ) * cval A (PocketF.smul fwd (z2 t) (b t))
        - A.val f * ∑ m ∈ Finset.range n, cval A (x m) * w fwd n (m * t)‖ ≤ |A.val f| * (549 * (g * (N ^ 2 * D))) := by
      rw [← mul_sub, norm_mul, Complex.norm_real, Real.norm_eq_abs]
      exact mul_le_mul_of_nonneg_left r3 (abs_nonneg _)
    have d3 := scale_num hg1 u0 hgu hX t0 hNr hD (abs_nonneg (A.val f))
    rw [← hD]
    linarith

end Verif.PocketF
