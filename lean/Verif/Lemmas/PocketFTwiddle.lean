import Verif.Lemmas.PocketFExec
import Mathlib.Analysis.Real.Pi.Bounds

/-! # The floating point twiddle table -/

set_option linter.unusedSimpArgs false
set_option linter.unusedSectionVars false
set_option linter.unusedVariables false

namespace Verif.PocketF
open Pocket (w tab ld_tab ld cR cI)

theorem abs_cos_sub_le (a b : ℝ) : |Real.cos a - Real.cos b| ≤ |a - b| := by
  rw [Real.cos_sub_cos, abs_mul, abs_mul]
  have h1 := Real.abs_sin_le_one ((a + b) / 2)
  have h2 : |Real.sin ((a - b) / 2)| ≤ |(a - b) / 2| := Real.abs_sin_le_abs
  have h3 : |(a - b) / 2| = |a - b| / 2 := by rw [abs_div, abs_of_pos (by norm_num : (0 : ℝ) < 2)]
  rw [h3] at h2
  have : |(-2 : ℝ)| = 2 := by norm_num
  rw [this]
  have h4 : 2 * |Real.sin ((a + b) / 2)| * |Real.sin ((a - b) / 2)| ≤ 2 * 1 * (|a - b| / 2) := by gcongr
  linarith

theorem abs_sin_sub_le (a b : ℝ) : |Real.sin a - Real.sin b| ≤ |a - b| := by
  have := abs_cos_sub_le (Real.pi / 2 - a) (Real.pi / 2 - b)
  rw [Real.cos_pi_div_two_sub, Real.cos_pi_div_two_sub] at this
  rwa [show Real.pi / 2 - a - (Real.pi / 2 - b) = -(a - b) by ring, abs_neg] at this

variable {F : Type} [Zero F] [Add F] [Sub F] [Mul F] [Fma F] [Neg F]
variable {G : Type} [Zero G] [Add G] [Sub G] [Mul G] [Fma G] [Neg G]
variable {A : FloatArithNeg F} {B : FloatArithNeg G} {T : TwOps G F} {hl : ℝ} {n : ℕ}

theorem acc_neg {h e : ℝ} {c : F} (hc : A.Accurate h c e) : A.Accurate h (-c) (-e) := by
  obtain ⟨f, e'⟩ := A.neg c hc.1
  refine ⟨f, ?_⟩
  rw [e', ← neg_sub_neg, neg_neg, neg_neg, abs_sub_comm]
  exact hc.2

theorem HighOk.u600 (K : HighOk B hl) : 600 * B.u ≤ 1 := by
  have := K.hl1
  have := B.u_nonneg
  have : 6 * B.u ≤ (hl + 5) * B.u := by gcongr; linarith
  linarith [K.u]

theorem angle_near (K : HighOk B hl) (H : TwOpsOk B A T hl n) (hn : 0 < n) {y : ℕ} (hy : y ≤ n) :
    B.finite (T.ofSize y * T.ang n) ∧ |B.val (T.ofSize y * T.ang n) - y * (0.25 * Real.pi / n)| ≤ 5 * B.u ∧
      |B.val (T.ofSize y * T.ang n)| ≤ 1 := by
  obtain ⟨f1, e1⟩ := H.ofSize y hy
  obtain ⟨f2, e2⟩ := H.ang
  have hn' : (0 : ℝ) < n := by exact_mod_cast hn
  have hy' : (y : ℝ) ≤ n := by exact_mod_cast hy
  have y0 : (0 : ℝ) ≤ y := Nat.cast_nonneg _
  have u0 := B.u_nonneg
  have u6 := K.u600
  have t0 := B.tiny_nonneg
  have ht := K.tiny
  obtain ⟨s, hs⟩ : ∃ s, s = B.val (T.ofSize y) := ⟨_, rfl⟩
  obtain ⟨g, hg⟩ : ∃ g, g = B.val (T.ang n) := ⟨_, rfl⟩
  obtain ⟨g0, hg0⟩ : ∃ g0, g0 = Real.pi / (4 * n) := ⟨_, rfl⟩
  have hg00 : 0.25 * Real.pi / n = g0 := by rw [hg0]; field_simp; norm_num
  rw [← hs] at e1
  rw [← hg, ← hg0] at e2
  rw [hg00]
  have g0p : 0 ≤ g0 := by rw [hg0]; have := Real.pi_pos; positivity
  have hyg : y * g0 ≤ 0.7854 := by
    have h1 : (n : ℝ) * g0 = Real.pi / 4 := by rw [hg0]; field_simp
    have h2 : (y : ℝ) * g0 ≤ n * g0 := by gcongr
    have := Real.pi_lt_d4
    linarith
  have yg0 : 0 ≤ (y : ℝ) * g0 := by positivity
  have ga : |g| ≤ (1 + 2 * B.u) * g0 := by
    have : |g| ≤ |g - g0| + |g0| := by
      calc |g| = |(g - g0) + g0| := by ring_nf
        _ ≤ _ := abs_add_le _ _
    rw [abs_of_nonneg g0p] at this
    linarith
  have p1 : |s * g - y * g0| ≤ (3 * B.u + 2 * B.u ^ 2) * (y * g0) := by
    calc |s * g - y * g0| = |(s - y) * g + y * (g - g0)| := by ring_nf
      _ ≤ |(s - y) * g| + |y * (g - g0)| := abs_add_le _ _
      _ = |s - y| * |g| + y * |g - g0| := by rw [abs_mul, abs_mul, abs_of_nonneg y0]
      _ ≤ B.u * y * ((1 + 2 * B.u) * g0) + y * (2 * B.u * g0) := by gcongr
      _ = _ := by ring
  have p2 : (3 * B.u + 2 * B.u ^ 2) * (y * g0) ≤ 2.5 * B.u := by
    have : 2 * B.u ^ 2 ≤ 1 / 100 * B.u := by nlinarith
    have : (3 * B.u + 2 * B.u ^ 2) * (y * g0) ≤ (3.01 * B.u) * 0.7854 := by
      have : 3 * B.u + 2 * B.u ^ 2 ≤ 3.01 * B.u := by linarith
      gcongr
    linarith
  have p3 : |s * g| ≤ 0.8 := by
    have : |s * g| ≤ |s * g - y * g0| + |y * g0| := by
      calc |s * g| = |(s * g - y * g0) + y * g0| := by ring_nf
        _ ≤ _ := abs_add_le _ _
    rw [abs_of_nonneg yg0] at this
    linarith
  obtain ⟨f3, e3⟩ := B.mul _ _ f1 f2 (by rw [← hs, ← hg]; linarith [K.huge])
  rw [← hs, ← hg] at e3
  obtain ⟨v, hv⟩ : ∃ v, v = B.val (T.ofSize y * T.ang n) := ⟨_, rfl⟩
  rw [← hv] at e3 ⊢
  have p4 : |v - y * g0| ≤ 5 * B.u := by
    have : |v - y * g0| ≤ |v - s * g| + |s * g - y * g0| := by
      calc |v - y * g0| = |(v - s * g) + (s * g - y * g0)| := by ring_nf
        _ ≤ _ := abs_add_le _ _
    have : B.u * |s * g| ≤ B.u * 0.8 := by gcongr
    linarith
  refine ⟨f3, p4, ?_⟩
  have : |v| ≤ |v - y * g0| + |y * g0| := by
    calc |v| = |(v - y * g0) + y * g0| := by ring_nf
      _ ≤ _ := abs_add_le _ _
  rw [abs_of_nonneg yg0] at this
  linarith

theorem cos_near (K : HighOk B hl) (H : TwOpsOk B A T hl n) (hn : 0 < n) {y : ℕ} (hy : y ≤ n) :
    B.Accurate (hl + 5) (T.cos (T.ofSize y * T.ang n)) (Real.cos (y * (0.25 * Real.pi / n))) := by
  obtain ⟨f, e1, e2⟩ := angle_near K H hn hy
  obtain ⟨f', e3⟩ := H.cos _ f e2
  refine ⟨f', ?_⟩
  have h1 := abs_cos_sub_le (B.val (T.ofSize y * T.ang n)) (y * (0.25 * Real.pi / n))
  have h2 := abs_sub_le (B.val (T.cos (T.ofSize y * T.ang n))) (Real.cos (B.val (T.ofSize y * T.ang n)))
    (Real.cos (y * (0.25 * Real.pi / n)))
  linarith

theorem sin_near (K : HighOk B hl) (H : TwOpsOk B A T hl n) (hn : 0 < n) {y : ℕ} (hy : y ≤ n) :
    B.Accurate (hl + 5) (T.sin (T.ofSize y * T.ang n)) (Real.sin (y * (0.25 * Real.pi / n))) := by
  obtain ⟨f, e1, e2⟩ := angle_near K H hn hy
  obtain ⟨f', e3⟩ := H.sin _ f e2
  refine ⟨f', ?_⟩
  have h1 := abs_sin_sub_le (B.val (T.ofSize y * T.ang n)) (y * (0.25 * Real.pi / n))
  have h2 := abs_sub_le (B.val (T.sin (T.ofSize y * T.ang n))) (Real.sin (B.val (T.ofSize y * T.ang n)))
    (Real.sin (y * (0.25 * Real.pi / n)))
  linarith

/-- both components within `h` rounding errors -/
def AccC (B : FloatArithNeg G) (h : ℝ) (c : Cx G) (z : ℂ) : Prop := B.Accurate h c.re z.re ∧ B.Accurate h c.im z.im

theorem octant_near (K : HighOk B hl) (H : TwOpsOk B A T hl n) (hn : 0 < n) {x : ℕ} (hx : x ≤ n) :
    AccC B (hl + 5) (octant T x n) (w false n x) := by
  rw [← Pocket.octant_ok hn hx]
  have C := fun {y : ℕ} (hy : y ≤ n) => cos_near K H hn hy
  have S := fun {y : ℕ} (hy : y ≤ n) => sin_near K H hn hy
  unfold octant Pocket.octant
  simp only []
  split_ifs <;> refine ⟨?_, ?_⟩ <;> first
    | exact C (by omega)
    | exact S (by omega)
    | exact acc_neg (C (by omega))
    | exact acc_neg (S (by omega))

/-- a sum or difference of two products -/
theorem prod_near (K : HighOk B hl) {p q r s c : G} {p' q' r' s' v : ℝ}
    (hp : B.Accurate (hl + 5) p p') (hq : B.Accurate (hl + 5) q q') (hr : B.Accurate (hl + 5) r r')
    (hs : B.Accurate (hl + 5) s s') (p1 : |p'| ≤ 1) (q1 : |q'| ≤ 1) (r1 : |r'| ≤ 1) (s1 : |s'| ≤ 1)
    (hc : (c = p * q - r * s ∧ v = p' * q' - r' * s') ∨ (c = p * q + r * s ∧ v = p' * q' + r' * s')) :
    B.Accurate (6 * (hl + 5)) c v := by
  have u0 := B.u_nonneg
  have u6 := K.u600
  have t0 := B.tiny_nonneg
  have ht := K.tiny
  have hH := K.huge
  obtain ⟨e, he⟩ : ∃ e, e = (hl + 5) * B.u := ⟨_, rfl⟩
  have e100 : 100 * e ≤ 1 := by have := K.u; rw [he]; linarith
  have ue : 6 * B.u ≤ e := by rw [he]; have := K.hl1; gcongr; linarith
  have e0 : 0 ≤ e := by linarith
  have mul1 : ∀ {a b : G} {a' b' : ℝ}, B.Accurate (hl + 5) a a' → B.Accurate (hl + 5) b b' → |a'| ≤ 1 → |b'| ≤ 1 →
      B.finite (a * b) ∧ |B.val (a * b) - a' * b'| ≤ 2.35 * e ∧ |a' * b'| ≤ 1 := by
    intro a b a' b' ha hb a1 b1
    have ha2 := ha.2
    have hb2 := hb.2
    rw [← he] at ha2 hb2
    have va : |B.val a| ≤ 1 + e := by
      have : |B.val a| ≤ |B.val a - a'| + |a'| := by
        calc |B.val a| = |(B.val a - a') + a'| := by ring_nf
          _ ≤ _ := abs_add_le _ _
      linarith
    have vb : |B.val b| ≤ 1 + e := by
      have : |B.val b| ≤ |B.val b - b'| + |b'| := by
        calc |B.val b| = |(B.val b - b') + b'| := by ring_nf
          _ ≤ _ := abs_add_le _ _
      linarith
    have vab : |B.val a * B.val b| ≤ 1.03 := by
      rw [abs_mul]
      calc |B.val a| * |B.val b| ≤ (1 + e) * (1 + e) := by gcongr
        _ ≤ 1.03 := by nlinarith
    obtain ⟨f, er⟩ := B.mul a b ha.1 hb.1 (by linarith)
    refine ⟨f, ?_, by rw [abs_mul]; exact mul_le_one₀ a1 (abs_nonneg _) b1⟩
    have d : |B.val a * B.val b - a' * b'| ≤ e * (1 + e) + 1 * e := by
      calc |B.val a * B.val b - a' * b'| = |(B.val a - a') * B.val b + a' * (B.val b - b')| := by ring_nf
        _ ≤ |(B.val a - a') * B.val b| + |a' * (B.val b - b')| := abs_add_le _ _
        _ = |B.val a - a'| * |B.val b| + |a'| * |B.val b - b'| := by rw [abs_mul, abs_mul]
        _ ≤ _ := by gcongr
    have d2 := abs_sub_le (B.val (a * b)) (B.val a * B.val b) (a' * b')
    have d3 : B.u * |B.val a * B.val b| ≤ B.u * 1.03 := by gcongr
    have d4 : e * e ≤ e / 100 := by nlinarith
    have d5 : e * (1 + e) = e + e * e := by ring
    have d6 : |B.val (a * b) - a' * b'| ≤ (B.u * 1.03 + B.u) + (e + e * e + e) := by
      rw [d5] at d
      linarith
    linarith
  obtain ⟨f1, a1, m1⟩ := mul1 hp hq p1 q1
  obtain ⟨f2, a2, m2⟩ := mul1 hr hs r1 s1
  have v1 : |B.val (p * q)| ≤ 1.03 := by
    have : |B.val (p * q)| ≤ |B.val (p * q) - p' * q'| + |p' * q'| := by
      calc |B.val (p * q)| = |(B.val (p * q) - p' * q') + p' * q'| := by ring_nf
        _ ≤ _ := abs_add_le _ _
    linarith
  have v2 : |B.val (r * s)| ≤ 1.03 := by
    have : |B.val (r * s)| ≤ |B.val (r * s) - r' * s'| + |r' * s'| := by
      calc |B.val (r * s)| = |(B.val (r * s) - r' * s') + r' * s'| := by ring_nf
        _ ≤ _ := abs_add_le _ _
    linarith
  have fin : ∀ {m : ℝ}, |m| ≤ 2.06 → |m - v| ≤ 4.7 * e → (|m| ≤ B.huge → B.finite c ∧ |B.val c - m| ≤ B.u * |m|) →
      B.Accurate (6 * (hl + 5)) c v := by
    intro m h1 h2 h3
    obtain ⟨g1, g2⟩ := h3 (by linarith)
    refine ⟨g1, ?_⟩
    have h4 := abs_sub_le (B.val c) m v
    have h5 : B.u * |m| ≤ B.u * 2.06 := by gcongr
    have h6 : 6 * (hl + 5) * B.u = 6 * e := by rw [he]; ring
    rw [h6]
    linarith
  rcases hc with ⟨rfl, rfl⟩ | ⟨rfl, rfl⟩
  · refine fin (m := B.val (p * q) - B.val (r * s)) ?_ ?_ (B.sub _ _ f1 f2)
    · exact (abs_sub _ _).trans (by linarith)
    · calc _ = |(B.val (p * q) - p' * q') - (B.val (r * s) - r' * s')| := by ring_nf
        _ ≤ |B.val (p * q) - p' * q'| + |B.val (r * s) - r' * s'| := abs_sub _ _
        _ ≤ _ := by linarith
  · refine fin (m := B.val (p * q) + B.val (r * s)) ?_ ?_ (B.add _ _ f1 f2)
    · exact (abs_add_le _ _).trans (by linarith)
    · calc _ = |(B.val (p * q) - p' * q') + (B.val (r * s) - r' * s')| := by ring_nf
        _ ≤ |B.val (p * q) - p' * q'| + |B.val (r * s) - r' * s'| := abs_add_le _ _
        _ ≤ _ := by linarith

theorem down_near (K : HighOk B hl) (H : TwOpsOk B A T hl n) {h v : ℝ} {c : G}
    (hh : 2 * A.u + A.tiny + 6 * (hl + 5) * B.u ≤ h * A.u) (hc : B.Accurate (6 * (hl + 5)) c v) (hv : |v| ≤ 1) :
    A.Accurate h (T.down c) v := by
  have u0 := A.u_nonneg
  have e6 : 6 * (hl + 5) * B.u ≤ 1 := by
    have g1 := K.u
    have g2 := mul_nonneg (by linarith [K.hl1] : 0 ≤ hl + 5) B.u_nonneg
    linarith
  have vc : |B.val c| ≤ 2 := by
    have : |B.val c| ≤ |B.val c - v| + |v| := by
      calc |B.val c| = |(B.val c - v) + v| := by ring_nf
        _ ≤ _ := abs_add_le _ _
    linarith [hc.2]
  obtain ⟨f, e⟩ := H.down c hc.1 vc
  refine ⟨f, ?_⟩
  have h2 := abs_sub_le (A.val (T.down c)) (B.val c) v
  have h3 : A.u * |B.val c| ≤ A.u * 2 := by gcongr
  linarith [hc.2]

theorem w_re_le (fwd : Bool) (n m : ℕ) : |(w fwd n m).re| ≤ 1 := by
  have := Complex.abs_re_le_norm (w fwd n m)
  rwa [norm_w] at this

theorem w_im_le (fwd : Bool) (n m : ℕ) : |(w fwd n m).im| ≤ 1 := by
  have := Complex.abs_im_le_norm (w fwd n m)
  rwa [norm_w] at this

theorem sincos_near (K : HighOk B hl) (H : TwOpsOk B A T hl n) (hn : 0 < n) {h : ℝ}
    (hh : 2 * A.u + A.tiny + 6 * (hl + 5) * B.u ≤ h * A.u) :
    ∃ (t : SinCos G) (tw : ℕ → Cx F), sincos T n = .ok t ∧ ∀ idx, idx ≤ n → t.get T idx = .ok (tw idx) ∧
      A.Accurate h (tw idx).re (w false n idx).re ∧ A.Accurate h (tw idx).im (w false n idx).im := by
  obtain ⟨s, e1, ⟨hs1, hs2⟩, hs3⟩ := whileN_measure
    (cond := fun s : ℕ => decide (2 ^ s * 2 ^ s < (n + 2) / 2)) (body := fun s => .ok (s + 1))
    (fun s => 1 ≤ s ∧ (2 ≤ s → 2 ^ (s - 1) * 2 ^ (s - 1) < (n + 2) / 2)) (fun s => (n + 2) / 2 + 1 - s) (by
      intro s ⟨h1, h2⟩ hc
      simp only [decide_eq_true_eq] at hc
      refine ⟨_, rfl, ⟨by omega, fun _ => by simpa using hc⟩, ?_⟩
      have : s < 2 ^ s := Nat.lt_two_pow_self
      have h3 : 2 ^ s * 1 ≤ 2 ^ s * 2 ^ s := Nat.mul_le_mul_left _ (by omega)
      omega) ((n + 2) / 2 + 1) 1 (by omega) ⟨le_rfl, by omega⟩
  simp only [decide_eq_false_iff_not, not_lt] at hs3
  obtain ⟨m, hm⟩ : ∃ m, m = 2 ^ s := ⟨_, rfl⟩
  have hm2 : 2 ≤ m := by
    rw [hm]; calc 2 = 2 ^ 1 := rfl
      _ ≤ 2 ^ s := Nat.pow_le_pow_right (by omega) hs1
  have hmn : m - 1 ≤ n := by
    by_cases h2 : 2 ≤ s
    · have h3 := hs2 h2
      have h4 : m = 2 * 2 ^ (s - 1) := by
        rw [hm, ← pow_succ']; congr 1; omega
      have h5 : 2 ^ (s - 1) * 1 ≤ 2 ^ (s - 1) * 2 ^ (s - 1) := Nat.mul_le_mul_left _ Nat.one_le_two_pow
      omega
    · have : s = 1 := by omega
      rw [hm, this]; omega
  have hB1 : AccC B (hl + 5) (⟨T.one, 0⟩ : Cx G) (w false n 0) := by
    rw [Pocket.w_zero]
    have h0 : 0 ≤ (hl + 5) * B.u := mul_nonneg (by linarith [K.hl1]) B.u_nonneg
    refine ⟨⟨H.one.1, ?_⟩, ⟨B.zero_finite, ?_⟩⟩
    · simp only [Complex.one_re, H.one.2, sub_self, abs_zero]; exact h0
    · simp only [Complex.one_im, B.val_zero, sub_self, abs_zero]; exact h0
  obtain ⟨f1, hf1⟩ : ∃ f1 : ℕ → Cx G, f1 = fun i => if i = 0 then (⟨T.one, 0⟩ : Cx G) else octant T i n := ⟨_, rfl⟩
  obtain ⟨f2, hf2⟩ : ∃ f2 : ℕ → Cx G, f2 = fun i => if i = 0 then (⟨T.one, 0⟩ : Cx G) else octant T (i * m) n := ⟨_, rfl⟩
  have a1 : ∀ i, i < m → AccC B (hl + 5) (f1 i) (w false n i) := by
    intro i hi
    rw [hf1]
    simp only []
    split
    · rename_i h0; rw [h0]; exact hB1
    · exact octant_near K H hn (by omega)
  have a2 : ∀ i, i < ((n + 2) / 2 + (m - 1)) / m → AccC B (hl + 5) (f2 i) (w false n (i * m)) := by
    intro i hi
    rw [hf2]
    simp only []
    split
    · rename_i h0; rw [h0, Nat.zero_mul]; exact hB1
    · apply octant_near K H hn
      have := (Nat.lt_div_iff_mul_lt (by omega)).mp hi
      have : m - 1 < m := by omega
      omega
  have key : ∀ j, 2 * j ≤ n → ∃ x1 x2 : Cx G,
      ld (tab m f1) (j % m) = .ok x1 ∧ ld (tab (((n + 2) / 2 + (m - 1)) / m) f2) (j / m) = .ok x2 ∧
      A.Accurate h (T.down (x1.re * x2.re - x1.im * x2.im)) (w false n j).re ∧
      A.Accurate h (T.down (x1.re * x2.im + x1.im * x2.re)) (w false n j).im := by
    intro j hj
    have b1 : j % m < m := Nat.mod_lt _ (by omega)
    have b2 : j / m < ((n + 2) / 2 + (m - 1)) / m := by
      have h1 : (j + m) / m = j / m + 1 := Nat.add_div_right _ (by omega)
      have h2 : (j + m) / m ≤ ((n + 2) / 2 + (m - 1)) / m := Nat.div_le_div_right (by omega)
      omega
    refine ⟨f1 (j % m), f2 (j / m), ld_tab b1, ld_tab b2, ?_⟩
    obtain ⟨c1, c2⟩ := a1 _ b1
    obtain ⟨d1, d2⟩ := a2 _ b2
    have k3 : w false n j = w false n (j % m) * w false n (j / m * m) := by
      rw [← Pocket.w_add]; congr 1
      exact (Nat.mod_add_div' j m).symm
    have er : (w false n j).re = (w false n (j % m)).re * (w false n (j / m * m)).re
        - (w false n (j % m)).im * (w false n (j / m * m)).im := by rw [k3, Complex.mul_re]
    have ei : (w false n j).im = (w false n (j % m)).re * (w false n (j / m * m)).im
        + (w false n (j % m)).im * (w false n (j / m * m)).re := by rw [k3, Complex.mul_im]
    refine ⟨down_near K H hh ?_ (w_re_le _ _ _), down_near K H hh ?_ (w_im_le _ _ _)⟩
    · exact prod_near K c1 d1 c2 d2 (w_re_le _ _ _) (w_re_le _ _ _) (w_im_le _ _ _) (w_im_le _ _ _) (Or.inl ⟨rfl, er⟩)
    · exact prod_near K c1 d2 c2 d1 (w_re_le _ _ _) (w_im_le _ _ _) (w_im_le _ _ _) (w_re_le _ _ _) (Or.inr ⟨rfl, ei⟩)
  have all : ∀ idx, ∃ v : Cx F, idx ≤ n →
      SinCos.get T ⟨n, s, tab m f1, tab (((n + 2) / 2 + (m - 1)) / m) f2⟩ idx = .ok v ∧
      A.Accurate h v.re (w false n idx).re ∧ A.Accurate h v.im (w false n idx).im := by
    intro idx
    by_cases hidx : idx ≤ n
    · unfold SinCos.get
      simp only [← hm]
      split
      · rename_i h
        obtain ⟨x1, x2, k1, k2, k3, k4⟩ := key idx h
        rw [k1, Out.ok_bind, k2, Out.ok_bind]
        exact ⟨_, fun _ => ⟨rfl, k3, k4⟩⟩
      · rename_i h
        obtain ⟨x1, x2, k1, k2, k3, k4⟩ := key (n - idx) (by omega)
        rw [k1, Out.ok_bind, k2, Out.ok_bind]
        have k5 : w false n idx = (starRingEnd ℂ) (w false n (n - idx)) := by
          have h1 : Pocket.w true n (n - idx) = w false n idx := by
            have g1 := Pocket.w_norm false n (n - idx)
            have g2 : w false n (n - idx) * w false n idx = 1 := by
              rw [← Pocket.w_add, show n - idx + idx = n * 1 by omega, Pocket.w_mul_self]
            have g3 : w false n (n - idx) ≠ 0 := by
              intro h; rw [h, zero_mul] at g2; exact zero_ne_one g2
            exact mul_left_cancel₀ g3 (g1.trans g2.symm)
          rw [← h1, Pocket.w_true]
        refine ⟨_, fun _ => ⟨rfl, ?_, ?_⟩⟩
        · rw [k5]; simpa using k3
        · rw [k5]; simpa using acc_neg k4
    · exact ⟨⟨0, 0⟩, fun h => absurd h hidx⟩
  choose tw htw using all
  refine ⟨⟨n, s, tab m f1, tab (((n + 2) / 2 + (m - 1)) / m) f2⟩, tw, ?_, htw⟩
  unfold sincos
  simp only [e1, Out.ok_bind, ← hm, Nat.sub_add_cancel (show 1 ≤ m by omega), Out.pure_def]
  rw [hf1, hf2]
  rfl

end Verif.PocketF
