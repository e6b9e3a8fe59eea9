import Verif.Lemmas.NearFloat

/-! # Rounding errors of the multiplication of a polynomial by a factor -/

set_option linter.unusedVariables false

namespace Verif
namespace ExpandF

variable {F : Type} [Zero F] [Add F] [Sub F] [Mul F] [Fma F] [Neg F]

/-- A coefficient of the product with `X - r`. -/
theorem step1 (A : FloatArithNeg F) {p0 p1 r : F} {x0 x1 m0 m1 G τ B : ℝ} (h0 : Near A.toFloatArith p0 x0 m0 G τ)
    (h1 : Near A.toFloatArith p1 x1 m1 G τ) (hr : A.finite r) (hG : 1 ≤ G) (hτ : 0 ≤ τ) (hB : 1 ≤ B) (b0 : m0 ≤ B) (b1 : m1 ≤ B)
    (hτB : τ ≤ B / 2) (hu : 100 * A.u ≤ 1) (ht : 100 * A.tiny ≤ 1) (hg : (1 + A.u) ^ 2 * G ≤ 11 / 10)
    (hh : 4 * (B * (1 + |A.val r|)) ≤ A.huge) :
    Near A.toFloatArith (p0 + p1 * (-r)) (x0 + x1 * (-A.val r)) (m0 + m1 * |A.val r|) ((1 + A.u) ^ 2 * G)
      ((1 + A.u) ^ 2 * (τ * (1 + |A.val r|) + A.tiny)) := by
  have u0 := A.u_nonneg
  have t0 := A.tiny_nonneg
  have q0 := abs_nonneg (A.val r)
  have M0 := h0.mag_nonneg
  have M1 := h1.mag_nonneg
  obtain ⟨q, hq⟩ : ∃ q, q = |A.val r| := ⟨_, rfl⟩
  rw [← hq] at hh q0 ⊢
  have hG1 : (1 + A.u) * G ≤ 11 / 10 := by
    have : (1 + A.u) * G ≤ (1 + A.u) ^ 2 * G := by nlinarith [mul_nonneg u0 (show 0 ≤ (1 + A.u) * G by positivity)]
    linarith
  have hG2 : G ≤ 11 / 10 := by nlinarith
  obtain ⟨nf, nv⟩ := A.neg r hr
  have k : Near A.toFloatArith (-r) (-A.val r) q 1 0 := Near.exact nf nv (by rw [abs_neg, hq]) le_rfl le_rfl
  have Bq : 0 ≤ B * q := by positivity
  have gm : ∀ {m c : ℝ}, 0 ≤ m → m ≤ B → c ≤ 11 / 10 → c * m ≤ 11 / 10 * B := by
    intro m c hm hmB hc
    have := mul_le_mul_of_nonneg_right hc hm
    linarith
  have e1 := gm M1 b1 hG2
  have w := h1.mul k hG hτ (by
    rw [one_mul, add_zero]
    have : (G * m1 + τ) * q ≤ (11 / 10 * B + B / 2) * q := mul_le_mul_of_nonneg_right (by linarith) q0
    linarith)
  have tq : τ * q ≤ B / 2 * q := mul_le_mul_of_nonneg_right hτB q0
  have utq : A.u * (τ * q) ≤ 1 / 100 * (τ * q) := mul_le_mul_of_nonneg_right (by linarith) (by positivity)
  simp only [mul_one, one_mul, add_zero, mul_zero] at w
  have h0' := h0.mono (H := (1 + A.u) * G) (σ := τ) (by nlinarith) le_rfl
  have a1 := gm M0 b0 hG1
  have a2 : (1 + A.u) * G * (m1 * q) ≤ 11 / 10 * (B * q) := by
    have := mul_le_mul_of_nonneg_right (gm M1 b1 hG1) q0
    linarith
  have s := h0'.add w (by linarith)
  refine s.mono (by rw [pow_two, mul_assoc]) ?_
  have c1 : A.u * τ ≥ 0 := by positivity
  have c2 : A.u * A.tiny ≥ 0 := by positivity
  have c3 : A.u * A.u * τ ≥ 0 := by positivity
  have c4 : A.u * A.u * A.tiny ≥ 0 := by positivity
  linarith

set_option maxHeartbeats 1000000 in
/-- A coefficient of the product with `X² - 2 a X + (a² + b²)`. -/
theorem step2 (A : FloatArithNeg F) {p0 p1 p2 two a b : F} {x0 x1 x2 m0 m1 m2 G τ B q : ℝ} (h0 : Near A.toFloatArith p0 x0 m0 G τ)
    (h1 : Near A.toFloatArith p1 x1 m1 G τ) (h2 : Near A.toFloatArith p2 x2 m2 G τ) (h2f : A.finite two) (h2v : A.val two = -2)
    (ha : A.finite a) (hb : A.finite b) (hG : 1 ≤ G) (hτ : 0 ≤ τ) (hB : 1 ≤ B) (b0 : m0 ≤ B) (b1 : m1 ≤ B) (b2 : m2 ≤ B)
    (hτB : τ ≤ B / 2) (hu : 100 * A.u ≤ 1) (ht : 100 * A.tiny ≤ 1) (hg : (1 + A.u) ^ 4 * G ≤ 11 / 10)
    (hq : q = 1 + 2 * |A.val a| + (A.val a * A.val a + A.val b * A.val b)) (hh : 4 * (B * q) ≤ A.huge) :
    Near A.toFloatArith (p0 + p1 * (two * a) + p2 * (a * a + b * b))
      (x0 + x1 * (-2 * A.val a) + x2 * (A.val a * A.val a + A.val b * A.val b))
      (m0 + m1 * (2 * |A.val a|) + m2 * (A.val a * A.val a + A.val b * A.val b)) ((1 + A.u) ^ 4 * G)
      ((1 + A.u) ^ 4 * (τ * q + 9 * A.tiny * (G * B))) := by
  have u0 := A.u_nonneg
  have t0 := A.tiny_nonneg
  have M0 := h0.mag_nonneg
  have M1 := h1.mag_nonneg
  have M2 := h2.mag_nonneg
  obtain ⟨κ, hκ⟩ : ∃ κ, κ = 2 * |A.val a| := ⟨_, rfl⟩
  obtain ⟨σ, hσ⟩ : ∃ σ, σ = A.val a * A.val a := ⟨_, rfl⟩
  obtain ⟨ρ, hρ⟩ : ∃ ρ, ρ = A.val b * A.val b := ⟨_, rfl⟩
  have κ0 : 0 ≤ κ := by rw [hκ]; positivity
  have σ0 : 0 ≤ σ := by rw [hσ]; exact mul_self_nonneg _
  have ρ0 : 0 ≤ ρ := by rw [hρ]; exact mul_self_nonneg _
  rw [← hκ, ← hσ, ← hρ] at hq ⊢
  obtain ⟨g, hgd⟩ : ∃ g, g = 1 + A.u := ⟨_, rfl⟩
  have g1 : 1 ≤ g := by linarith
  have gs : g ≤ 101 / 100 := by linarith
  rw [← hgd] at hg ⊢
  have q1 : 1 ≤ q := by linarith
  have qB : q ≤ B * q := le_mul_of_one_le_left (by linarith) hB
  have BqB : B ≤ B * q := le_mul_of_one_le_right (by linarith) q1
  -- the coefficients
  have na : Near A.toFloatArith a (A.val a) |A.val a| 1 0 := Near.exact ha rfl le_rfl le_rfl le_rfl
  have nb : Near A.toFloatArith b (A.val b) |A.val b| 1 0 := Near.exact hb rfl le_rfl le_rfl le_rfl
  have n2 : Near A.toFloatArith two (-2) 2 1 0 := Near.exact h2f h2v (by norm_num) le_rfl le_rfl
  have c1 := n2.mul na le_rfl le_rfl (by simp only [one_mul, add_zero]; linarith)
  have ca := na.mul na le_rfl le_rfl (by simp only [one_mul, add_zero, abs_mul_abs_self]; linarith)
  have cb := nb.mul nb le_rfl le_rfl (by simp only [one_mul, add_zero, abs_mul_abs_self]; linarith)
  simp only [one_mul, mul_one, add_zero, mul_zero, zero_mul, zero_add, abs_mul_abs_self, ← hgd, ← hκ, ← hσ, ← hρ] at c1 ca cb
  have c0 := ca.add cb (by
    have : g * (σ + ρ) ≤ 101 / 100 * (σ + ρ) := mul_le_mul_of_nonneg_right gs (by positivity)
    linarith)
  rw [← hgd] at c0
  -- bounds of powers of g
  have p1 : g ≤ g ^ 2 := by nlinarith
  have p2 : g ^ 2 ≤ g ^ 3 := by nlinarith [sq_nonneg g]
  have p3 : g ^ 3 ≤ g ^ 4 := by nlinarith [pow_nonneg (show (0:ℝ) ≤ g by linarith) 3]
  have gG : ∀ k : ℕ, k ≤ 4 → g ^ k * G ≤ 11 / 10 := by
    intro k hk
    exact (mul_le_mul_of_nonneg_right (pow_le_pow_right₀ g1 hk) (by linarith)).trans hg
  have G11 : G ≤ 11 / 10 := by simpa using gG 0 (by norm_num)
  have gm : ∀ {m c : ℝ}, 0 ≤ m → m ≤ B → c ≤ 11 / 10 → c * m ≤ 11 / 10 * B := by
    intro m c hm hmB hc
    have := mul_le_mul_of_nonneg_right hc hm
    linarith
  have tB : A.tiny ≤ 1 / 100 * B := by linarith
  -- p1 * c1
  have Bk : 0 ≤ B * κ := by positivity
  have Bs : 0 ≤ B * (σ + ρ) := by positivity
  have gk : g * κ ≤ 101 / 100 * κ := mul_le_mul_of_nonneg_right gs κ0
  have ggs : g * g ≤ 103 / 100 := by nlinarith
  have gsr : g * g * (σ + ρ) ≤ 103 / 100 * (σ + ρ) := mul_le_mul_of_nonneg_right ggs (by positivity)
  have gt : g * (A.tiny + A.tiny) ≤ 1 / 40 := by
    have : g * (A.tiny + A.tiny) ≤ 101 / 100 * (A.tiny + A.tiny) := mul_le_mul_of_nonneg_right gs (by positivity)
    linarith
  have gt0 : 0 ≤ g * (A.tiny + A.tiny) := by positivity
  have B16 : ∀ {m : ℝ}, 0 ≤ m → m ≤ B → 0 ≤ G * m + τ ∧ G * m + τ ≤ 8 / 5 * B := by
    intro m hm hmB
    refine ⟨by positivity, ?_⟩
    have := gm hm hmB G11
    linarith
  have Bt : B * q = B + B * κ + B * (σ + ρ) := by rw [hq]; ring
  have w1 := h1.mul c1 hG hτ (by
    obtain ⟨i1, i2⟩ := B16 M1 b1
    have : (G * m1 + τ) * (g * κ + A.tiny) ≤ 8 / 5 * B * (101 / 100 * κ + 1 / 100) :=
      mul_le_mul i2 (by linarith) (by positivity) (by positivity)
    linarith)
  have w2 := h2.mul c0 hG hτ (by
    obtain ⟨i1, i2⟩ := B16 M2 b2
    have : (G * m2 + τ) * (g * g * (σ + ρ) + g * (A.tiny + A.tiny)) ≤ 8 / 5 * B * (103 / 100 * (σ + ρ) + 1 / 40) :=
      mul_le_mul i2 (by linarith) (by positivity) (by positivity)
    linarith)
  rw [← hgd] at w1 w2
  -- absolute parts
  obtain ⟨T1, hT1⟩ : ∃ T1, T1 = g * (τ * (g * κ + A.tiny) + G * m1 * A.tiny) + A.tiny := ⟨_, rfl⟩
  obtain ⟨T2, hT2⟩ : ∃ T2, T2 = g * (τ * (g * g * (σ + ρ) + g * (A.tiny + A.tiny)) + G * m2 * (g * (A.tiny + A.tiny))) + A.tiny := ⟨_, rfl⟩
  rw [← hT1] at w1
  rw [← hT2] at w2
  have GB : 1 ≤ G * B := one_le_mul_of_one_le_of_one_le hG hB
  have tGB : A.tiny ≤ A.tiny * (G * B) := le_mul_of_one_le_right t0 GB
  have BGB : B ≤ G * B := le_mul_of_one_le_left (by linarith) hG
  have τt : τ * A.tiny ≤ 1 / 2 * (A.tiny * (G * B)) := by
    have : τ * A.tiny ≤ B / 2 * A.tiny := mul_le_mul_of_nonneg_right hτB t0
    have := mul_le_mul_of_nonneg_left BGB t0
    linarith
  have mt : ∀ {m : ℝ}, m ≤ B → G * m * A.tiny ≤ A.tiny * (G * B) := by
    intro m hm
    have : G * m ≤ G * B := mul_le_mul_of_nonneg_left hm (by linarith)
    have := mul_le_mul_of_nonneg_right this t0
    linarith
  have g20 : g ≤ g ^ 2 := p1
  have tG0 : 0 ≤ A.tiny * (G * B) := by positivity
  have T1b : T1 ≤ g ^ 2 * (τ * κ + 5 / 2 * (A.tiny * (G * B))) := by
    have a : g * (τ * A.tiny + G * m1 * A.tiny) ≤ g ^ 2 * (3 / 2 * (A.tiny * (G * B))) := by
      apply mul_le_mul p1 _ (by positivity) (by positivity)
      have := mt b1
      linarith
    have b : A.tiny ≤ g ^ 2 * (A.tiny * (G * B)) := tGB.trans (le_mul_of_one_le_left tG0 (by linarith))
    rw [hT1]
    linarith
  have T2b : T2 ≤ g ^ 3 * (τ * (σ + ρ) + 4 * (A.tiny * (G * B))) := by
    have a : g ^ 2 * (2 * (τ * A.tiny + G * m2 * A.tiny)) ≤ g ^ 3 * (3 * (A.tiny * (G * B))) := by
      apply mul_le_mul p2 _ (by positivity) (by positivity)
      have := mt b2
      linarith
    have b : A.tiny ≤ g ^ 3 * (A.tiny * (G * B)) := tGB.trans (le_mul_of_one_le_left tG0 (by linarith))
    rw [hT2]
    linarith
  have T10 : 0 ≤ T1 := by rw [hT1]; positivity
  have T20 : 0 ≤ T2 := by rw [hT2]; positivity
  have g2s : g ^ 2 ≤ 103 / 100 := by nlinarith
  have g3s : g ^ 3 ≤ 105 / 100 := by
    have := mul_le_mul_of_nonneg_right g2s (show 0 ≤ g by linarith)
    have e : g ^ 3 = g ^ 2 * g := by ring
    linarith
  have tGs : A.tiny * (G * B) ≤ 11 / 1000 * B := by
    have := gm (show 0 ≤ B by linarith) le_rfl G11
    have := mul_le_mul (show A.tiny ≤ 1 / 100 by linarith) this (by positivity) (by norm_num)
    linarith
  have τκ : τ * κ ≤ B / 2 * κ := mul_le_mul_of_nonneg_right hτB κ0
  have τσ : τ * (σ + ρ) ≤ B / 2 * (σ + ρ) := mul_le_mul_of_nonneg_right hτB (by positivity)
  have T1s : T1 ≤ 52 / 100 * (B * κ) + 3 / 100 * B := by
    have : g ^ 2 * (τ * κ + 5 / 2 * (A.tiny * (G * B))) ≤ 103 / 100 * (τ * κ + 5 / 2 * (A.tiny * (G * B))) :=
      mul_le_mul_of_nonneg_right g2s (by positivity)
    linarith
  have T2s : T2 ≤ 53 / 100 * (B * (σ + ρ)) + 5 / 100 * B := by
    have : g ^ 3 * (τ * (σ + ρ) + 4 * (A.tiny * (G * B))) ≤ 105 / 100 * (τ * (σ + ρ) + 4 * (A.tiny * (G * B))) :=
      mul_le_mul_of_nonneg_right g3s (by positivity)
    linarith
  -- the sums
  have h0' := h0.mono (H := g * (G * g)) (σ := τ) (by nlinarith [mul_nonneg (show 0 ≤ G by linarith) (show 0 ≤ g * g - 1 by nlinarith)]) le_rfl
  have cc1 : g * (G * g) ≤ 11 / 10 := by
    have := gG 2 (by norm_num)
    have e : g * (G * g) = g ^ 2 * G := by ring
    linarith
  have cc2 : g * (g * (G * g)) ≤ 11 / 10 := by
    have := gG 3 (by norm_num)
    have e : g * (g * (G * g)) = g ^ 3 * G := by ring
    linarith
  have k0 : ∀ {m r c : ℝ}, 0 ≤ m → m ≤ B → 0 ≤ r → c ≤ 11 / 10 → c * (m * r) ≤ 11 / 10 * (B * r) := by
    intro m r c hm hmB hr hc
    have := mul_le_mul_of_nonneg_right (gm hm hmB hc) hr
    linarith
  have s1 := h0'.add w1 (by
    have a := gm M0 b0 cc1
    have b := k0 M1 b1 κ0 cc1
    linarith)
  rw [← hgd] at s1
  have w2' := w2.mono (H := g * (g * (G * g))) (σ := T2) (le_of_eq (by ring)) le_rfl
  have gτ : g * (τ + T1) ≤ 101 / 100 * (τ + T1) := mul_le_mul_of_nonneg_right gs (by positivity)
  have s2 := s1.add w2' (by
    have a := gm M0 b0 cc2
    have b := k0 M1 b1 κ0 cc2
    have d := k0 M2 b2 (show 0 ≤ σ + ρ by positivity) cc2
    linarith)
  rw [← hgd] at s2
  refine s2.mono (le_of_eq (by ring)) ?_
  have z1 : g * (g * (τ + T1)) ≤ g ^ 4 * (τ + τ * κ + 5 / 2 * (A.tiny * (G * B))) := by
    have a : g ^ 2 * (τ + T1) ≤ g ^ 2 * (g ^ 2 * (τ + τ * κ + 5 / 2 * (A.tiny * (G * B)))) := by
      apply mul_le_mul_of_nonneg_left _ (by positivity)
      have : τ ≤ g ^ 2 * τ := le_mul_of_one_le_left hτ (by linarith)
      linarith
    linarith
  have z2 : g * T2 ≤ g ^ 4 * (τ * (σ + ρ) + 4 * (A.tiny * (G * B))) := by
    have := mul_le_mul_of_nonneg_left T2b (show 0 ≤ g by linarith)
    linarith
  have z3 : 0 ≤ g ^ 4 * (A.tiny * (G * B)) := by positivity
  rw [hq]
  linarith

end ExpandF
end Verif
