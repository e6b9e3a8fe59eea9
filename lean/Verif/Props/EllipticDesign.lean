import Verif.Props.EllipticFilter
import Verif.Props.Solvers
import Verif.Lemmas.LegendreBounds
import Mathlib.Analysis.Complex.ExponentialBounds

set_option linter.unusedSimpArgs false

/-! # C72: the search for the modulus, and the whole design of the elliptic prototype -/

namespace Verif
open Complex

/-- Midpoints of numbers between zero and one are between their arguments, distances do not overflow, and halving an interval that is
longer than a relative `τ` and not below `η` makes the computed distance smaller (floating point numbers: `τ` is a few machine epsilons,
`η` a few times the smallest number). -/
structure BisectArith.Precise (A : BisectArith ℝ) (τ η : ℝ) : Prop where
  between : ∀ a b, 0 ≤ a → a ≤ b → b ≤ 1 → a ≤ A.mid a b ∧ A.mid a b ≤ b
  dist_lt : ∀ a b, 0 ≤ a → a ≤ b → b ≤ 1 → A.dist a b < A.top
  halves : ∀ a b, 0 ≤ a → a ≤ b → b ≤ 1 →
    (A.dist a b ≤ 0 ∨ A.dist a b ≤ A.dist a (A.mid a b) ∨ A.dist a b ≤ A.dist (A.mid a b) b) → b ≤ (1 + τ) * a ∨ b ≤ η

/-- what the loop keeps when the function is negative at zero -/
structure SearchInv (A : BisectArith ℝ) (func : ℝ → ℝ) (s : BisectState ℝ) : Prop where
  a0 : 0 ≤ s.a
  ab : s.a ≤ s.b
  b1 : s.b ≤ 1
  fa : func s.a < 0
  fb : 0 ≤ func s.b ∨ s.b = 1
  c : s.c = A.mid s.a s.b

/-- an interval and the one it is a half of -/
def HalfOf (A : BisectArith ℝ) (s : BisectState ℝ) : Prop :=
  s.err = A.dist s.a s.b ∧ (s.errPrev = A.top ∨ ∃ a b, 0 ≤ a ∧ a ≤ b ∧ b ≤ 1 ∧ s.errPrev = A.dist a b ∧ a ≤ s.a ∧ s.b ≤ b ∧
    ((s.a = a ∧ s.b = A.mid a b) ∨ (s.a = A.mid a b ∧ s.b = b)))

theorem search_step {A : BisectArith ℝ} {τ η : ℝ} (hA : A.Precise τ η) {func : ℝ → ℝ} {s : BisectState ℝ} (h : SearchInv A func s)
    (he : s.err = A.top ∨ s.err = A.dist s.a s.b) :
    SearchInv A func (bisectStep A func s) ∧ HalfOf A (bisectStep A func s) := by
  obtain ⟨m1, m2⟩ := hA.between s.a s.b h.a0 h.ab h.b1
  rw [← h.c] at m1 m2
  by_cases hs : func s.a * func s.c ≤ 0
  · have hc : 0 ≤ func s.c := by
      by_contra hn
      exact absurd hs (not_le.mpr (mul_pos_of_neg_of_neg h.fa (not_le.mp hn)))
    refine ⟨⟨?_, ?_, ?_, ?_, ?_, ?_⟩, ?_, ?_⟩ <;> simp only [bisectStep, if_pos hs]
    · exact h.a0
    · exact m1
    · exact m2.trans h.b1
    · exact h.fa
    · exact .inl hc
    · rcases he with he | he
      · exact .inl he
      · exact .inr ⟨s.a, s.b, h.a0, h.ab, h.b1, he, le_rfl, m2, .inl ⟨rfl, h.c⟩⟩
  · have hc : func s.c < 0 := by
      by_contra hn
      exact hs (mul_nonpos_of_nonpos_of_nonneg h.fa.le (not_lt.mp hn))
    refine ⟨⟨?_, ?_, ?_, ?_, ?_, ?_⟩, ?_, ?_⟩ <;> simp only [bisectStep, if_neg hs]
    · exact h.a0.trans m1
    · exact m2
    · exact h.b1
    · exact hc
    · exact h.fb
    · rcases he with he | he
      · exact .inl he
      · exact .inr ⟨s.a, s.b, h.a0, h.ab, h.b1, he, m1, le_rfl, .inr ⟨h.c, rfl⟩⟩

/-- what the bisection returns: a number inside an interval whose ends agree up to a relative `τ`, with a change of sign -/
theorem search_result {A : BisectArith ℝ} {τ η : ℝ} (hτ : 0 ≤ τ) (hA : A.Precise τ η) {func : ℝ → ℝ} (h0 : func 0 < 0) {fuel : ℕ} {r : ℝ}
    (h : bisect A fuel func 0 1 0 = .ok r) :
    ∃ a b, 0 ≤ a ∧ a ≤ r ∧ r ≤ b ∧ b ≤ 1 ∧ func a < 0 ∧ (0 ≤ func b ∨ b = 1) ∧ (b ≤ (1 + τ) * a ∨ b ≤ η) := by
  simp only [bisect, Out.bind_eq_ok, Out.pure_def, Out.ok.injEq] at h
  obtain ⟨s, hs, rfl⟩ := h
  have key : ∀ (n : ℕ) (s s' : BisectState ℝ), SearchInv A func s → HalfOf A s →
      whileN n (bisectCond 0) (fun s => .ok (bisectStep A func s)) s = .ok s' →
      SearchInv A func s' ∧ HalfOf A s' ∧ ¬ (0 < s'.err ∧ s'.err < s'.errPrev) := by
    intro n
    induction n with
    | zero => intro s s' _ _ h; simp [whileN] at h
    | succ n ih =>
      intro s s' h1 h2 h3
      unfold whileN at h3
      split at h3
      · obtain ⟨g1, g2⟩ := search_step hA h1 (.inr h2.1)
        exact ih _ _ g1 g2 h3
      · rename_i hc
        simp at h3
        subst h3
        refine ⟨h1, h2, ?_⟩
        simpa [bisectCond] using hc
  have hI : SearchInv A func ⟨0, 1, A.mid 0 1, A.top, A.top⟩ := ⟨le_rfl, zero_le_one, le_rfl, h0, .inr rfl, rfl⟩
  obtain ⟨g1, g2⟩ := search_step hA hI (.inl rfl)
  obtain ⟨k1, ⟨e1, e2⟩, k3⟩ := key fuel _ _ g1 g2 hs
  obtain ⟨m1, m2⟩ := hA.between s.a s.b k1.a0 k1.ab k1.b1
  refine ⟨s.a, s.b, k1.a0, by rw [k1.c]; exact m1, by rw [k1.c]; exact m2, k1.b1, k1.fa, k1.fb, ?_⟩
  by_cases hz : A.dist s.a s.b ≤ 0
  · exact hA.halves s.a s.b k1.a0 k1.ab k1.b1 (.inl hz)
  · have hge : s.errPrev ≤ s.err := by
      by_contra hn
      exact k3 ⟨by rw [e1]; exact not_le.mp hz, not_le.mp hn⟩
    rcases e2 with e2 | ⟨a, b, q1, q2, q3, q4, q5, q6, q7⟩
    · rw [e2, e1] at hge
      exact absurd (hA.dist_lt s.a s.b k1.a0 k1.ab k1.b1) (not_lt.mpr hge)
    · rw [q4, e1] at hge
      have hb : b ≤ (1 + τ) * a ∨ b ≤ η := by
        apply hA.halves a b q1 q2 q3
        rcases q7 with ⟨u, v⟩ | ⟨u, v⟩
        · rw [u, v] at hge; exact .inr (.inl hge)
        · rw [u, v] at hge; exact .inr (.inr hge)
      rcases hb with hb | hb
      · left
        calc s.b ≤ b := q6
          _ ≤ (1 + τ) * a := hb
          _ ≤ (1 + τ) * s.a := by gcongr
      · exact .inr (q6.trans hb)

/-! ### the function that is bisected -/

section
variable (eps : ℝ) (he0 : 0 < eps) (he1 : eps ≤ 1 / 2000)

theorem ellipticKValue_eq {eps k : ℝ} {v : WithTop ℝ} {N : ℕ} (h : ∀ fuel, N ≤ fuel → ellipticK fuel eps k = .ok v) :
    ellipticKValue eps k = v := by
  have hex : ∃ v, ∃ N, ∀ fuel, N ≤ fuel → ellipticK fuel eps k = .ok v := ⟨v, N, h⟩
  rw [ellipticKValue, dif_pos hex]
  obtain ⟨N', h'⟩ := hex.choose_spec
  have a := h (N + N') (by omega)
  have b := h' (N + N') (by omega)
  rw [a] at b
  exact (Out.ok.inj b).symm

include he0 he1

theorem ellipticKValue_inner {k : ℝ} (hk : k ^ 2 < 1) :
    ∃ v : ℝ, ellipticKValue eps k = (v : WithTop ℝ) ∧ |v - legendreK k| ≤ eps / 4 * legendreK k := by
  obtain ⟨N, v, hv, hacc⟩ := C70_K eps he0 he1 k hk
  exact ⟨v, ellipticKValue_eq hv, hacc⟩

omit he0 he1 in
theorem ellipticKValue_one {k : ℝ} (hk : k ^ 2 = 1) : ellipticKValue eps k = ⊤ :=
  ellipticKValue_eq (N := 0) fun fuel _ => C70_K_one eps fuel k hk

/-- at zero it is minus the quotient sought -/
theorem degreeError_zero (R : ℝ) : degreeError eps R 0 = -R := by
  obtain ⟨v, hv, -⟩ := ellipticKValue_inner eps he0 he1 (k := 0) (by norm_num)
  have h1 : ellipticKValue eps (Real.sqrt (1 - 0 * 0)) = ⊤ := ellipticKValue_one eps (by rw [mul_zero, sub_zero, Real.sqrt_one]; norm_num)
  rw [degreeError, hv, h1]
  change (0 : ℝ) - R = -R
  ring

/-- inside the interval it is the quotient of the integrals, up to errors of a quarter epsilon, minus the quotient sought -/
theorem degreeError_inner (R : ℝ) {k : ℝ} (h0 : 0 < k) (h1 : k < 1) :
    ∃ v v' : ℝ, degreeError eps R k = v / v' - R ∧ |v - legendreK k| ≤ eps / 4 * legendreK k ∧
      |v' - legendreK (Real.sqrt (1 - k ^ 2))| ≤ eps / 4 * legendreK (Real.sqrt (1 - k ^ 2)) := by
  have hk : k ^ 2 < 1 := by nlinarith
  obtain ⟨v, hv, a1⟩ := ellipticKValue_inner eps he0 he1 hk
  obtain ⟨v', hv', a2⟩ := ellipticKValue_inner eps he0 he1 (k := Real.sqrt (1 - k ^ 2)) (by
    rw [Real.sq_sqrt (by linarith)]
    have : 0 < k ^ 2 := by positivity
    linarith)
  refine ⟨v, v', ?_, a1, a2⟩
  rw [degreeError, ← sq, hv, hv']
  rfl

/-- at one it counts as positive -/
theorem degreeError_one (R : ℝ) : degreeError eps R 1 = 1 := by
  obtain ⟨v, hv, -⟩ := ellipticKValue_inner eps he0 he1 (k := 0) (by norm_num)
  rw [degreeError, ellipticKValue_one eps (by norm_num), mul_one, sub_self, Real.sqrt_zero, hv]
  rfl

end

/-- quotients of approximate values on the two sides of the quotient sought -/
theorem quot_below {eps K K' K1 K1p v v' v1 v1p n : ℝ} (he0 : 0 < eps) (he1 : eps ≤ 1 / 2000) (hK : 0 < K) (hK' : 0 < K') (hK1 : 0 < K1)
    (hK1p : 0 < K1p) (hn : 0 < n) (hv : |v - K| ≤ eps / 4 * K) (hv' : |v' - K'| ≤ eps / 4 * K') (hv1 : |v1 - K1| ≤ eps / 4 * K1)
    (hv1p : |v1p - K1p| ≤ eps / 4 * K1p) :
    (v / v' - n * v1 / v1p < 0 → K ≤ (1 + 2 * eps) * (n * K1 / K1p * K')) ∧
    (0 ≤ v / v' - n * v1 / v1p → n * K1 / K1p * K' ≤ (1 + 2 * eps) * K) := by
  obtain ⟨e, rfl⟩ : ∃ e, eps = 4 * e := ⟨eps / 4, by ring⟩
  rw [mul_div_cancel_left₀ e (by norm_num : (4 : ℝ) ≠ 0)] at hv hv' hv1 hv1p
  have p1 := pos_of_close hK (by linarith) hv
  have p2 := pos_of_close hK' (by linarith) hv'
  have p3 := pos_of_close hK1 (by linarith) hv1
  have p4 := pos_of_close hK1p (by linarith) hv1p
  obtain ⟨l1, u1⟩ := abs_le.mp hv
  obtain ⟨l2, u2⟩ := abs_le.mp hv'
  obtain ⟨l3, u3⟩ := abs_le.mp hv1
  obtain ⟨l4, u4⟩ := abs_le.mp hv1p
  have hme : 0 ≤ 1 - e := by linarith
  have hpe : 0 ≤ 1 + e := by linarith
  have hq : (1 + e) ^ 2 ≤ (1 + 8 * e) * (1 - e) ^ 2 := by
    have : 0 ≤ e * (4 - 16 * e + 8 * e ^ 2) := mul_nonneg (by linarith) (by nlinarith [sq_nonneg e])
    linarith
  have hq1 : 0 < (1 - e) ^ 2 := by
    have : 0 < 1 - e := by linarith
    positivity
  constructor
  · intro h
    have h1 : v * v1p < n * v1 * v' := by
      have : v / v' < n * v1 / v1p := by linarith
      rwa [div_lt_div_iff₀ p2 p4] at this
    have h2 : ((1 - e) * K) * ((1 - e) * K1p) ≤ v * v1p := mul_le_mul (by linarith) (by linarith) (by positivity) p1.le
    have h3 : n * v1 * v' ≤ n * ((1 + e) * K1) * ((1 + e) * K') := by
      have : v1 ≤ (1 + e) * K1 := by linarith
      have : v' ≤ (1 + e) * K' := by linarith
      gcongr
    have h4 : (1 - e) ^ 2 * (K * K1p) ≤ (1 - e) ^ 2 * ((1 + 8 * e) * (n * K1 * K')) := by
      calc (1 - e) ^ 2 * (K * K1p) ≤ (1 + e) ^ 2 * (n * K1 * K') := by linarith
        _ ≤ ((1 + 8 * e) * (1 - e) ^ 2) * (n * K1 * K') := by gcongr
        _ = _ := by ring
    have h5 := le_of_mul_le_mul_left h4 hq1
    have e1 : (1 + 2 * (4 * e)) * (n * K1 / K1p * K') = (1 + 8 * e) * (n * K1 * K') / K1p := by ring
    rw [e1, le_div_iff₀ hK1p]
    exact h5
  · intro h
    have h1 : n * v1 * v' ≤ v * v1p := by
      have : n * v1 / v1p ≤ v / v' := by linarith
      rwa [div_le_div_iff₀ p4 p2] at this
    have h2 : v * v1p ≤ ((1 + e) * K) * ((1 + e) * K1p) := mul_le_mul (by linarith) (by linarith) p4.le (by positivity)
    have h3 : n * ((1 - e) * K1) * ((1 - e) * K') ≤ n * v1 * v' := by
      have : (1 - e) * K1 ≤ v1 := by linarith
      have : (1 - e) * K' ≤ v' := by linarith
      gcongr
    have h4 : (1 - e) ^ 2 * (n * K1 * K') ≤ (1 - e) ^ 2 * ((1 + 8 * e) * (K * K1p)) := by
      calc (1 - e) ^ 2 * (n * K1 * K') ≤ (1 + e) ^ 2 * (K * K1p) := by linarith
        _ ≤ ((1 + 8 * e) * (1 - e) ^ 2) * (K * K1p) := by gcongr
        _ = _ := by ring
    have h5 := le_of_mul_le_mul_left h4 hq1
    have e1 : n * K1 / K1p * K' = (n * K1 * K') / K1p := by ring
    rw [e1, div_le_iff₀ hK1p]
    linarith

theorem kp_sq {x : ℝ} (h0 : 0 < x) (h1 : x ≤ 1) : Real.sqrt (1 - x ^ 2) ^ 2 = 1 - x ^ 2 ∧ Real.sqrt (1 - x ^ 2) ^ 2 < 1 ∧
    Real.sqrt (1 - Real.sqrt (1 - x ^ 2) ^ 2) = x := by
  have h : Real.sqrt (1 - x ^ 2) ^ 2 = 1 - x ^ 2 := Real.sq_sqrt (by nlinarith)
  refine ⟨h, by rw [h]; have : 0 < x ^ 2 := by positivity
                linarith, ?_⟩
  rw [h, sub_sub_cancel, Real.sqrt_sq h0.le]

theorem kp_mono {x y : ℝ} (h0 : 0 < x) (h : x ≤ y) (h1 : y ≤ 1) : legendreKp y ≤ legendreKp x := by
  obtain ⟨a1, a2, -⟩ := kp_sq h0 (h.trans h1)
  obtain ⟨b1, -, -⟩ := kp_sq (h0.trans_le h) h1
  refine legendreK_mono ?_ a2
  rw [a1, b1]
  have : x ^ 2 ≤ y ^ 2 := pow_le_pow_left₀ h0.le h 2
  linarith

theorem kp_growth {x y : ℝ} (h0 : 0 < x) (h : x ≤ y) (h1 : y ≤ 1) : x * legendreKp x ≤ y * legendreKp y := by
  obtain ⟨a1, a2, a3⟩ := kp_sq h0 (h.trans h1)
  obtain ⟨b1, b2, b3⟩ := kp_sq (h0.trans_le h) h1
  have := legendreK_growth (a := Real.sqrt (1 - y ^ 2)) (b := Real.sqrt (1 - x ^ 2)) (by
    rw [a1, b1]
    have : x ^ 2 ≤ y ^ 2 := pow_le_pow_left₀ h0.le h 2
    linarith) a2
  rwa [a3, b3] at this

theorem kp_log {x : ℝ} (h0 : 0 < x) (h1 : x ≤ 1) : Real.exp (-legendreKp x) ≤ x := by
  obtain ⟨a1, a2, a3⟩ := kp_sq h0 h1
  have := legendreK_log a2
  rwa [a3] at this

theorem kp_le {x : ℝ} (h0 : 0 < x) (h1 : x ≤ 1) : legendreKp x ≤ Real.pi / 2 / x := by
  obtain ⟨a1, a2, a3⟩ := kp_sq h0 h1
  have := legendreK_le a2
  rwa [a3] at this

theorem kp_pos {x : ℝ} (h0 : 0 < x) (h1 : x ≤ 1) : 0 < legendreKp x := by
  obtain ⟨a1, a2, a3⟩ := kp_sq h0 h1
  have := legendreK_ge a2
  have := Real.pi_pos
  simp only [legendreKp]
  linarith

/-- the modulus is not tiny -/
theorem not_tiny {b R M eps : ℝ} (h0 : 0 < b) (h1 : b ≤ Real.exp (-(5 * M))) (hM : 1 ≤ M) (hRM : 1 ≤ M * R) (he0 : 0 < eps)
    (he1 : eps ≤ 1 / 2000) (h : R * legendreKp b ≤ (1 + 2 * eps) * legendreK b) : Real.exp (-(5 * M)) < b := by
  have hpi := Real.pi_pos
  have hpi4 : Real.pi < 3.1416 := Real.pi_lt_d4
  have hb : b ≤ 1 / 2 := by
    have e1 : Real.exp (-(5 * M)) ≤ Real.exp (-1) := Real.exp_le_exp.mpr (by linarith)
    have e2 : Real.exp (-1) ≤ 1 / 2 := by
      rw [Real.exp_neg, inv_le_comm₀ (Real.exp_pos 1) (by norm_num)]
      linarith [Real.exp_one_gt_d9]
    linarith
  have hb2 : b ^ 2 ≤ (1 / 2) ^ 2 := pow_le_pow_left₀ h0.le hb 2
  have hK : legendreK b ≤ 2 := by
    refine (legendreK_le (by linarith)).trans ?_
    have hs : (4 / 5 : ℝ) ≤ Real.sqrt (1 - b ^ 2) := Real.le_sqrt_of_sq_le (by norm_num at hb2 ⊢; linarith)
    rw [div_le_iff₀ (by linarith)]
    linarith
  have hKp := kp_pos h0 (by linarith : b ≤ 1)
  have e1 : legendreKp b ≤ M * ((1 + 2 * eps) * legendreK b) := by
    have h1 : 1 * legendreKp b ≤ (M * R) * legendreKp b := mul_le_mul_of_nonneg_right hRM hKp.le
    have h2 : M * (R * legendreKp b) ≤ M * ((1 + 2 * eps) * legendreK b) := mul_le_mul_of_nonneg_left h (by linarith)
    linarith
  have e2 : (1 + 2 * eps) * legendreK b ≤ 3 := by
    have : (1 + 2 * eps) * legendreK b ≤ (1 + 2 * eps) * 2 := mul_le_mul_of_nonneg_left hK (by linarith)
    linarith
  have e3 : M * ((1 + 2 * eps) * legendreK b) ≤ M * 3 := mul_le_mul_of_nonneg_left e2 (by linarith)
  have e4 : Real.exp (-(5 * M)) < Real.exp (-legendreKp b) := Real.exp_lt_exp.mpr (by linarith)
  exact e4.trans_le (kp_log h0 (by linarith))

/-- the interval that the search ends with, in terms of the exact integrals -/
theorem search_bracket {A : BisectArith ℝ} {eps τ η : ℝ} (he0 : 0 < eps) (he1 : eps ≤ 1 / 2000) (hτ : 0 ≤ τ) (hA : A.Precise τ η)
    {K1 K1p v1 v1p n M : ℝ} (hM : 1 ≤ M) (hη : η < Real.exp (-(5 * M))) (hRM : 1 ≤ M * (n * K1 / K1p)) (hK1 : 0 < K1) (hK1p : 0 < K1p) (hn : 0 < n) (hv1 : |v1 - K1| ≤ eps / 4 * K1)
    (hv1p : |v1p - K1p| ≤ eps / 4 * K1p) {bfuel : ℕ} {k : ℝ} (h : bisect A bfuel (degreeError eps (n * v1 / v1p)) 0 1 0 = .ok k) :
    ∃ a b, 0 < a ∧ a < 1 ∧ a ≤ k ∧ k ≤ b ∧ b ≤ 1 ∧ b ≤ (1 + τ) * a ∧
      legendreK a ≤ (1 + 2 * eps) * (n * K1 / K1p * legendreKp a) ∧
      (b = 1 ∨ (b < 1 ∧ n * K1 / K1p * legendreKp b ≤ (1 + 2 * eps) * legendreK b)) := by
  have p3 := pos_of_close hK1 (by linarith) hv1
  have p4 := pos_of_close hK1p (by linarith) hv1p
  have hR : 0 < n * v1 / v1p := by positivity
  have hz : degreeError eps (n * v1 / v1p) 0 = -(n * v1 / v1p) := degreeError_zero eps he0 he1 _
  obtain ⟨a, b, b1, b2, b3, b4, b5, b6, b7⟩ := search_result hτ hA (by rw [hz]; linarith) h
  have hb0 : 0 < b := by
    rcases b6 with h | h
    · by_contra hn
      have : b = 0 := le_antisymm (not_lt.mp hn) (b1.trans (b2.trans b3))
      rw [this, hz] at h
      linarith
    · rw [h]; norm_num
  have hpos : ∀ x : ℝ, 0 < x → x < 1 → 0 < legendreK x ∧ 0 < legendreKp x := by
    intro x hx0 hx1
    have hpi := Real.pi_pos
    have h1 : x ^ 2 < 1 := by nlinarith
    have h2 : Real.sqrt (1 - x ^ 2) ^ 2 < 1 := by
      rw [Real.sq_sqrt (by linarith)]
      have : 0 < x ^ 2 := by positivity
      linarith
    exact ⟨by have := legendreK_ge h1; linarith, by have := legendreK_ge h2; simp only [legendreKp]; linarith⟩
  have hB : b = 1 ∨ (b < 1 ∧ n * K1 / K1p * legendreKp b ≤ (1 + 2 * eps) * legendreK b) := by
    rcases b4.eq_or_lt with h | hb1
    · exact .inl h
    · rcases b6 with h | h
      · obtain ⟨v, v', hf, c1, c2⟩ := degreeError_inner eps he0 he1 (n * v1 / v1p) hb0 hb1
        rw [hf] at h
        obtain ⟨q1, q2⟩ := hpos b hb0 hb1
        exact .inr ⟨hb1, (quot_below he0 he1 q1 q2 hK1 hK1p hn c1 c2 hv1 hv1p).2 h⟩
      · exact .inl h
  have b7 : b ≤ (1 + τ) * a := by
    refine b7.resolve_right fun hbη => ?_
    have hbE : b < Real.exp (-(5 * M)) := hbη.trans_lt hη
    rcases hB with h | ⟨h1, h2⟩
    · have : Real.exp (-(5 * M)) < 1 := by rw [← Real.exp_zero]; exact Real.exp_lt_exp.mpr (by linarith)
      linarith
    · have := not_tiny hb0 hbE.le hM hRM he0 he1 h2
      linarith
  have ha0 : 0 < a := by
    by_contra hn
    have : a = 0 := le_antisymm (not_lt.mp hn) b1
    rw [this, mul_zero] at b7
    linarith
  have ha1 : a < 1 := by
    by_contra hn
    have : a = 1 := le_antisymm (b2.trans (b3.trans b4)) (not_lt.mp hn)
    rw [this, degreeError_one eps he0 he1] at b5
    linarith
  refine ⟨a, b, ha0, ha1, b2, b3, b4, b7, ?_, hB⟩
  obtain ⟨v, v', hf, c1, c2⟩ := degreeError_inner eps he0 he1 (n * v1 / v1p) ha0 ha1
  rw [hf] at b5
  obtain ⟨q1, q2⟩ := hpos a ha0 ha1
  exact (quot_below he0 he1 q1 q2 hK1 hK1p hn c1 c2 hv1 hv1p).1 b5

/-- the product of three factors close to one -/
theorem three_factors {σ eps τ : ℝ} (h0 : 0 ≤ σ) (h1 : σ ≤ 1 / 20) (h2 : 0 < eps) (h3 : eps ≤ 1 / 2000) (h4 : 0 ≤ τ) (h5 : 100 * τ ≤ σ) :
    (1 + 3 / 2 * σ) * ((1 + 2 * eps) * (1 + τ)) ≤ 1 + 3 * eps + 3 * σ := by
  have a : (1 + 2 * eps) * (1 + τ) ≤ 1 + 2 * eps + 2 * τ := by nlinarith
  have hpos : 0 ≤ 1 + 3 / 2 * σ := by linarith
  calc (1 + 3 / 2 * σ) * ((1 + 2 * eps) * (1 + τ)) ≤ (1 + 3 / 2 * σ) * (1 + 2 * eps + 2 * τ) := mul_le_mul_of_nonneg_left a hpos
    _ ≤ (1 + 3 / 2 * σ) * (1 + 2 * eps + σ / 50) := mul_le_mul_of_nonneg_left (by linarith) hpos
    _ ≤ _ := by nlinarith [mul_nonneg h0 h2.le]

set_option maxHeartbeats 1000000 in
/-- the bounds that hold for the modulus, where `R` is the quotient of the integrals that was sought and `M` bounds it and its inverse -/
theorem search_estimates {eps τ R M a b k : ℝ} (he0 : 0 < eps) (he1 : eps ≤ 1 / 2000) (hτ : 0 ≤ τ) (hR : 0 < R) (hM : 1 ≤ M) (hRM : R ≤ M)
    (hRM' : 1 ≤ M * R) (hτM : 20 * τ * Real.exp (5 * M) ≤ 1) (ha0 : 0 < a) (ha1 : a < 1) (hak : a ≤ k) (hkb : k ≤ b) (hb1 : b ≤ 1)
    (hba : b ≤ (1 + τ) * a) (hA : legendreK a ≤ (1 + 2 * eps) * (R * legendreKp a))
    (hB : b = 1 ∨ (b < 1 ∧ R * legendreKp b ≤ (1 + 2 * eps) * legendreK b)) :
    b < 1 ∧ legendreK k ≤ 12 / 5 * M ∧ legendreKp k ≤ 12 / 5 * M ∧ Real.exp (-(5 * M)) ≤ k ^ 2 ∧ Real.exp (-(5 * M)) ≤ 1 - k ^ 2 ∧
    legendreK k ≤ (1 + 3 * eps + 3 * τ * Real.exp (5 * M)) * (R * legendreKp k) ∧
    R * legendreKp k ≤ (1 + 3 * eps + 3 * τ * Real.exp (5 * M)) * legendreK k := by
  have hpi := Real.pi_pos
  have hpi4 : Real.pi < 3.1416 := Real.pi_lt_d4
  have hexp : 0 < Real.exp (5 * M) := Real.exp_pos _
  obtain ⟨σ, hσ⟩ : ∃ σ, σ = τ * Real.exp (5 * M) := ⟨_, rfl⟩
  obtain ⟨E, hE⟩ : ∃ E, E = Real.exp (-(5 * M)) := ⟨_, rfl⟩
  have hE0 : 0 < E := by rw [hE]; exact Real.exp_pos _
  have hσ0 : 0 ≤ σ := by rw [hσ]; positivity
  have hσ1 : σ ≤ 1 / 20 := by rw [hσ]; linarith
  have hσE : σ * E = τ := by rw [hσ, hE, mul_assoc, ← Real.exp_add, add_neg_cancel, Real.exp_zero, mul_one]
  have hexp5 : 100 ≤ Real.exp (5 * M) := by
    have h1 : Real.exp 5 ≤ Real.exp (5 * M) := Real.exp_le_exp.mpr (by linarith)
    have h2 : Real.exp 5 = Real.exp 1 ^ 5 := by rw [← Real.exp_nat_mul]; norm_num
    have h3 : (2.7 : ℝ) ≤ Real.exp 1 := by linarith [Real.exp_one_gt_d9]
    have h4 : (2.7 : ℝ) ^ 5 ≤ Real.exp 1 ^ 5 := pow_le_pow_left₀ (by norm_num) h3 5
    norm_num at h4
    linarith
  have hτσ : 100 * τ ≤ σ := by
    rw [hσ, mul_comm]
    exact mul_le_mul_of_nonneg_left hexp5 hτ
  have hτ1 : τ ≤ 1 / 2000 := by linarith
  have ha2 : a ^ 2 < 1 := by nlinarith
  have hk0 : 0 < k := ha0.trans_le hak
  have hk1 : k ≤ 1 := hkb.trans hb1
  have hb0 : 0 < b := hk0.trans_le hkb
  have hkpa := kp_pos ha0 ha1.le
  have hkpk := kp_pos hk0 hk1
  have hsqrt : (0.707 : ℝ) ≤ Real.sqrt (1 / 2) := Real.le_sqrt_of_sq_le (by norm_num)
  have hquot : ∀ c : ℝ, 0.706 ≤ c → Real.pi / 2 / c ≤ 2.225 := by
    intro c hc
    rw [div_le_iff₀ (by linarith)]
    linarith
  -- the integral at the left end
  have hKa : legendreK a ≤ 2.23 * M := by
    rcases le_or_gt (1 / 2) (a ^ 2) with h | h
    · have ha7 : 0.707 ≤ a := by
        have : Real.sqrt (1 / 2) ≤ a := Real.sqrt_le_iff.mpr ⟨ha0.le, h⟩
        linarith
      have h1 := (kp_le ha0 ha1.le).trans (hquot a (by linarith))
      have h2 : R * legendreKp a ≤ M * 2.225 := mul_le_mul hRM h1 hkpa.le (by linarith)
      have h3 : (1 + 2 * eps) * (R * legendreKp a) ≤ (1 + 2 * (1 / 2000)) * (M * 2.225) :=
        mul_le_mul (by linarith) h2 (by positivity) (by norm_num)
      linarith
    · have h1 : Real.sqrt (1 / 2) ≤ Real.sqrt (1 - a ^ 2) := Real.sqrt_le_sqrt (by linarith)
      have h2 := (legendreK_le ha2).trans (hquot _ (by linarith))
      linarith
  have hEa : 3 / 2 * E ≤ 1 - a ^ 2 := by
    have h1 := legendreK_log ha2
    have h2 : Real.exp (-legendreK a) ^ 2 ≤ 1 - a ^ 2 := by
      have := pow_le_pow_left₀ (Real.exp_pos _).le h1 2
      rwa [Real.sq_sqrt (by linarith)] at this
    have h3 : Real.exp (-(5 * M)) * Real.exp (1 / 2 * M) ≤ Real.exp (-legendreK a) ^ 2 := by
      rw [← Real.exp_nat_mul, ← Real.exp_add]
      apply Real.exp_le_exp.mpr
      push_cast
      linarith
    have h4 : 3 / 2 ≤ Real.exp (1 / 2 * M) := by linarith [Real.add_one_le_exp (1 / 2 * M)]
    rw [← hE] at h3
    have h5 : E * (3 / 2) ≤ E * Real.exp (1 / 2 * M) := mul_le_mul_of_nonneg_left h4 hE0.le
    linarith
  have hτE : τ ≤ 1 / 20 * E := by rw [← hσE]; exact mul_le_mul_of_nonneg_right hσ1 hE0.le
  have hb2 : b ^ 2 ≤ a ^ 2 + 3 * τ := by
    have h1 : b ^ 2 ≤ ((1 + τ) * a) ^ 2 := pow_le_pow_left₀ hb0.le hba 2
    have h2 : ((1 + τ) * a) ^ 2 = a ^ 2 + (2 * τ + τ ^ 2) * a ^ 2 := by ring
    have h3 : (2 * τ + τ ^ 2) * a ^ 2 ≤ (3 * τ) * 1 := mul_le_mul (by nlinarith) ha2.le (by positivity) (by linarith)
    linarith
  have hEb : E ≤ 1 - b ^ 2 := by linarith
  have hb2lt : b ^ 2 < 1 := by linarith
  have hblt : b < 1 := by nlinarith
  have hB' : R * legendreKp b ≤ (1 + 2 * eps) * legendreK b := by
    rcases hB with h | h
    · exact absurd h hblt.ne
    · exact h.2
  have hk2 : k ^ 2 ≤ b ^ 2 := pow_le_pow_left₀ hk0.le hkb 2
  have hak2 : a ^ 2 ≤ k ^ 2 := pow_le_pow_left₀ ha0.le hak 2
  have hk2lt : k ^ 2 < 1 := by linarith
  -- the complementary moduli are close
  have hcomp : ∀ x y : ℝ, E ≤ 1 - y → 0 ≤ 1 - x → y ≤ x + 3 * τ → Real.sqrt (1 - x) ≤ (1 + 3 / 2 * σ) * Real.sqrt (1 - y) := by
    intro x y h1 h0 h2
    apply Real.sqrt_le_iff.mpr ⟨by positivity, ?_⟩
    rw [mul_pow, Real.sq_sqrt (by linarith)]
    have h3 : σ * E ≤ σ * (1 - y) := mul_le_mul_of_nonneg_left h1 hσ0
    have h4 : (1 + 3 * σ) * (1 - y) ≤ (1 + 3 / 2 * σ) ^ 2 * (1 - y) := by
      apply mul_le_mul_of_nonneg_right _ (by linarith)
      nlinarith [sq_nonneg σ]
    linarith
  have hcmp : ∀ x y : ℝ, x ^ 2 ≤ y ^ 2 → y ^ 2 < 1 → E ≤ 1 - y ^ 2 → y ^ 2 ≤ x ^ 2 + 3 * τ →
      legendreK y ≤ (1 + 3 / 2 * σ) * legendreK x := by
    intro x y h1 h2 h3 h4
    have g := legendreK_growth h1 h2
    have c := hcomp (x ^ 2) (y ^ 2) h3 (by linarith) h4
    have hs : 0 < Real.sqrt (1 - y ^ 2) := Real.sqrt_pos.mpr (by linarith)
    have hKx : 0 ≤ legendreK x := by have := legendreK_ge (k := x) (by linarith); linarith
    have : Real.sqrt (1 - y ^ 2) * legendreK y ≤ Real.sqrt (1 - y ^ 2) * ((1 + 3 / 2 * σ) * legendreK x) := by
      calc _ ≤ _ := g
        _ ≤ ((1 + 3 / 2 * σ) * Real.sqrt (1 - y ^ 2)) * legendreK x := mul_le_mul_of_nonneg_right c hKx
        _ = _ := by ring
    exact le_of_mul_le_mul_left this hs
  have hcmp' : ∀ x y : ℝ, 0 < x → x ≤ y → y ≤ 1 → y ≤ (1 + τ) * x → legendreKp x ≤ (1 + τ) * legendreKp y := by
    intro x y h0 h1 h2 h3
    have g := kp_growth h0 h1 h2
    have hy := kp_pos (h0.trans_le h1) h2
    have : x * legendreKp x ≤ x * ((1 + τ) * legendreKp y) := by
      calc _ ≤ _ := g
        _ ≤ ((1 + τ) * x) * legendreKp y := mul_le_mul_of_nonneg_right h3 hy.le
        _ = _ := by ring
    exact le_of_mul_le_mul_left this h0
  have hKk : legendreK k ≤ (1 + 3 / 2 * σ) * legendreK a := hcmp a k hak2 hk2lt (by linarith) (by linarith)
  have hKb : legendreK b ≤ (1 + 3 / 2 * σ) * legendreK k := hcmp k b hk2 hb2lt hEb (by linarith)
  have hPa : legendreKp a ≤ (1 + τ) * legendreKp k := hcmp' a k ha0 hak hk1 (by linarith)
  have hPk : legendreKp k ≤ (1 + τ) * legendreKp b := hcmp' k b hk0 hkb hb1 (by
    have : (1 + τ) * a ≤ (1 + τ) * k := by gcongr
    linarith)
  have hKa0 : 0 < legendreK a := by have := legendreK_ge ha2; linarith
  have hKk0 : 0 < legendreK k := by have := legendreK_ge hk2lt; linarith
  have hthree := three_factors hσ0 hσ1 he0 he1 hτ hτσ
  have hkpb := kp_pos hb0 hb1
  have hKp : legendreKp k ≤ 12 / 5 * M := by
    rcases le_or_gt (1 / 2) (a ^ 2) with h | h
    · have ha7 : 0.707 ≤ a := by
        have : Real.sqrt (1 / 2) ≤ a := Real.sqrt_le_iff.mpr ⟨ha0.le, h⟩
        linarith
      have h1 := (kp_le ha0 ha1.le).trans (hquot a (by linarith))
      have h2 := kp_mono ha0 hak hk1
      linarith
    · have hb5 : 0.706 ≤ Real.sqrt (1 - b ^ 2) := Real.le_sqrt_of_sq_le (by norm_num; linarith)
      have h1 := (legendreK_le hb2lt).trans (hquot _ hb5)
      have h2 : R * legendreKp b ≤ 2.23 := by
        have : (1 + 2 * eps) * legendreK b ≤ (1 + 2 * (1 / 2000)) * 2.225 :=
          mul_le_mul (by linarith) h1 (by have := legendreK_ge hb2lt; linarith) (by norm_num)
        linarith
      have h3 : legendreKp b ≤ M * 2.23 := by
        calc legendreKp b ≤ (M * R) * legendreKp b := le_mul_of_one_le_left hkpb.le hRM'
          _ = M * (R * legendreKp b) := by ring
          _ ≤ M * 2.23 := by gcongr
      have h4 : (1 + τ) * legendreKp b ≤ (1 + 1 / 2000) * (M * 2.23) := mul_le_mul (by linarith) h3 hkpb.le (by norm_num)
      linarith
  refine ⟨hblt, ?_, hKp, ?_, ?_, ?_, ?_⟩
  · have : (1 + 3 / 2 * σ) * legendreK a ≤ (1 + 3 / 2 * (1 / 20)) * (2.23 * M) :=
      mul_le_mul (by linarith) hKa hKa0.le (by norm_num)
    linarith
  · have h1 := pow_le_pow_left₀ (Real.exp_pos _).le (kp_log hk0 hk1) 2
    refine le_trans ?_ h1
    rw [← Real.exp_nat_mul]
    apply Real.exp_le_exp.mpr
    push_cast
    linarith
  · rw [← hE]; linarith
  · rw [mul_assoc 3, ← hσ]
    have hRk : 0 ≤ R * legendreKp k := by positivity
    calc legendreK k ≤ (1 + 3 / 2 * σ) * legendreK a := hKk
      _ ≤ (1 + 3 / 2 * σ) * ((1 + 2 * eps) * (R * legendreKp a)) := mul_le_mul_of_nonneg_left hA (by linarith)
      _ ≤ (1 + 3 / 2 * σ) * ((1 + 2 * eps) * (R * ((1 + τ) * legendreKp k))) := by gcongr
      _ = ((1 + 3 / 2 * σ) * ((1 + 2 * eps) * (1 + τ))) * (R * legendreKp k) := by ring
      _ ≤ _ := mul_le_mul_of_nonneg_right hthree hRk
  · rw [mul_assoc 3, ← hσ]
    calc R * legendreKp k ≤ R * ((1 + τ) * legendreKp b) := by gcongr
      _ = (1 + τ) * (R * legendreKp b) := by ring
      _ ≤ (1 + τ) * ((1 + 2 * eps) * legendreK b) := by gcongr
      _ ≤ (1 + τ) * ((1 + 2 * eps) * ((1 + 3 / 2 * σ) * legendreK k)) := by gcongr
      _ = ((1 + 3 / 2 * σ) * ((1 + 2 * eps) * (1 + τ))) * legendreK k := by ring
      _ ≤ _ := mul_le_mul_of_nonneg_right hthree hKk0.le

theorem pow_le_exp {M : ℝ} (hM : M ≤ 2000) : (1 / 2 : ℝ) ^ 2 ^ 15 ≤ Real.exp (-(5 * M)) := by
  have h1 : (1 / 2 : ℝ) ^ 2 ^ 15 = Real.exp (-((2 ^ 15 : ℕ) * Real.log 2)) := by
    rw [← mul_neg, Real.exp_nat_mul, Real.exp_neg, Real.exp_log (by norm_num), one_div]
  rw [h1]
  apply Real.exp_le_exp.mpr
  have := Real.log_two_gt_d9
  have h2 : ((2 ^ 15 : ℕ) : ℝ) = 32768 := by norm_num
  rw [h2]
  linarith

/-- everything about a design that is used below -/
theorem pole_upper {n K Kp K1 K1p F eps T M t : ℝ} (hn : 1 ≤ n) (hM : 1 ≤ M) (he : 0 < eps) (hT : 0 ≤ T) (hKp : 0 < Kp) (hK1 : 0 < K1)
    (hK1p : 0 < K1p) (hF0 : 0 < F) (ht : 0 < t) (hF : F ≤ K1p - t) (hK : K ≤ (1 + 3 * eps + 3 * T) * (n * K1 / K1p * Kp))
    (hKpM : Kp ≤ 12 / 5 * M) (h1 : 30 * n * M * eps * K1p ≤ t) (h2 : 20 * T * K1p ≤ t) :
    F * (K / n / K1) + 5 * eps * Kp ^ 2 < Kp := by
  have hn0 : 0 < n := by linarith
  obtain ⟨m, hm⟩ : ∃ m, m = t / K1p := ⟨_, rfl⟩
  have hm0 : 0 < m := by rw [hm]; positivity
  have htm : t = m * K1p := by rw [hm]; field_simp
  have e1 : 30 * n * M * eps ≤ m := by rw [hm, le_div_iff₀ hK1p]; exact h1
  have e2 : 20 * T ≤ m := by rw [hm, le_div_iff₀ hK1p]; exact h2
  have e3 : 30 * (M * eps) ≤ m := by
    have : 1 * (M * eps) ≤ n * (M * eps) := mul_le_mul_of_nonneg_right hn (by positivity)
    linarith
  have e4 : eps ≤ M * eps := by
    have : 1 * eps ≤ M * eps := mul_le_mul_of_nonneg_right hM he.le
    linarith
  have e5 : K / n / K1 ≤ (1 + 3 * eps + 3 * T) * Kp / K1p := by
    rw [div_div, div_le_div_iff₀ (by positivity) hK1p]
    have := mul_le_mul_of_nonneg_right hK hK1p.le
    calc K * K1p ≤ _ := this
      _ = _ := by field_simp
  have e6 : F * (K / n / K1) ≤ F * ((1 + 3 * eps + 3 * T) * Kp / K1p) := mul_le_mul_of_nonneg_left e5 hF0.le
  have e7 : F * ((1 + 3 * eps + 3 * T) * Kp / K1p) ≤ (K1p - t) * ((1 + 3 * eps + 3 * T) * Kp / K1p) :=
    mul_le_mul_of_nonneg_right hF (by positivity)
  have e8 : (K1p - t) * ((1 + 3 * eps + 3 * T) * Kp / K1p) = (1 - m) * (1 + 3 * eps + 3 * T) * Kp := by
    rw [htm]; field_simp
  have e9 : 5 * eps * Kp ^ 2 ≤ 12 * (M * eps) * Kp := by
    have : (5 * eps * Kp) * Kp ≤ (5 * eps * (12 / 5 * M)) * Kp :=
      mul_le_mul_of_nonneg_right (mul_le_mul_of_nonneg_left hKpM (by positivity)) hKp.le
    calc 5 * eps * Kp ^ 2 = (5 * eps * Kp) * Kp := by ring
      _ ≤ _ := this
      _ = _ := by ring
  have e10 : (1 - m) * (1 + 3 * eps + 3 * T) + 12 * (M * eps) < 1 := by
    have : 0 ≤ m * (3 * eps + 3 * T) := by positivity
    nlinarith
  have e11 : ((1 - m) * (1 + 3 * eps + 3 * T) + 12 * (M * eps)) * Kp < 1 * Kp := mul_lt_mul_of_pos_right e10 hKp
  linarith

theorem pole_lower {n K Kp K1 F eps M t : ℝ} (hn : 1 ≤ n) (hM : 1 ≤ M) (he : 0 < eps) (hKp : 0 < Kp) (hK1 : 0 < K1)
    (ht : 0 < t) (hF : t ≤ F) (hK : 3 / 2 ≤ K) (hKpM : Kp ≤ 12 / 5 * M) (h1 : 20 * n * M ^ 2 * eps * K1 ≤ t) :
    5 * eps * Kp ^ 2 < F * (K / n / K1) := by
  have hn0 : 0 < n := by linarith
  have e1 : Kp ^ 2 ≤ (12 / 5 * M) ^ 2 := pow_le_pow_left₀ hKp.le hKpM 2
  have e2 : t * (3 / 2 / n / K1) ≤ F * (K / n / K1) := by
    apply mul_le_mul hF _ (by positivity) (by linarith)
    gcongr
  have e3 : 20 * n * M ^ 2 * eps * K1 * (3 / 2 / n / K1) ≤ t * (3 / 2 / n / K1) := mul_le_mul_of_nonneg_right h1 (by positivity)
  have e4 : 20 * n * M ^ 2 * eps * K1 * (3 / 2 / n / K1) = 30 * (M ^ 2 * eps) := by field_simp; norm_num
  have e5 : 5 * eps * Kp ^ 2 ≤ 5 * eps * (12 / 5 * M) ^ 2 := mul_le_mul_of_nonneg_left e1 (by positivity)
  have e6 : 5 * eps * (12 / 5 * M) ^ 2 = 144 / 5 * (M ^ 2 * eps) := by ring
  have e7 : 0 < M ^ 2 * eps := by positivity
  linarith

theorem order_fine {n K K1p eps M t : ℝ} (hn : 1 ≤ n) (he : 0 < eps) (hM : 1 ≤ M) (ht : t ≤ K1p) (hK1p : 0 < K1p) (hK : K ≤ 12 / 5 * M)
    (h1 : 30 * n * M * eps * K1p ≤ t) : 6 * n * eps * K ≤ 1 := by
  have hn0 : 0 < n := by linarith
  have e1 : 30 * n * M * eps * K1p ≤ 1 * K1p := by linarith
  have e2 := le_of_mul_le_mul_right e1 hK1p
  have e3 : 6 * n * eps * K ≤ 6 * n * eps * (12 / 5 * M) := mul_le_mul_of_nonneg_left hK (by positivity)
  have e4 : 0 ≤ n * eps * M := by positivity
  linarith

theorem pole_integral {ε k1 : ℝ} (hε : 0 < ε) (h1 : 0 < k1) (h2 : k1 ^ 2 < 1) :
    Real.arctan (1 / ε) ≤ legendreF (Real.arctan (1 / ε)) (Real.sqrt (1 - k1 ^ 2)) ∧
    legendreF (Real.arctan (1 / ε)) (Real.sqrt (1 - k1 ^ 2)) ≤ legendreKp k1 - Real.arctan ε := by
  have hk : Real.sqrt (1 - k1 ^ 2) ^ 2 < 1 := by
    rw [Real.sq_sqrt (by linarith)]
    have : 0 < k1 ^ 2 := by positivity
    linarith
  have ha : Real.arctan (1 / ε) = Real.pi / 2 - Real.arctan ε := by
    rw [one_div]; exact Real.arctan_inv_of_pos hε
  have h0 : 0 < Real.arctan (1 / ε) := Real.arctan_pos.mpr (by positivity)
  have h3 : 0 < Real.arctan ε := Real.arctan_pos.mpr hε
  have hmono := legendreF_strictMono hk
  have m1 := hmono.monotone h0.le
  have m2 := hmono.monotone (show Real.arctan (1 / ε) ≤ Real.pi / 2 by linarith)
  have e1 := legendreF_expands hk (Real.arctan (1 / ε)) 0
  have e2 := legendreF_expands hk (Real.pi / 2) (Real.arctan (1 / ε))
  simp only [legendreF_zero] at e1 m1
  rw [abs_of_nonneg (by linarith), abs_of_nonneg (by linarith)] at e1 e2
  have e3 : legendreKp k1 = legendreF (Real.pi / 2) (Real.sqrt (1 - k1 ^ 2)) := rfl
  constructor
  · linarith
  · rw [e3]; linarith

set_option maxHeartbeats 1000000 in
theorem elliptic_design {n : ℕ} {p s eps τ η M : ℝ} (hn : 1 ≤ n) (hp : 0 < p) (hs : 0 < s) (hps : s < 1 - p)
    (hf : FineEnough n p s eps τ η M) {A : BisectArith ℝ} (hA : A.Precise τ η) (bfuel : ℕ) :
    ∃ N : ℕ, ∀ fuel, N ≤ fuel → ∀ P, ellipticOrderRipples A bfuel fuel eps n p s = .ok P →
      0 < P.k ∧ P.k < 1 ∧ legendreK P.k ≤ 12 / 5 * M ∧ legendreKp P.k ≤ 12 / 5 * M ∧
      legendreK P.k ≤ (1 + 3 * eps + 3 * τ * Real.exp (5 * M)) * (degreeQuotient n p s * legendreKp P.k) ∧
      degreeQuotient n p s * legendreKp P.k ≤ (1 + 3 * eps + 3 * τ * Real.exp (5 * M)) * legendreK P.k ∧
      ∃ (θ : ℕ → ℝ) (ψ : ℝ) (sys : Zpk),
        (∀ j < n / 2, 0 < θ j ∧ θ j < Real.pi / 2 ∧
          |legendreF (θ j) P.k - ((2 * j + 1 + n % 2 : ℕ) : ℝ) / n * legendreK P.k| ≤ 5 * eps * legendreK P.k ^ 2) ∧
        0 < ψ ∧ ψ < Real.pi / 2 ∧ |legendreF ψ (Real.sqrt (1 - P.k ^ 2)) - poleArgument n p s P.k| ≤ 5 * eps * legendreKp P.k ^ 2 ∧
        elliptic A bfuel fuel eps n p s = .ok sys ∧ sys.Reachable ∧ sys.zeros.numRoots = 2 * (n / 2) ∧ sys.poles.numRoots = n ∧
        sys.zeros.roots = rootsOf [] ((List.range (n / 2)).map fun j => I / ((P.k * Real.sin (θ j) : ℝ) : ℂ)) ∧
        sys.poles.roots = rootsOf (List.replicate (n % 2) (-Real.tan ψ)) ((List.range (n / 2)).map fun j => I * complexSn P.k (θ j) ψ) ∧
        sys.eval (0 : ℂ) = if n % 2 = 1 then 1 else ((1 - p : ℝ) : ℂ) := by
  have heps : 0 < eps := lt_of_lt_of_le (by positivity) hf.eps_ge
  have hn0 : (0 : ℝ) < n := by exact_mod_cast hn
  have hn1 : (1 : ℝ) ≤ n := by exact_mod_cast hn
  have hpi := Real.pi_gt_three
  obtain ⟨r1, r2, r3, r4, r5⟩ := elliptic_ripples hp hs hps
  rw [r3, ← sq s] at r5
  rw [r3] at r1
  rw [← sq s] at r2
  obtain ⟨ε, hε⟩ : ∃ ε, ε = rippleFactor p := ⟨_, rfl⟩
  obtain ⟨k1, hk1⟩ : ∃ k1, k1 = discrimination p s := ⟨_, rfl⟩
  have hε0 : 0 < ε := by rw [hε]; exact Real.sqrt_pos.mpr r1
  have hk1lt : k1 ^ 2 < 1 := by
    rw [hk1, discrimination, rippleFactor, div_pow, Real.sq_sqrt r1.le, Real.sq_sqrt r2.le, div_lt_one r2]
    exact r5
  have hk1pos : 0 < k1 := by rw [hk1, discrimination, ← hε]; exact div_pos hε0 (Real.sqrt_pos.mpr r2)
  have hk1p : Real.sqrt (1 - k1 ^ 2) ^ 2 < 1 := by
    rw [Real.sq_sqrt (by linarith)]
    have : 0 < k1 ^ 2 := by positivity
    linarith
  obtain ⟨N1, v1, hv1, hv1acc⟩ := C70_K eps heps hf.eps_le k1 hk1lt
  obtain ⟨N2, v1p, hv1p, hv1pacc⟩ := C70_K eps heps hf.eps_le (Real.sqrt (1 - k1 ^ 2)) hk1p
  have hfields : ∀ fuel, N1 + N2 ≤ fuel → ∀ P, ellipticOrderRipples A bfuel fuel eps n p s = .ok P →
      bisect A bfuel (degreeError eps ((n : ℝ) * v1 / v1p)) 0 1 0 = .ok P.k := by
    intro fuel hfuel P hP
    obtain ⟨f1, f2, f3, -, f5, f6⟩ := ellipticOrderRipples_fields hp hs hps hP
    have hPk1 : P.k1 = k1 := by rw [f2, f1, hk1]; rfl
    have hPK1 : P.K1 = v1 := by
      rw [hPk1, hv1 fuel (by omega)] at f3
      exact (WithTop.coe_inj.mp (Out.ok.inj f3)).symm
    have hPK1p : P.K1p = v1p := by
      rw [hPk1, hv1p fuel (by omega)] at f5
      exact (WithTop.coe_inj.mp (Out.ok.inj f5)).symm
    rw [hPK1, hPK1p] at f6
    exact f6
  by_cases hb : ∃ k, bisect A bfuel (degreeError eps ((n : ℝ) * v1 / v1p)) 0 1 0 = .ok k
  swap
  · exact ⟨N1 + N2, fun fuel hfuel P hP => absurd ⟨_, hfields fuel hfuel P hP⟩ hb⟩
  obtain ⟨k, hk⟩ := hb
  obtain ⟨K1, hK1⟩ : ∃ K1, K1 = legendreK k1 := ⟨_, rfl⟩
  obtain ⟨K1p, hK1p⟩ : ∃ K1p, K1p = legendreKp k1 := ⟨_, rfl⟩
  have hK1ge : Real.pi / 2 ≤ K1 := by rw [hK1]; exact legendreK_ge hk1lt
  have hK1pge : Real.pi / 2 ≤ K1p := by rw [hK1p]; exact legendreK_ge hk1p
  have hK10 : 0 < K1 := by linarith
  have hK1p0 : 0 < K1p := by linarith
  have hR : degreeQuotient n p s = n * K1 / K1p := by rw [degreeQuotient, ← hk1, ← hK1, ← hK1p]
  have hR0 : 0 < degreeQuotient n p s := by rw [hR]; positivity
  have hu := hf.eps_upper
  have hl := hf.eps_lower
  have ht := hf.tau_upper
  rw [← hk1, ← hε, ← hK1p] at hu ht
  rw [← hk1, ← hε, ← hK1] at hl
  have hat : Real.arctan ε < Real.pi / 2 := Real.arctan_lt_pi_div_two ε
  have hat0 : 0 < Real.arctan ε := Real.arctan_pos.mpr hε0
  have hτM : 20 * τ * Real.exp (5 * M) ≤ 1 := by
    have h1 : 20 * τ * Real.exp (5 * M) * K1p ≤ 1 * K1p := by linarith
    exact le_of_mul_le_mul_right h1 hK1p0
  obtain ⟨a, b, c1, c2, c3, c4, c5, c6, c7, c8⟩ := search_bracket heps hf.eps_le hf.tau_nonneg hA hf.one_le hf.eta_lt
    (by rw [← hR]; exact hf.le_quotient) hK10 hK1p0 hn0
    (by rw [hK1]; exact hv1acc) (by rw [hK1p]; exact hv1pacc) hk
  rw [← hR] at c7 c8
  obtain ⟨d1, d2, d3, d4, d5, d6, d7⟩ := search_estimates heps hf.eps_le hf.tau_nonneg hR0 hf.one_le hf.quotient_le hf.le_quotient hτM c1 c2 c3 c4
    c5 c6 c7 c8
  have hk0 : 0 < k := c1.trans_le c3
  have hklt : k < 1 := c4.trans_lt d1
  have hpw := pow_le_exp hf.M_le
  have hM := hf.one_le
  have hkp0 := kp_pos hk0 hklt.le
  obtain ⟨V, hV⟩ : ∃ V, V = poleArgument n p s k := ⟨_, rfl⟩
  have hVd : V = legendreF (Real.arctan (1 / ε)) (Real.sqrt (1 - k1 ^ 2)) * (legendreK k / n / legendreK k1) := by
    rw [hV, poleArgument, ← hε, ← hk1]
  obtain ⟨g1, g2⟩ := pole_integral hε0 hk1pos hk1lt
  obtain ⟨F, hF⟩ : ∃ F, F = legendreF (Real.arctan (1 / ε)) (Real.sqrt (1 - k1 ^ 2)) := ⟨_, rfl⟩
  have hat2 : 0 < Real.arctan (1 / ε) := Real.arctan_pos.mpr (by positivity)
  have hKk : 3 / 2 ≤ legendreK k := by
    have := legendreK_ge (show k ^ 2 < 1 by nlinarith)
    linarith
  have hN := order_fine hn1 heps hM (show Real.arctan ε ≤ K1p by linarith) hK1p0 d2 hu
  have hV0 : 5 * eps * legendreKp k ^ 2 < V := by
    rw [hVd, ← hF, ← hK1]
    exact pole_lower hn1 hM heps hkp0 hK10 hat2 (by rw [hF]; exact g1) hKk d3 hl
  have hV1 : V + 5 * eps * legendreKp k ^ 2 < legendreKp k := by
    rw [hVd, ← hF, ← hK1]
    rw [hR, mul_assoc 3 τ] at d6
    refine pole_upper hn1 hM heps (mul_nonneg hf.tau_nonneg (Real.exp_nonneg _)) hkp0 hK10 hK1p0
      (by rw [hF]; linarith) hat0 (by rw [hF, hK1p]; exact g2) d6 d3 hu ?_
    rw [← mul_assoc]; exact ht
  obtain ⟨N3, θ, ψ, q1, q2, q3, q4, q5⟩ := C72_roots eps hf.eps_ge hf.eps_le n hn p s hp hs hps ε k1 hε (by rw [hk1, hε]; rfl) k hk0
    (hpw.trans d4) (hpw.trans d5) hN V hVd hV0 hV1
  refine ⟨N1 + N2 + N3, fun fuel hfuel P hP => ?_⟩
  have hPk : P.k = k := by
    have := hfields fuel (by omega) P hP
    rw [hk] at this
    exact (Out.ok.inj this).symm
  obtain ⟨sys, hsys⟩ := q5 fuel (by omega) A bfuel P hP hPk
  rw [hPk]
  refine ⟨hk0, hklt, d2, d3, d6, d7, θ, ψ, sys, q1, q2, q3, ?_, hsys⟩
  rw [← hV]
  exact q4

end Verif
