import Verif.Model.PolynomialsFloat
import Verif.Spec.Polynomial
import Verif.Spec.FloatFFT
import Verif.Spec.Reduction
import Verif.Lemmas.Rounding3
import Mathlib.Analysis.Complex.Norm

/-! # Rounding errors of the evaluation of polynomials -/

set_option linter.unusedSimpArgs false
set_option linter.unusedSectionVars false
set_option linter.unusedVariables false

namespace Verif
open PocketF Finset
namespace PolyF

theorem geometric_succ (n : ℕ) (x : ℝ) : geometric (n + 1) x = 1 + x * geometric n x := by
  unfold geometric
  rw [sum_range_succ', mul_sum, add_comm]
  simp [pow_succ, mul_comm]

theorem geometric_nonneg (n : ℕ) {x : ℝ} (hx : 0 ≤ x) : 0 ≤ geometric n x := sum_nonneg fun _ _ => by positivity

theorem polyAt_cons {R : Type} [CommSemiring R] (c : R) (cs : List R) (x : R) : polyAt (c :: cs) x = x * polyAt cs x + c := by
  unfold polyAt
  rw [List.length_cons, sum_range_succ', mul_sum]
  simp only [sig, List.getD_cons_succ, List.getD_cons_zero, pow_zero, mul_one, pow_succ]
  congr 1
  apply sum_congr rfl
  intro i _
  ring

theorem polyEval_cons {T U : Type} [Add U] [Mul U] [Zero U] (toU : T → U) (c : T) (cs : List T) (x : U) :
    polyEval toU (c :: cs) x = x * polyEval toU cs x + toU c := by
  unfold polyEval
  rw [List.reverse_cons, List.foldl_append]
  rfl

theorem horner_num {u m s g X E B c : ℝ} (hu : 0 ≤ u) (hm : 0 ≤ m) (hs : 0 ≤ s) (hg : g = (1 + m) * (1 + u)) {gn : ℝ}
    (hX : 0 ≤ X) {G : ℝ} (hE : E = (gn - 1) * B + s * gn * G) (hgn : 1 ≤ gn) (hG : 0 ≤ G) (hB : 0 ≤ B) (hc : 0 ≤ c) :
    X * E + m * (X * (B + E)) + s ≤ (g * gn - 1) * (X * B + c) + s * (g * gn) * (1 + X * G) ∧
    (1 + u) * (X * E + m * (X * (B + E)) + s) + u * (X * B + c) ≤ (g * gn - 1) * (X * B + c) + s * (g * gn) * (1 + X * G) := by
  have h2 : (1 + u) * (X * E + m * (X * (B + E)) + s) + u * (X * B + c) ≤
      (g * gn - 1) * (X * B + c) + s * (g * gn) * (1 + X * G) := by
    rw [hE, hg]
    have e : (1 + u) * (X * ((gn - 1) * B + s * gn * G) + m * (X * (B + ((gn - 1) * B + s * gn * G))) + s) + u * (X * B + c)
        = ((1 + m) * (1 + u) * gn - 1) * (X * B) + s * ((1 + m) * (1 + u) * gn) * (X * G) + ((1 + u) * s + u * c) := by ring
    rw [e]
    have a : 1 + u ≤ (1 + m) * (1 + u) * gn := by
      have : 1 * (1 + u) ≤ (1 + m) * (1 + u) := mul_le_mul_of_nonneg_right (by linarith) (by linarith)
      have := mul_le_mul this hgn zero_le_one (by positivity)
      linarith
    have b : (1 + u) * s ≤ (1 + m) * (1 + u) * gn * s := mul_le_mul_of_nonneg_right a hs
    have d : u * c ≤ ((1 + m) * (1 + u) * gn - 1) * c := mul_le_mul_of_nonneg_right (by linarith) hc
    linarith
  refine ⟨le_trans ?_ h2, h2⟩
  have E0 : 0 ≤ E := by
    rw [hE]
    have : 0 ≤ gn - 1 := by linarith
    positivity
  have : 0 ≤ X * E + m * (X * (B + E)) + s := by positivity
  have : 0 ≤ u * (X * E + m * (X * (B + E)) + s) := by positivity
  have : 0 ≤ u * (X * B + c) := by positivity
  linarith

/-- Horner's scheme on any number type with rounded operations. -/
theorem horner {T Y : Type} [Add Y] [Mul Y] [Zero Y] (toU : T → Y) (fin : Y → Prop) (vl : Y → ℂ) (cv : T → ℂ) (okT : T → Prop)
    (x : Y) (u m s M g : ℝ) (hu : 0 ≤ u) (hm : 0 ≤ m) (hs : 0 ≤ s) (hg : g = (1 + m) * (1 + u)) (h0 : fin 0) (v0 : vl 0 = 0)
    (hmul : ∀ y, fin y → ‖vl x * vl y‖ ≤ M → fin (x * y) ∧ ‖vl (x * y) - vl x * vl y‖ ≤ m * ‖vl x * vl y‖ + s)
    (hadd : ∀ y c, fin y → okT c → ‖vl y + cv c‖ ≤ M → fin (y + toU c) ∧ ‖vl (y + toU c) - (vl y + cv c)‖ ≤ u * ‖vl y + cv c‖) :
    ∀ cs : List T, (∀ c ∈ cs, okT c) →
      (∀ r, r <:+ cs → g ^ r.length * (polyAt (r.map fun c => ‖cv c‖) ‖vl x‖ + s * geometric r.length ‖vl x‖) ≤ M) →
      fin (polyEval toU cs x) ∧ ‖polyAt (cs.map cv) (vl x)‖ ≤ polyAt (cs.map fun c => ‖cv c‖) ‖vl x‖ ∧
        ‖vl (polyEval toU cs x) - polyAt (cs.map cv) (vl x)‖ ≤
          (g ^ cs.length - 1) * polyAt (cs.map fun c => ‖cv c‖) ‖vl x‖ + s * g ^ cs.length * geometric cs.length ‖vl x‖
  | [], _, _ => by
    have e : polyEval toU ([] : List T) x = 0 := rfl
    rw [e, v0]
    simp [polyAt, geometric, h0]
  | c :: cs, hf, hh => by
    obtain ⟨f, hb, he⟩ := horner toU fin vl cv okT x u m s M g hu hm hs hg h0 v0 hmul hadd cs (fun d hd => hf d (by simp [hd]))
      (fun r hr => hh r (hr.trans (List.suffix_cons c cs)))
    have hh' := hh (c :: cs) List.suffix_rfl
    rw [polyEval_cons]
    simp only [List.map_cons, polyAt_cons, List.length_cons, geometric_succ, pow_succ] at hh' ⊢
    set X := ‖vl x‖ with hX
    set B := polyAt (cs.map fun c => ‖cv c‖) X
    set G := geometric cs.length X
    set gn := g ^ cs.length
    set y := polyEval toU cs x
    set Z := polyAt (cs.map cv) (vl x)
    have hX0 : 0 ≤ X := norm_nonneg _
    have hG0 : 0 ≤ G := geometric_nonneg _ hX0
    have hB0 : 0 ≤ B := (norm_nonneg _).trans hb
    have g1 : 1 ≤ g := by rw [hg]; nlinarith
    have hgn : 1 ≤ gn := one_le_pow₀ g1
    obtain ⟨E, hE⟩ : ∃ E, E = (gn - 1) * B + s * gn * G := ⟨_, rfl⟩
    rw [← hE] at he
    obtain ⟨n1, n2⟩ := horner_num (c := ‖cv c‖) hu hm hs hg hX0 hE hgn hG0 hB0 (norm_nonneg _)
    rw [show gn * g = g * gn by ring] at hh' ⊢
    have hy : ‖vl y‖ ≤ B + E := by
      have := norm_sub_norm_le (vl y) Z
      linarith
    have hxy : ‖vl x * vl y‖ ≤ X * (B + E) := by
      rw [norm_mul]
      exact mul_le_mul_of_nonneg_left hy hX0
    have hE0 : 0 ≤ E := (norm_nonneg _).trans he
    have hc0 : 0 ≤ ‖cv c‖ := norm_nonneg _
    have q1 : 0 ≤ m * (X * (B + E)) := by positivity
    obtain ⟨m1, m2⟩ := hmul y f (by
      refine hxy.trans (le_trans ?_ hh')
      linarith)
    have p1 : ‖vl (x * y) - vl x * Z‖ ≤ X * E + m * (X * (B + E)) + s := by
      have e : vl (x * y) - vl x * Z = (vl (x * y) - vl x * vl y) + vl x * (vl y - Z) := by ring
      rw [e]
      refine (norm_add_le _ _).trans ?_
      rw [norm_mul (vl x) (vl y - Z)]
      have a := mul_le_mul_of_nonneg_left hxy hm
      have b := mul_le_mul_of_nonneg_left he hX0
      linarith
    have hZ : ‖vl x * Z + cv c‖ ≤ X * B + ‖cv c‖ := by
      refine (norm_add_le _ _).trans ?_
      rw [norm_mul]
      have := mul_le_mul_of_nonneg_left hb hX0
      linarith
    have hpc : ‖vl (x * y) + cv c‖ ≤ (X * E + m * (X * (B + E)) + s) + (X * B + ‖cv c‖) := by
      have e : vl (x * y) + cv c = (vl (x * y) - vl x * Z) + (vl x * Z + cv c) := by ring
      rw [e]
      exact (norm_add_le _ _).trans (add_le_add p1 hZ)
    obtain ⟨a1, a2⟩ := hadd (x * y) c m1 (hf c (by simp)) (by
      refine hpc.trans (le_trans ?_ hh')
      linarith)
    refine ⟨a1, hZ, ?_⟩
    have e : vl (x * y + toU c) - (vl x * Z + cv c) = (vl (x * y + toU c) - (vl (x * y) + cv c)) + (vl (x * y) - vl x * Z) := by ring
    rw [e]
    refine (norm_add_le _ _).trans (le_trans ?_ n2)
    have := mul_le_mul_of_nonneg_left hpc hu
    linarith

section
variable {F : Type} [Zero F] [Add F] [Sub F] [Mul F] [Fma F] [Neg F]

/-- The product of complex numbers. -/
theorem cx_mul (A : FloatArithNeg F) (hu : 8 * A.u ≤ 1) {a b : Cx F} (ha : FinC A a) (hb : FinC A b)
    (hh : 2 * ‖cval A a * cval A b‖ + 2 * A.tiny ≤ A.huge) :
    FinC A (a * b) ∧ ‖cval A (a * b) - cval A a * cval A b‖ ≤ 5 * A.u * ‖cval A a * cval A b‖ + 6 * A.tiny := by
  have u0 := A.u_nonneg
  have t0 := A.tiny_nonneg
  set N := ‖cval A a * cval A b‖ with hN
  have hN0 : 0 ≤ N := norm_nonneg _
  -- one component: the difference or sum of two products
  have cauchy : ∀ p q r s : ℝ, |p * r| + |q * s| ≤ Real.sqrt (p ^ 2 + q ^ 2) * Real.sqrt (r ^ 2 + s ^ 2) := by
    intro p q r s
    rw [← Real.sqrt_mul (by positivity)]
    apply Real.le_sqrt_of_sq_le
    rw [abs_mul, abs_mul]
    have e1 := sq_abs p
    have e2 := sq_abs q
    have e3 := sq_abs r
    have e4 := sq_abs s
    rw [← e1, ← e2, ← e3, ← e4]
    nlinarith [sq_nonneg (|p| * |s| - |q| * |r|)]
  have hNs : N = Real.sqrt ((A.val a.re) ^ 2 + (A.val a.im) ^ 2) * Real.sqrt ((A.val b.re) ^ 2 + (A.val b.im) ^ 2) := by
    rw [hN, norm_mul, Complex.norm_def, Complex.norm_def, Complex.normSq_apply, Complex.normSq_apply]
    simp only [cval, pow_two]
  have hre := cauchy (A.val a.re) (A.val a.im) (A.val b.re) (A.val b.im)
  have him := cauchy (A.val a.re) (A.val a.im) (A.val b.im) (A.val b.re)
  rw [add_comm ((A.val b.im) ^ 2), ← hNs] at him
  rw [← hNs] at hre
  have comp : ∀ (p q r s : F) (σ : ℝ), (σ = 1 ∨ σ = -1) → A.finite p → A.finite q → A.finite r → A.finite s →
      |A.val p * A.val q| + |A.val r * A.val s| ≤ N → ∀ w : F, (∀ c d : F, A.finite c → A.finite d → c = p * q → d = r * s →
        |A.val c + σ * A.val d| ≤ A.huge → A.finite w ∧ |A.val w - (A.val c + σ * A.val d)| ≤ A.u * |A.val c + σ * A.val d|) →
      A.finite w ∧ |A.val w - (A.val p * A.val q + σ * (A.val r * A.val s))| ≤ 5 / 2 * A.u * N + 3 * A.tiny := by
    intro p q r s σ hσ fp fq fr fs hle w hw
    have hσ1 : |σ| = 1 := by rcases hσ with h | h <;> rw [h] <;> norm_num
    have a1 := abs_nonneg (A.val p * A.val q)
    have a2 := abs_nonneg (A.val r * A.val s)
    obtain ⟨f1, e1⟩ := A.mul p q fp fq (by linarith)
    obtain ⟨f2, e2⟩ := A.mul r s fr fs (by linarith)
    have d1 : |(A.val (p * q) + σ * A.val (r * s)) - (A.val p * A.val q + σ * (A.val r * A.val s))| ≤ A.u * N + 2 * A.tiny := by
      have e : (A.val (p * q) + σ * A.val (r * s)) - (A.val p * A.val q + σ * (A.val r * A.val s))
          = (A.val (p * q) - A.val p * A.val q) + σ * (A.val (r * s) - A.val r * A.val s) := by ring
      rw [e]
      refine (abs_add_le _ _).trans ?_
      rw [abs_mul σ, hσ1, one_mul]
      have := mul_le_mul_of_nonneg_left hle u0
      linarith
    have d2 : |A.val p * A.val q + σ * (A.val r * A.val s)| ≤ N := by
      refine (abs_add_le _ _).trans ?_
      rw [abs_mul σ, hσ1, one_mul]
      exact hle
    have uN : A.u * N ≤ 1 / 8 * N := mul_le_mul_of_nonneg_right (by linarith) hN0
    have d3 : |A.val (p * q) + σ * A.val (r * s)| ≤ 9 / 8 * N + 2 * A.tiny := by
      have := abs_sub_abs_le_abs_sub (A.val (p * q) + σ * A.val (r * s)) (A.val p * A.val q + σ * (A.val r * A.val s))
      linarith
    obtain ⟨f3, e3⟩ := hw _ _ f1 f2 rfl rfl (by linarith)
    refine ⟨f3, ?_⟩
    have e : A.val w - (A.val p * A.val q + σ * (A.val r * A.val s)) = (A.val w - (A.val (p * q) + σ * A.val (r * s)))
        + ((A.val (p * q) + σ * A.val (r * s)) - (A.val p * A.val q + σ * (A.val r * A.val s))) := by ring
    rw [e]
    refine (abs_add_le _ _).trans ?_
    have k1 := mul_le_mul_of_nonneg_left d3 u0
    have k2 : A.u * A.tiny ≤ 1 / 8 * A.tiny := mul_le_mul_of_nonneg_right (by linarith) t0
    have k3 : 0 ≤ A.u * N := by positivity
    linarith
  obtain ⟨f1, e1⟩ := comp a.re b.re a.im b.im (-1) (Or.inr rfl) ha.1 hb.1 ha.2 hb.2 hre (a.re * b.re - a.im * b.im) (by
    rintro c d fc fd rfl rfl h
    rw [show A.val (a.re * b.re) + -1 * A.val (a.im * b.im) = A.val (a.re * b.re) - A.val (a.im * b.im) by ring] at h ⊢
    exact A.sub _ _ fc fd h)
  obtain ⟨f2, e2⟩ := comp a.re b.im a.im b.re 1 (Or.inl rfl) ha.1 hb.2 ha.2 hb.1 him (a.re * b.im + a.im * b.re) (by
    rintro c d fc fd rfl rfl h
    rw [one_mul] at h ⊢
    exact A.add _ _ fc fd h)
  refine ⟨⟨f1, f2⟩, (Complex.norm_le_abs_re_add_abs_im _).trans ?_⟩
  have r1 : (cval A (a * b) - cval A a * cval A b).re
      = A.val (a.re * b.re - a.im * b.im) - (A.val a.re * A.val b.re + -1 * (A.val a.im * A.val b.im)) := by
    simp only [Complex.sub_re, Complex.mul_re, cval]
    change A.val (a.re * b.re - a.im * b.im) - _ = _
    ring
  have r2 : (cval A (a * b) - cval A a * cval A b).im
      = A.val (a.re * b.im + a.im * b.re) - (A.val a.re * A.val b.im + 1 * (A.val a.im * A.val b.re)) := by
    simp only [Complex.sub_im, Complex.mul_im, cval]
    change A.val (a.re * b.im + a.im * b.re) - _ = _
    ring
  rw [r1, r2]
  linarith


theorem perm_map {ι : Type} (f : ι → F) {a b : List F} (h : a.Perm b) : ∀ l : List ι, a = l.map f → ∃ l' : List ι, l'.Perm l ∧ b = l'.map f := by
  induction h with
  | nil =>
    intro l hl
    exact ⟨l, List.Perm.refl _, hl⟩
  | cons x _ ih =>
    intro l hl
    rcases l with _ | ⟨i, l⟩
    · simp at hl
    · simp only [List.map_cons, List.cons.injEq] at hl
      obtain ⟨l', p, e⟩ := ih l hl.2
      exact ⟨i :: l', p.cons i, by simp [hl.1, e]⟩
  | swap x y r =>
    intro l hl
    rcases l with _ | ⟨i, _ | ⟨j, l⟩⟩
    · simp at hl
    · simp at hl
    · simp only [List.map_cons, List.cons.injEq] at hl
      exact ⟨j :: i :: l, List.Perm.swap i j l, by simp [hl.1, hl.2.1, hl.2.2]⟩
  | trans _ _ ih1 ih2 =>
    intro l hl
    obtain ⟨l1, p1, e1⟩ := ih1 l hl
    obtain ⟨l2, p2, e2⟩ := ih2 l1 e1
    exact ⟨l2, p2.trans p1, e2⟩

theorem prod_one_le {ι : Type} (l : List ι) (h : ι → ℝ) (hh : ∀ i ∈ l, 1 ≤ h i) : 1 ≤ (l.map h).prod := by
  induction l with
  | nil => simp
  | cons i l ih =>
    simp only [List.map_cons, List.prod_cons]
    exact one_le_mul_of_one_le_of_one_le (hh i (by simp)) (ih fun j hj => hh j (by simp [hj]))

theorem prod_abs_le {ι : Type} (l : List ι) (d μ : ι → ℝ) (hh : ∀ i ∈ l, |d i| ≤ μ i) : |(l.map d).prod| ≤ (l.map μ).prod := by
  induction l with
  | nil => simp
  | cons i l ih =>
    simp only [List.map_cons, List.prod_cons, abs_mul]
    exact mul_le_mul (hh i (by simp)) (ih fun j hj => hh j (by simp [hj])) (abs_nonneg _) ((abs_nonneg _).trans (hh i (by simp)))

theorem node_num {u t C n1 n2 α1 α2 μ1 μ2 M1 M2 : ℝ} (hu : 0 ≤ u) (ht : 0 ≤ t) (hC : 2 ≤ C) (hn1 : 1 ≤ n1) (hn2 : 1 ≤ n2)
    (ha1 : 1 ≤ α1) (ha2 : 1 ≤ α2) (hμ1 : 0 ≤ μ1) (hμ2 : 0 ≤ μ2) (hm1 : μ1 ≤ M1) (hm2 : μ2 ≤ M2) (hM1 : 1 ≤ M1) (hM2 : 1 ≤ M2)
    (hsmall : 2 * t * C * ((2 * n1 - 1) * (2 * n2 - 1)) ≤ 1) {a b x y : ℝ} (hx : |x| ≤ μ1) (hy : |y| ≤ μ2)
    (h1 : |a - x| ≤ (α1 - 1) * μ1 + t * C * (2 * n1 - 1) * α1 * M1)
    (h2 : |b - y| ≤ (α2 - 1) * μ2 + t * C * (2 * n2 - 1) * α2 * M2) :
    |a * b - x * y| + u * |a * b| + t ≤ ((1 + u) * α1 * α2 - 1) * (μ1 * μ2) +
      t * C * (2 * (n1 + n2) - 1) * ((1 + u) * α1 * α2) * (M1 * M2) := by
  obtain ⟨τ1, hτ1⟩ : ∃ τ1, τ1 = t * C * (2 * n1 - 1) * α1 * M1 := ⟨_, rfl⟩
  obtain ⟨τ2, hτ2⟩ : ∃ τ2, τ2 = t * C * (2 * n2 - 1) * α2 * M2 := ⟨_, rfl⟩
  rw [← hτ1] at h1
  rw [← hτ2] at h2
  have c1 : 0 ≤ 2 * n1 - 1 := by linarith
  have c2 : 0 ≤ 2 * n2 - 1 := by linarith
  have C0 : 0 ≤ C := by linarith
  have τ10 : 0 ≤ τ1 := by rw [hτ1]; positivity
  have τ20 : 0 ≤ τ2 := by rw [hτ2]; positivity
  have b0 : |b| ≤ α2 * μ2 + τ2 := by
    have := abs_sub_abs_le_abs_sub b y
    linarith
  have z : 0 ≤ (α1 - 1) * μ1 + τ1 := (abs_nonneg _).trans h1
  have d : |a * b - x * y| ≤ (α1 * α2 - 1) * (μ1 * μ2) + (τ1 * α2 * μ2 + α1 * μ1 * τ2 + τ1 * τ2) := by
    have e : a * b - x * y = (a - x) * b + x * (b - y) := by ring
    rw [e]
    refine (abs_add_le _ _).trans ?_
    rw [abs_mul, abs_mul]
    have p1 := mul_le_mul h1 b0 (abs_nonneg _) z
    have p2 := mul_le_mul hx h2 (abs_nonneg _) hμ1
    have e2 : ((α1 - 1) * μ1 + τ1) * (α2 * μ2 + τ2) + μ1 * ((α2 - 1) * μ2 + τ2)
        = (α1 * α2 - 1) * (μ1 * μ2) + (τ1 * α2 * μ2 + α1 * μ1 * τ2 + τ1 * τ2) := by ring
    linarith
  have ab : |a * b| ≤ |a * b - x * y| + μ1 * μ2 := by
    have := abs_sub_abs_le_abs_sub (a * b) (x * y)
    have h : |x * y| ≤ μ1 * μ2 := by rw [abs_mul]; exact mul_le_mul hx hy (abs_nonneg _) hμ1
    linarith
  have ub := mul_le_mul_of_nonneg_left ab hu
  have ud := mul_le_mul_of_nonneg_left d hu
  -- the small part
  obtain ⟨α, hα⟩ : ∃ α, α = (1 + u) * α1 * α2 := ⟨_, rfl⟩
  have hα1 : 1 ≤ α := by
    rw [hα, mul_assoc]
    exact one_le_mul_of_one_le_of_one_le (by linarith) (one_le_mul_of_one_le_of_one_le ha1 ha2)
  have hM : 1 ≤ M1 * M2 := one_le_mul_of_one_le_of_one_le hM1 hM2
  have s1 : (1 + u) * (τ1 * α2 * μ2) ≤ t * C * (2 * n1 - 1) * α * (M1 * M2) := by
    rw [hτ1, hα]
    have : t * C * (2 * n1 - 1) * ((1 + u) * α1 * α2) * M1 * μ2 ≤ t * C * (2 * n1 - 1) * ((1 + u) * α1 * α2) * M1 * M2 :=
      mul_le_mul_of_nonneg_left hm2 (by positivity)
    linarith
  have s2 : (1 + u) * (α1 * μ1 * τ2) ≤ t * C * (2 * n2 - 1) * α * (M1 * M2) := by
    rw [hτ2, hα]
    have : t * C * (2 * n2 - 1) * ((1 + u) * α1 * α2) * M2 * μ1 ≤ t * C * (2 * n2 - 1) * ((1 + u) * α1 * α2) * M2 * M1 :=
      mul_le_mul_of_nonneg_left hm1 (by positivity)
    linarith
  have s3 : (1 + u) * (τ1 * τ2) ≤ t * C / 2 * α * (M1 * M2) := by
    have e : (1 + u) * (τ1 * τ2) = (2 * t * C * ((2 * n1 - 1) * (2 * n2 - 1))) * (t * C / 2 * α * (M1 * M2)) := by
      rw [hτ1, hτ2, hα]; ring
    rw [e]
    have : 0 ≤ t * C / 2 * α * (M1 * M2) := by positivity
    calc _ ≤ 1 * (t * C / 2 * α * (M1 * M2)) := mul_le_mul_of_nonneg_right hsmall this
      _ = _ := one_mul _
  have s4 : t ≤ t * C / 2 * α * (M1 * M2) := by
    have a : 1 ≤ α * (M1 * M2) := one_le_mul_of_one_le_of_one_le hα1 hM
    have b : t * 1 ≤ t * (C / 2) := mul_le_mul_of_nonneg_left (by linarith) ht
    have c : t * (C / 2) * 1 ≤ t * (C / 2) * (α * (M1 * M2)) := mul_le_mul_of_nonneg_left a (by positivity)
    linarith
  rw [← hα]
  have main : |a * b - x * y| + u * |a * b| ≤ (α - 1) * (μ1 * μ2) + (1 + u) * (τ1 * α2 * μ2 + α1 * μ1 * τ2 + τ1 * τ2) := by
    rw [hα]
    linarith
  have e : t * C * (2 * (n1 + n2) - 1) * α * (M1 * M2) = t * C * (2 * n1 - 1) * α * (M1 * M2) + t * C * (2 * n2 - 1) * α * (M1 * M2)
      + t * C / 2 * α * (M1 * M2) + t * C / 2 * α * (M1 * M2) := by ring
  rw [e]
  linarith

/-- A product of computed factors in any order. -/
theorem prod_tree (A : FloatArith F) {ι : Type} (f : ι → F) (d μ M : ι → ℝ) (k L : ℕ) (C : ℝ) (hC : 2 ≤ C)
    (hg : (1 + A.u) ^ ((k + 1) * L) ≤ 2) (ht : 2 * A.tiny * C * (L * L) ≤ 1) : ∀ (T : OpTree F) (l : List ι), T.leaves = l.map f →
    l.length ≤ L → (∀ i ∈ l, A.finite (f i) ∧ |d i| ≤ μ i ∧ μ i ≤ M i ∧ 1 ≤ M i ∧
      |A.val (f i) - d i| ≤ ((1 + A.u) ^ k - 1) * μ i + A.tiny * C * M i) → 4 * (l.map M).prod ≤ A.huge →
    A.finite (T.eval (· * ·)) ∧ |A.val (T.eval (· * ·)) - (l.map d).prod| ≤
      ((1 + A.u) ^ ((k + 1) * l.length - 1) - 1) * (l.map μ).prod +
        A.tiny * C * (2 * l.length - 1) * (1 + A.u) ^ ((k + 1) * l.length - 1) * (l.map M).prod := by
  intro T
  have u0 := A.u_nonneg
  have t0 := A.tiny_nonneg
  have g1 : (1 : ℝ) ≤ 1 + A.u := by linarith
  induction T with
  | leaf b =>
    intro l hl hL hf hh
    have : l.length = 1 := by simpa [OpTree.leaves] using (congrArg List.length hl).symm
    obtain ⟨i, rfl⟩ := List.length_eq_one_iff.1 this
    simp only [OpTree.leaves, List.map_cons, List.map_nil, List.cons.injEq, and_true] at hl
    obtain ⟨f1, f2, f3, f4, f5⟩ := hf i (by simp)
    simp only [OpTree.eval, hl, List.map_cons, List.map_nil, List.prod_cons, List.prod_nil, mul_one, List.length_cons,
      List.length_nil, zero_add, Nat.add_sub_cancel, Nat.cast_one]
    refine ⟨f1, f5.trans ?_⟩
    have a : 1 ≤ (1 + A.u) ^ k := one_le_pow₀ g1
    have b : 0 ≤ A.tiny * C * M i := by positivity
    have c := mul_le_mul_of_nonneg_left a b
    linarith
  | node tl tr ihl ihr =>
    intro l hl hL hf hh
    simp only [OpTree.leaves] at hl
    obtain ⟨l1, l2, rfl, e1, e2⟩ := List.map_eq_append_iff.1 hl.symm
    have k1 := tl.leaves_pos
    have k2 := tr.leaves_pos
    rw [← e1, List.length_map] at k1
    rw [← e2, List.length_map] at k2
    simp only [List.length_append, List.map_append, List.prod_append] at hL hf hh ⊢
    have hf1 : ∀ i ∈ l1, _ := fun i hi => hf i (List.mem_append_left _ hi)
    have hf2 : ∀ i ∈ l2, _ := fun i hi => hf i (List.mem_append_right _ hi)
    have M1 := prod_one_le l1 M fun i hi => (hf1 i hi).2.2.2.1
    have M2 := prod_one_le l2 M fun i hi => (hf2 i hi).2.2.2.1
    have b1 : (l1.map M).prod ≤ (l1.map M).prod * (l2.map M).prod := le_mul_of_one_le_right (by linarith) M2
    have b2 : (l2.map M).prod ≤ (l1.map M).prod * (l2.map M).prod := le_mul_of_one_le_left (by linarith) M1
    obtain ⟨p1, q1⟩ := ihl l1 e1.symm (by omega) hf1 (by linarith)
    obtain ⟨p2, q2⟩ := ihr l2 e2.symm (by omega) hf2 (by linarith)
    have m1 := prod_abs_le l1 d μ fun i hi => (hf1 i hi).2.1
    have m2 := prod_abs_le l2 d μ fun i hi => (hf2 i hi).2.1
    have pos : ∀ l : List ι, (∀ i ∈ l, |d i| ≤ μ i ∧ μ i ≤ M i) → 0 ≤ (l.map μ).prod ∧ (l.map μ).prod ≤ (l.map M).prod := by
      intro l h
      refine ⟨(abs_nonneg _).trans (prod_abs_le l d μ fun i hi => (h i hi).1), ?_⟩
      have := prod_abs_le l μ M fun i hi => by
        rw [abs_of_nonneg ((abs_nonneg _).trans (h i hi).1)]
        exact (h i hi).2
      exact (le_abs_self _).trans this
    obtain ⟨z1, w1⟩ := pos l1 fun i hi => ⟨(hf1 i hi).2.1, (hf1 i hi).2.2.1⟩
    obtain ⟨z2, w2⟩ := pos l2 fun i hi => ⟨(hf2 i hi).2.1, (hf2 i hi).2.2.1⟩
    have n1 : (1 : ℝ) ≤ l1.length := by exact_mod_cast k1
    have n2 : (1 : ℝ) ≤ l2.length := by exact_mod_cast k2
    have nL : (l1.length : ℝ) + l2.length ≤ L := by exact_mod_cast hL
    have small : 2 * A.tiny * C * ((2 * (l1.length : ℝ) - 1) * (2 * l2.length - 1)) ≤ 1 := by
      refine le_trans (mul_le_mul_of_nonneg_left ?_ (by positivity)) ht
      nlinarith [sq_nonneg ((l1.length : ℝ) - l2.length)]
    have num := node_num (u := A.u) u0 t0 hC n1 n2 (one_le_pow₀ g1 (n := (k + 1) * l1.length - 1))
      (one_le_pow₀ g1 (n := (k + 1) * l2.length - 1)) z1 z2 w1 w2 M1 M2 small m1 m2 q1 q2
    have ex : (1 + A.u) * (1 + A.u) ^ ((k + 1) * l1.length - 1) * (1 + A.u) ^ ((k + 1) * l2.length - 1)
        = (1 + A.u) ^ ((k + 1) * (l1.length + l2.length) - 1) := by
      rw [← pow_succ', ← pow_add]
      congr 1
      have h1 : 1 ≤ (k + 1) * l1.length := Nat.mul_pos (by omega) k1
      have h2 : 1 ≤ (k + 1) * l2.length := Nat.mul_pos (by omega) k2
      rw [Nat.mul_add]
      omega
    rw [ex] at num
    obtain ⟨α, hα⟩ : ∃ α, α = (1 + A.u) ^ ((k + 1) * (l1.length + l2.length) - 1) := ⟨_, rfl⟩
    have hα2 : α ≤ 2 := by
      rw [hα]
      refine le_trans (pow_le_pow_right₀ g1 ?_) hg
      have := Nat.mul_le_mul_left (k + 1) hL
      omega
    have hα1 : 1 ≤ α := by rw [hα]; exact one_le_pow₀ g1
    rw [← hα] at num ⊢
    set a := A.val (tl.eval (· * ·))
    set b := A.val (tr.eval (· * ·))
    have hab : |a * b| ≤ A.huge := by
      have e1 := abs_sub_abs_le_abs_sub (a * b) ((l1.map d).prod * (l2.map d).prod)
      have e2 : |(l1.map d).prod * (l2.map d).prod| ≤ (l1.map μ).prod * (l2.map μ).prod := by
        rw [abs_mul]; exact mul_le_mul m1 m2 (abs_nonneg _) z1
      have e3 : (l1.map μ).prod * (l2.map μ).prod ≤ (l1.map M).prod * (l2.map M).prod := mul_le_mul w1 w2 z2 (by linarith)
      have e4 : A.tiny * C * (2 * ((l1.length : ℝ) + l2.length) - 1) ≤ 1 := by
        have : 2 * ((l1.length : ℝ) + l2.length) - 1 ≤ 2 * (L * L) := by nlinarith
        have := mul_le_mul_of_nonneg_left this (show 0 ≤ A.tiny * C by positivity)
        linarith
      have hM0 : 0 ≤ (l1.map M).prod * (l2.map M).prod := by positivity
      have e5 : A.tiny * C * (2 * ((l1.length : ℝ) + l2.length) - 1) * α * ((l1.map M).prod * (l2.map M).prod)
          ≤ 1 * 2 * ((l1.map M).prod * (l2.map M).prod) := by
        apply mul_le_mul_of_nonneg_right _ hM0
        exact mul_le_mul e4 hα2 (by linarith) zero_le_one
      have e6 : (α - 1) * ((l1.map μ).prod * (l2.map μ).prod) ≤ (α - 1) * ((l1.map M).prod * (l2.map M).prod) :=
        mul_le_mul_of_nonneg_left e3 (by linarith)
      have e7 : α * ((l1.map M).prod * (l2.map M).prod) ≤ 2 * ((l1.map M).prod * (l2.map M).prod) :=
        mul_le_mul_of_nonneg_right hα2 hM0
      have e8 : 0 ≤ A.u * |a * b| := by positivity
      linarith
    obtain ⟨r1, r2⟩ := A.mul _ _ p1 p2 hab
    refine ⟨r1, ?_⟩
    change |A.val (tl.eval (· * ·) * tr.eval (· * ·)) - _| ≤ _
    have sp : A.val (tl.eval (· * ·) * tr.eval (· * ·)) - (l1.map d).prod * (l2.map d).prod
        = (A.val (tl.eval (· * ·) * tr.eval (· * ·)) - a * b) + (a * b - (l1.map d).prod * (l2.map d).prod) := by ring
    rw [sp]
    refine (abs_add_le _ _).trans ?_
    push_cast at num ⊢
    linarith

/-- The factor of a pair of roots. -/
theorem pair_factor (A : FloatArith F) (hu : 60 * A.u ≤ 1) (ht : A.tiny ≤ 1 / 10) {two x a b : F} (h2 : A.finite two ∧ A.val two = 2)
    (hx : A.finite x) (ha : A.finite a) (hb : A.finite b)
    (hh : 4 * (1 + ((|A.val x| + |A.val a|) ^ 2 + A.val b ^ 2)) ≤ A.huge) :
    A.finite (pairFactor two x a b) ∧ |A.val (pairFactor two x a b) - ((A.val x - A.val a) ^ 2 + A.val b ^ 2)| ≤
      6 * A.u * ((|A.val x| + |A.val a|) ^ 2 + A.val b ^ 2) + 9 * A.tiny * (1 + ((|A.val x| + |A.val a|) ^ 2 + A.val b ^ 2)) := by
  have u0 := A.u_nonneg
  have t0 := A.tiny_nonneg
  obtain ⟨X, hX⟩ : ∃ X, X = |A.val x| := ⟨_, rfl⟩
  obtain ⟨a', ha'⟩ : ∃ a', a' = |A.val a| := ⟨_, rfl⟩
  have X0 : 0 ≤ X := by rw [hX]; exact abs_nonneg _
  have a0 : 0 ≤ a' := by rw [ha']; exact abs_nonneg _
  rw [← hX, ← ha'] at hh ⊢
  obtain ⟨P, hP⟩ : ∃ P, P = X ^ 2 := ⟨_, rfl⟩
  obtain ⟨D, hD⟩ : ∃ D, D = 2 * a' * X := ⟨_, rfl⟩
  obtain ⟨S, hS⟩ : ∃ S, S = a' ^ 2 := ⟨_, rfl⟩
  obtain ⟨B, hB⟩ : ∃ B, B = A.val b ^ 2 := ⟨_, rfl⟩
  have P0 : 0 ≤ P := by rw [hP]; positivity
  have D0 : 0 ≤ D := by rw [hD]; positivity
  have S0 : 0 ≤ S := by rw [hS]; positivity
  have B0 : 0 ≤ B := by rw [hB]; positivity
  have hQ : (X + a') ^ 2 + A.val b ^ 2 = P + D + S + B := by rw [hP, hD, hS, hB]; ring
  rw [hQ] at hh ⊢
  have hXP : X ≤ 1 / 2 + P / 2 := by rw [hP]; nlinarith [sq_nonneg (X - 1)]
  have haS : a' ≤ 1 / 2 + S / 2 := by rw [hS]; nlinarith [sq_nonneg (a' - 1)]
  have uu : ∀ z : ℝ, 0 ≤ z → A.u * z ≤ 1 / 60 * z := fun z hz => mul_le_mul_of_nonneg_right (by linarith) hz
  have xx : A.val x * A.val x = P := by rw [hP, hX, sq_abs]; ring
  have aa : A.val a * A.val a = S := by rw [hS, ha', sq_abs]; ring
  have bb : A.val b * A.val b = B := by rw [hB]; ring
  have tX : A.tiny * X ≤ 1 / 10 * X := mul_le_mul_of_nonneg_right ht X0
  have tX0 : 0 ≤ A.tiny * X := by positivity
  have utX := uu _ tX0
  have ut := uu _ t0
  have uP := uu _ P0
  have uD := uu _ D0
  have uS := uu _ S0
  have uB := uu _ B0
  have uP0 : 0 ≤ A.u * P := by positivity
  have uD0 : 0 ≤ A.u * D := by positivity
  have uS0 : 0 ≤ A.u * S := by positivity
  have uB0 : 0 ≤ A.u * B := by positivity
  -- the products
  obtain ⟨f1, e1⟩ := A.mul x x hx hx (by rw [xx, abs_of_nonneg P0]; linarith)
  rw [xx, abs_of_nonneg P0] at e1
  have h2a : |A.val two * A.val a| = 2 * a' := by rw [h2.2, abs_mul, ← ha']; norm_num
  obtain ⟨f2, e2⟩ := A.mul two a h2.1 ha (by rw [h2a]; linarith)
  rw [h2a] at e2
  have ua := uu _ a0
  have v2 : |A.val (two * a)| ≤ 2 * a' + (A.u * (2 * a') + A.tiny) := by
    have := abs_sub_abs_le_abs_sub (A.val (two * a)) (A.val two * A.val a)
    linarith
  have v2X : |A.val (two * a) * A.val x| ≤ D + A.u * D + A.tiny * X := by
    rw [abs_mul, ← hX]
    have := mul_le_mul_of_nonneg_right v2 X0
    have e : (2 * a' + (A.u * (2 * a') + A.tiny)) * X = D + A.u * D + A.tiny * X := by rw [hD]; ring
    linarith
  obtain ⟨f3, e3⟩ := A.mul (two * a) x f2 hx (by linarith)
  have d3 : |A.val (two * a) * A.val x - A.val two * A.val a * A.val x| ≤ A.u * D + A.tiny * X := by
    rw [← sub_mul, abs_mul, ← hX]
    have := mul_le_mul_of_nonneg_right e2 X0
    have e : (A.u * (2 * a') + A.tiny) * X = A.u * D + A.tiny * X := by rw [hD]; ring
    linarith
  have uv2X := mul_le_mul_of_nonneg_left v2X u0
  have uuD := uu _ uD0
  have g3 : |A.val (two * a * x) - A.val two * A.val a * A.val x| ≤ 121 / 60 * (A.u * D) + 61 / 60 * (A.tiny * X) + A.tiny := by
    have := abs_sub_le (A.val (two * a * x)) (A.val (two * a) * A.val x) (A.val two * A.val a * A.val x)
    linarith
  obtain ⟨f4, e4⟩ := A.mul a a ha ha (by rw [aa, abs_of_nonneg S0]; linarith)
  rw [aa, abs_of_nonneg S0] at e4
  obtain ⟨f5, e5⟩ := A.mul b b hb hb (by rw [bb, abs_of_nonneg B0]; linarith)
  rw [bb, abs_of_nonneg B0] at e5
  have hDabs : |A.val two * A.val a * A.val x| = D := by rw [abs_mul, h2a, ← hX, hD]
  -- the sums
  obtain ⟨E1, hE1⟩ : ∃ E1, E1 = A.u * P + A.tiny + (121 / 60 * (A.u * D) + 61 / 60 * (A.tiny * X) + A.tiny) := ⟨_, rfl⟩
  have s1 : |(A.val (x * x) - A.val (two * a * x)) - (P - A.val two * A.val a * A.val x)| ≤ E1 := by
    rw [sub_sub_sub_comm]
    refine (abs_sub _ _).trans ?_
    linarith
  have m1 : |P - A.val two * A.val a * A.val x| ≤ P + D := by
    refine (abs_sub _ _).trans ?_
    rw [abs_of_nonneg P0, hDabs]
  have w1 : |A.val (x * x) - A.val (two * a * x)| ≤ P + D + E1 := by
    have := abs_sub_abs_le_abs_sub (A.val (x * x) - A.val (two * a * x)) (P - A.val two * A.val a * A.val x)
    linarith
  have hE1s : E1 ≤ 1 / 10 * (P + D) + 3 / 10 := by rw [hE1]; linarith
  obtain ⟨f6, e6⟩ := A.sub _ _ f1 f3 (by linarith)
  have uw1 := mul_le_mul_of_nonneg_left w1 u0
  have uE1 := uu E1 (by rw [hE1]; positivity)
  obtain ⟨E2, hE2⟩ : ∃ E2, E2 = 61 / 60 * E1 + A.u * (P + D) + (A.u * S + A.tiny) := ⟨_, rfl⟩
  have s2 : |(A.val (x * x - two * a * x) + A.val (a * a)) - (P - A.val two * A.val a * A.val x + S)| ≤ E2 := by
    have e : (A.val (x * x - two * a * x) + A.val (a * a)) - (P - A.val two * A.val a * A.val x + S)
        = (A.val (x * x - two * a * x) - (A.val (x * x) - A.val (two * a * x)))
          + ((A.val (x * x) - A.val (two * a * x)) - (P - A.val two * A.val a * A.val x)) + (A.val (a * a) - S) := by ring
    rw [e]
    refine (abs_add_three _ _ _).trans ?_
    linarith
  have m2 : |P - A.val two * A.val a * A.val x + S| ≤ P + D + S := by
    refine (abs_add_le _ _).trans ?_
    rw [abs_of_nonneg S0]
    linarith
  have w2 : |A.val (x * x - two * a * x) + A.val (a * a)| ≤ P + D + S + E2 := by
    have := abs_sub_abs_le_abs_sub (A.val (x * x - two * a * x) + A.val (a * a)) (P - A.val two * A.val a * A.val x + S)
    linarith
  have hE2s : E2 ≤ 1 / 5 * (P + D + S) + 1 / 2 := by rw [hE2]; linarith
  obtain ⟨f7, e7⟩ := A.add _ _ f6 f4 (by linarith)
  have uw2 := mul_le_mul_of_nonneg_left w2 u0
  have E10 : 0 ≤ E1 := by rw [hE1]; positivity
  have uE2 := uu E2 (by rw [hE2]; positivity)
  obtain ⟨E3, hE3⟩ : ∃ E3, E3 = 61 / 60 * E2 + A.u * (P + D + S) + (A.u * B + A.tiny) := ⟨_, rfl⟩
  have s3 : |(A.val (x * x - two * a * x + a * a) + A.val (b * b)) - (P - A.val two * A.val a * A.val x + S + B)| ≤ E3 := by
    have e : (A.val (x * x - two * a * x + a * a) + A.val (b * b)) - (P - A.val two * A.val a * A.val x + S + B)
        = (A.val (x * x - two * a * x + a * a) - (A.val (x * x - two * a * x) + A.val (a * a)))
          + ((A.val (x * x - two * a * x) + A.val (a * a)) - (P - A.val two * A.val a * A.val x + S)) + (A.val (b * b) - B) := by ring
    rw [e]
    refine (abs_add_three _ _ _).trans ?_
    linarith
  have m3 : |P - A.val two * A.val a * A.val x + S + B| ≤ P + D + S + B := by
    refine (abs_add_le _ _).trans ?_
    rw [abs_of_nonneg B0]
    linarith
  have w3 : |A.val (x * x - two * a * x + a * a) + A.val (b * b)| ≤ P + D + S + B + E3 := by
    have := abs_sub_abs_le_abs_sub (A.val (x * x - two * a * x + a * a) + A.val (b * b)) (P - A.val two * A.val a * A.val x + S + B)
    linarith
  have hE3s : E3 ≤ 3 / 10 * (P + D + S + B) + 7 / 10 := by rw [hE3]; linarith
  obtain ⟨f8, e8⟩ := A.add _ _ f7 f5 (by linarith)
  have uw3 := mul_le_mul_of_nonneg_left w3 u0
  have E20 : 0 ≤ E2 := by rw [hE2]; positivity
  have uE3 := uu E3 (by rw [hE3]; positivity)
  refine ⟨f8, ?_⟩
  have ex : (A.val x - A.val a) ^ 2 + A.val b ^ 2 = P - A.val two * A.val a * A.val x + S + B := by
    rw [← xx, ← aa, ← bb, h2.2]; ring
  rw [ex]
  unfold pairFactor
  have tri := abs_sub_le (A.val (x * x - two * a * x + a * a + b * b)) (A.val (x * x - two * a * x + a * a) + A.val (b * b))
    (P - A.val two * A.val a * A.val x + S + B)
  have tP : A.tiny * X ≤ 1 / 2 * A.tiny + 1 / 2 * (A.tiny * P) := by
    have := mul_le_mul_of_nonneg_left hXP t0
    linarith
  have tP0 : 0 ≤ A.tiny * P := by positivity
  have tQ0 : 0 ≤ A.tiny * (D + S + B) := by positivity
  refine tri.trans ?_
  have fin1 : A.u * (P + D + S + B + E3) + E3 ≤ 61 / 60 * E3 + A.u * (P + D + S + B) := by linarith
  have fin2 : 61 / 60 * E3 + A.u * (P + D + S + B) ≤ 6 * A.u * (P + D + S + B) + 9 * A.tiny * (1 + (P + D + S + B)) := by
    rw [hE3, hE2, hE1]
    linarith
  linarith

end
end PolyF
end Verif
