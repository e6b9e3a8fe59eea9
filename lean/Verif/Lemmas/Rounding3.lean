import Verif.Lemmas.Rounding
import Verif.Props.Numeric
import Verif.Model.RoundedStatistics
import Mathlib.Analysis.Complex.Exponential
import Mathlib.Tactic.Linarith
import Mathlib.Tactic.Positivity
import Mathlib.Tactic.Ring
import Mathlib.Tactic.FieldSimp

/-! Rounding errors of sums of computed terms, of quotients and of square roots. -/

set_option linter.unusedSimpArgs false

namespace Verif

theorem one_add_pow_le {u : ℝ} (hu : 0 ≤ u) (n : ℕ) (h : n * u ≤ 1) :
    (1 + u) ^ n - 1 ≤ n * u * (1 + n * u) := by
  have h1 : 1 + u ≤ Real.exp u := by have := Real.add_one_le_exp u; linarith
  have h2 : (1 + u) ^ n ≤ Real.exp (n * u) := by
    rw [Real.exp_nat_mul]
    exact pow_le_pow_left₀ (by linarith) h1 n
  have h3 : |(n : ℝ) * u| ≤ 1 := by rw [abs_of_nonneg (by positivity)]; exact h
  have h4 := (abs_le.1 (Real.abs_exp_sub_one_sub_id_le h3)).2
  have h5 : ((n : ℝ) * u) ^ 2 = n * u * (n * u) := by ring
  linarith


section terms
variable {F : Type} [Zero F] [Add F] [Sub F] [Mul F] [Fma F] (A : FloatArith F)

theorem le_of_sq_le_sq {a b : ℝ} (h : a ^ 2 ≤ b ^ 2) (hb : 0 ≤ b) : a ≤ b := abs_le_of_sq_le_sq' h hb |>.2

theorem sum_map_le_sum_map {ι : Type*} (l : List ι) (f g : ι → ℝ) (h : ∀ i ∈ l, f i ≤ g i) :
    (l.map f).sum ≤ (l.map g).sum := List.sum_le_sum h

theorem abs_sum_map_le {ι : Type*} (l : List ι) (f : ι → ℝ) : |(l.map f).sum| ≤ (l.map fun i => |f i|).sum := by
  induction l with
  | nil => simp
  | cons a l ih => simp only [List.map_cons, List.sum_cons]; exact (abs_add_le _ _).trans (by linarith)

theorem sum_map_affine {ι : Type*} (l : List ι) (h : ι → ℝ) (c t : ℝ) :
    (l.map fun i => c * h i + t).sum = c * (l.map h).sum + l.length * t := by
  induction l with
  | nil => simp
  | cons a l ih => simp only [List.map_cons, List.sum_cons, ih, List.length_cons]; push_cast; ring

theorem le_sum_of_mem {ι : Type*} (l : List ι) (h : ι → ℝ) (h0 : ∀ i ∈ l, 0 ≤ h i) {i : ι} (hi : i ∈ l) :
    h i ≤ (l.map h).sum :=
  List.single_le_sum (by simpa using h0) _ (List.mem_map_of_mem hi)

/-- Any parenthesisation and order of a sum of computed terms: each term `f i` stands for `g i` with relative error
`(1+u)^k - 1` of a magnitude `h i ≥ |g i|`, plus `tiny`. -/
theorem terms_rounding {ι : Type} (l : List ι) (f : ι → F) (g h : ι → ℝ) (k : ℕ) (t : OpTree F)
    (hp : t.leaves.Perm (0 :: l.map f)) (hfin : ∀ i ∈ l, A.finite (f i)) (hgh : ∀ i ∈ l, |g i| ≤ h i)
    (herr : ∀ i ∈ l, |A.val (f i) - g i| ≤ ((1 + A.u) ^ k - 1) * h i + A.tiny)
    (hh : (1 + A.u) ^ (l.length + k) * (l.map h).sum + l.length * (1 + A.u) ^ l.length * A.tiny ≤ A.huge) :
    A.finite (t.eval (fun a b => a + b)) ∧
      |A.val (t.eval (fun a b => a + b)) - (l.map g).sum| ≤
        ((1 + A.u) ^ (l.length + k) - 1) * (l.map h).sum + l.length * (1 + A.u) ^ l.length * A.tiny ∧
      ((∀ i ∈ l, 0 ≤ A.val (f i)) → 0 ≤ A.val (t.eval (fun a b => a + b))) := by
  have hu := A.u_nonneg
  have ht := A.tiny_nonneg
  have g1 : (1 : ℝ) ≤ 1 + A.u := by linarith
  have hk1 := one_le_pow₀ g1 (n := k)
  have hn1 := one_le_pow₀ g1 (n := l.length)
  have hmag : A.mag (0 :: l.map f) = (l.map fun i => |A.val (f i)|).sum := by
    simp [FloatArith.mag, A.val_zero, Function.comp_def]
  have htot : A.total (0 :: l.map f) = (l.map fun i => A.val (f i)).sum := by
    simp [FloatArith.total, A.val_zero, Function.comp_def]
  have hlen : (0 :: l.map f).length - 1 = l.length := by simp
  have hm : (l.map fun i => |A.val (f i)|).sum ≤ (1 + A.u) ^ k * (l.map h).sum + l.length * A.tiny := by
    rw [← sum_map_affine]
    refine sum_map_le_sum_map _ _ _ fun i hi => ?_
    have h1 := abs_add_le (A.val (f i) - g i) (g i)
    rw [sub_add_cancel] at h1
    have := herr i hi
    have := hgh i hi
    linarith
  have hn0 : (0 : ℝ) ≤ (1 + A.u) ^ l.length := by positivity
  have hmn := mul_le_mul_of_nonneg_left hm hn0
  have e1 : (1 + A.u) ^ l.length * ((1 + A.u) ^ k * (l.map h).sum + l.length * A.tiny) =
      (1 + A.u) ^ (l.length + k) * (l.map h).sum + l.length * (1 + A.u) ^ l.length * A.tiny := by
    rw [pow_add]; ring
  rw [e1] at hmn
  obtain ⟨r1, r2, r3⟩ := tree_rounding_perm A t (0 :: l.map f) hp
    (by
      intro x hx
      rcases List.mem_cons.1 hx with rfl | hx
      · exact A.zero_finite
      · obtain ⟨i, hi, rfl⟩ := List.mem_map.1 hx
        exact hfin i hi)
    (by rw [hmag, hlen]; linarith)
  rw [hmag, htot, hlen] at r2
  refine ⟨r1, ?_, fun h0 => r3 ?_⟩
  · have h1 : |(l.map fun i => A.val (f i)).sum - (l.map g).sum| ≤
        ((1 + A.u) ^ k - 1) * (l.map h).sum + l.length * A.tiny := by
      have : (l.map fun i => A.val (f i)).sum - (l.map g).sum = (l.map fun i => A.val (f i) - g i).sum := by
        clear * -
        induction l with
        | nil => simp
        | cons a l ih => simp only [List.map_cons, List.sum_cons, ← ih]; ring
      rw [this, ← sum_map_affine]
      exact (abs_sum_map_le _ _).trans (sum_map_le_sum_map _ _ _ herr)
    have h2 := abs_add_le (A.val (t.eval (fun a b => a + b)) - (l.map fun i => A.val (f i)).sum)
      ((l.map fun i => A.val (f i)).sum - (l.map g).sum)
    rw [sub_add_sub_cancel] at h2
    have h3 := mul_le_mul_of_nonneg_left hm (show 0 ≤ (1 + A.u) ^ l.length - 1 by linarith)
    have e2 : ((1 + A.u) ^ l.length - 1) * ((1 + A.u) ^ k * (l.map h).sum + l.length * A.tiny) +
        (((1 + A.u) ^ k - 1) * (l.map h).sum + l.length * A.tiny) =
        ((1 + A.u) ^ (l.length + k) - 1) * (l.map h).sum + l.length * (1 + A.u) ^ l.length * A.tiny := by
      rw [pow_add]; ring
    linarith
  · intro x hx
    rcases List.mem_cons.1 hx with rfl | hx
    · rw [A.val_zero]
    · obtain ⟨i, hi, rfl⟩ := List.mem_map.1 hx
      exact h0 i hi

/-- the product of two rounded differences -/
theorem prod_diff_rounding {a b p q : F} (ha : A.finite a) (hb : A.finite b) (hp : A.finite p) (hq : A.finite q)
    (h1 : |A.val a - A.val p| ≤ A.huge) (h2 : |A.val b - A.val q| ≤ A.huge)
    (h3 : (1 + A.u) ^ 2 * (|A.val a - A.val p| * |A.val b - A.val q|) ≤ A.huge) :
    A.finite ((a - p) * (b - q)) ∧ |A.val ((a - p) * (b - q)) - (A.val a - A.val p) * (A.val b - A.val q)| ≤
      ((1 + A.u) ^ 3 - 1) * (|A.val a - A.val p| * |A.val b - A.val q|) + A.tiny := by
  have hu := A.u_nonneg
  obtain ⟨f1, e1⟩ := A.sub a p ha hp h1
  obtain ⟨f2, e2⟩ := A.sub b q hb hq h2
  obtain ⟨D, hD⟩ : ∃ D, D = A.val a - A.val p := ⟨_, rfl⟩
  obtain ⟨E, hE⟩ : ∃ E, E = A.val b - A.val q := ⟨_, rfl⟩
  obtain ⟨d, hd⟩ : ∃ d, d = A.val (a - p) := ⟨_, rfl⟩
  obtain ⟨e, he⟩ : ∃ e, e = A.val (b - q) := ⟨_, rfl⟩
  rw [← hD, ← hd] at e1
  rw [← hE, ← he] at e2
  rw [← hD, ← hE] at h3 ⊢
  have d1 : |d| ≤ (1 + A.u) * |D| := by
    have := abs_add_le (d - D) D
    rw [sub_add_cancel] at this
    linarith
  have e1' : |e| ≤ (1 + A.u) * |E| := by
    have := abs_add_le (e - E) E
    rw [sub_add_cancel] at this
    linarith
  have hde : |d * e| ≤ (1 + A.u) ^ 2 * (|D| * |E|) := by
    rw [abs_mul]
    have := mul_le_mul d1 e1' (abs_nonneg _) (by positivity)
    linarith
  obtain ⟨f3, e3⟩ := A.mul (a - p) (b - q) f1 f2 (by rw [← hd, ← he]; linarith)
  rw [← hd, ← he] at e3
  refine ⟨f3, ?_⟩
  have hx : |d * e - D * E| ≤ ((1 + A.u) ^ 2 - 1) * (|D| * |E|) := by
    have : d * e - D * E = (d - D) * e + D * (e - E) := by ring
    rw [this]
    refine (abs_add_le _ _).trans ?_
    rw [abs_mul, abs_mul]
    have i1 := mul_le_mul e1 e1' (abs_nonneg _) (by positivity)
    have i2 := mul_le_mul_of_nonneg_left e2 (abs_nonneg D)
    linarith
  have h4 := abs_add_le (A.val ((a - p) * (b - q)) - d * e) (d * e - D * E)
  rw [sub_add_sub_cancel] at h4
  have h5 := mul_le_mul_of_nonneg_left hde hu
  linarith

end terms

section quot
variable {F : Type} [Zero F] [Add F] [Sub F] [Mul F] [Fma F] [Div F] [FloatFun F] (A : FloatArithFun F)

/-- division of a sum by the number of its terms -/
theorem div_size_rounding (hu : A.u < 1) {s : F} {S X α β : ℝ} {n : ℕ} (hn : 0 < n) (hn2 : (n : ℝ) ≤ A.huge)
    (hs : A.finite s) (hX : |S| ≤ X) (he : |A.val s - S| ≤ (α - 1) * X + β)
    (hh : α * X + β ≤ (1 - A.u) * A.huge) :
    A.finite (s / FloatFun.ofSize n) ∧ |A.val (s / FloatFun.ofSize n) - S / n| ≤
      (α * (1 + A.u) / (1 - A.u) - 1) * (X / n) + (1 + A.u) / (1 - A.u) * (β / n) + A.tiny ∧
      (0 ≤ A.val s → 0 ≤ A.val (s / FloatFun.ofSize n)) := by
  have hu0 := A.u_nonneg
  have hn' : (0 : ℝ) < n := by exact_mod_cast hn
  have hn1 : (1 : ℝ) ≤ n := by exact_mod_cast hn
  obtain ⟨f1, e1⟩ := A.ofSize n hn2
  obtain ⟨N, hN⟩ : ∃ N, N = A.val (FloatFun.ofSize n : F) := ⟨_, rfl⟩
  obtain ⟨T, hT⟩ : ∃ T, T = A.val s := ⟨_, rfl⟩
  rw [← hN] at e1
  rw [← hT] at he
  have hNl : (1 - A.u) * n ≤ N := by have := (abs_le.1 e1).1; linarith
  have h1u : 0 < 1 - A.u := by linarith
  have hN0 : 0 < N := lt_of_lt_of_le (by positivity) hNl
  have hTa : |T| ≤ α * X + β := by
    have := abs_add_le (T - S) S
    rw [sub_add_cancel] at this
    linarith
  have hX0 : 0 ≤ X := (abs_nonneg _).trans hX
  have hTb : 0 ≤ α * X + β := (abs_nonneg _).trans hTa
  have hq : |T / N| ≤ (α * X + β) / ((1 - A.u) * n) := by
    rw [abs_div, abs_of_pos hN0]
    exact div_le_div₀ hTb hTa (by positivity) hNl
  have hq2 : (α * X + β) / ((1 - A.u) * n) ≤ A.huge := by
    rw [div_le_iff₀ (by positivity)]
    have hhuge : 0 ≤ A.huge := by linarith
    have : (1 - A.u) * A.huge ≤ (1 - A.u) * A.huge * n := le_mul_of_one_le_right (by positivity) hn1
    linarith
  obtain ⟨f2, e2⟩ := A.div s (FloatFun.ofSize n) hs f1 (by rw [← hN]; exact hN0.ne') (by
    rw [← hN, ← hT]; linarith)
  rw [← hN, ← hT] at e2
  refine ⟨f2, ?_, fun h0 => A.div_sign s _ hs f1 (by rw [← hN]; exact hN0.ne') (by rw [← hN, ← hT]; linarith)
    (by rw [← hN]; positivity)⟩
  have h2 : |T / N - S / n| ≤ ((α - 1) * X + β + A.u * X) / ((1 - A.u) * n) := by
    have : T / N - S / n = ((T - S) + S * ((n - N) / n)) / N := by field_simp; ring
    rw [this, abs_div, abs_of_pos hN0]
    refine div_le_div₀ ?_ ?_ (by positivity) hNl
    · have := mul_nonneg hu0 hX0
      have := abs_nonneg (T - S)
      linarith
    · refine (abs_add_le _ _).trans (add_le_add he ?_)
      rw [abs_mul, abs_div, abs_of_pos hn', abs_sub_comm]
      have h3 : |N - n| / n ≤ A.u := by rw [div_le_iff₀ hn']; exact e1
      have := mul_le_mul hX h3 (by positivity) hX0
      linarith
  have h4 := abs_add_le (A.val (s / FloatFun.ofSize n) - T / N) (T / N - S / n)
  rw [sub_add_sub_cancel] at h4
  have h5 := mul_le_mul_of_nonneg_left hq hu0
  have h6 : A.u * ((α * X + β) / ((1 - A.u) * n)) + ((α - 1) * X + β + A.u * X) / ((1 - A.u) * n) =
      (α * (1 + A.u) / (1 - A.u) - 1) * (X / n) + (1 + A.u) / (1 - A.u) * (β / n) := by
    field_simp
    ring
  linarith

/-- square root of a non-negative result -/
theorem sqrt_rounding {s : F} {S α β : ℝ} (hs : A.finite s) (hs0 : 0 ≤ A.val s) (hS : 0 ≤ S) (hα : 1 ≤ α)
    (hβ : 0 ≤ β) (he : |A.val s - S| ≤ (α - 1) * S + β) :
    A.finite (FloatFun.sqrt s) ∧ |A.val (FloatFun.sqrt s) - Real.sqrt S| ≤
      (α * (1 + A.u) - 1) * Real.sqrt S + (1 + A.u) * Real.sqrt β + A.tiny := by
  have hu0 := A.u_nonneg
  obtain ⟨f1, e1⟩ := A.sqrt s hs hs0
  obtain ⟨T, hT⟩ : ∃ T, T = A.val s := ⟨_, rfl⟩
  rw [← hT] at he e1 hs0
  have q1 := Real.sq_sqrt hS
  have q2 := Real.sq_sqrt hβ
  have q3 := Real.sq_sqrt hs0
  have n1 := Real.sqrt_nonneg S
  have n2 := Real.sqrt_nonneg β
  have n3 := Real.sqrt_nonneg T
  have he' := abs_le.1 he
  obtain ⟨a, ha⟩ : ∃ a, a = Real.sqrt S := ⟨_, rfl⟩
  obtain ⟨b, hb⟩ : ∃ b, b = Real.sqrt β := ⟨_, rfl⟩
  obtain ⟨c, hc⟩ : ∃ c, c = Real.sqrt T := ⟨_, rfl⟩
  rw [← ha] at q1 n1
  rw [← hb] at q2 n2
  rw [← hc] at q3 n3 e1
  rw [← ha, ← hb]
  have up : c ≤ α * a + b := by
    apply le_of_sq_le_sq _ (by positivity)
    have w1 : α * a ^ 2 ≤ α ^ 2 * a ^ 2 := by
      have : α ≤ α ^ 2 := by nlinarith
      exact mul_le_mul_of_nonneg_right this (by positivity)
    have w2 : 0 ≤ α * a * b := by positivity
    have : (α * a + b) ^ 2 = α ^ 2 * a ^ 2 + 2 * (α * a * b) + b ^ 2 := by ring
    rw [this, q3]
    have := he'.2
    rw [← q1, ← q2] at this
    linarith
  have lo : a ≤ c + (α - 1) * a + b := by
    by_cases h1 : 1 ≤ α - 1
    · have : 1 * a ≤ (α - 1) * a := mul_le_mul_of_nonneg_right h1 n1
      linarith
    · have h2 : (1 - (α - 1)) * a ≤ c + b := by
        apply le_of_sq_le_sq _ (by positivity)
        have g0 : 0 ≤ 1 - (α - 1) := by linarith
        have w1 : (1 - (α - 1)) ^ 2 * a ^ 2 ≤ (1 - (α - 1)) * a ^ 2 := by
          have : (1 - (α - 1)) ^ 2 ≤ 1 - (α - 1) := by nlinarith
          exact mul_le_mul_of_nonneg_right this (by positivity)
        have w2 : 0 ≤ c * b := by positivity
        have : (c + b) ^ 2 = c ^ 2 + 2 * (c * b) + b ^ 2 := by ring
        rw [this, mul_pow, q3]
        have := he'.1
        rw [← q1, ← q2] at this
        linarith
      linarith
  refine ⟨f1, ?_⟩
  have h3 : |c - a| ≤ (α - 1) * a + b := by
    rw [abs_le]; constructor <;> linarith
  have h4 := abs_add_le (A.val (FloatFun.sqrt s) - c) (c - a)
  rw [sub_add_sub_cancel] at h4
  have h5 := mul_le_mul_of_nonneg_left up hu0
  linarith

end quot

end Verif
