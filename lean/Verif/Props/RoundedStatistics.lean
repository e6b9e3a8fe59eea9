import Verif.Lemmas.Rounding3
import Verif.Lemmas.BinaryFormat
import Mathlib.Tactic.NormNum

/-!
# C73: the statistics in floating point

`A : FloatArithFun F` says that `F` is a floating point type: each operation rounds its exact result with relative error at
most `u`, underflow costs at most `tiny`, results below `huge` do not overflow (Verif/Spec/FloatArith.lean).
The theorems bound the distance of each computed statistic from the exact statistic of the exact values of the samples,
for every length and every way the reduction is vectorised, ordered and parenthesised.
-/

set_option linter.unusedSimpArgs false
set_option linter.unusedSectionVars false

namespace Verif

/-- The machine: registers have at least one lane and the external reductions do what the C++ standard says. -/
structure KernOf.Valid {F : Type} (c : KernOf F) : Prop where
  width : 0 < c.W
  red₁ : IsReduction c.red₁
  red₂ : IsReduction c.red₂

section spec
variable {F : Type} [Zero F] [Add F] [Sub F] [Mul F] [Fma F] [Div F] [FloatFun F] (A : FloatArithFun F)

/-! ### the exact statistics of the values of the samples -/

/-- `x₁ + … + xₙ` -/
def exactSum (x : List F) : ℝ := (x.map fun a => A.val a).sum

/-- `|x₁| + … + |xₙ|` -/
def exactAbsSum (x : List F) : ℝ := (x.map fun a => |A.val a|).sum

/-- `x₁² + … + xₙ²` -/
def exactSumSquare (x : List F) : ℝ := (x.map fun a => A.val a ^ 2).sum

/-- the mean of `(xᵢ - m)²` -/
noncomputable def exactVarianceAbout (x : List F) (m : ℝ) : ℝ := (x.map fun a => (A.val a - m) ^ 2).sum / x.length

/-- the variance -/
noncomputable def exactVariance (x : List F) : ℝ := exactVarianceAbout A x (exactSum A x / x.length)

/-- the covariance -/
noncomputable def exactCovariance (x y : List F) : ℝ :=
  (List.zipWith (fun a b => (A.val a - exactSum A x / x.length) * (A.val b - exactSum A y / y.length)) x y).sum / x.length

/-- the bound on the error of the mean -/
noncomputable def meanError (x : List F) : ℝ :=
  ((1 + A.u) ^ (x.length + 1) / (1 - A.u) - 1) * (exactAbsSum A x / x.length) + A.tiny

/-- the mean product of the distances from the means, each allowed the error of its mean -/
noncomputable def spread (x y : List F) : ℝ :=
  (List.zipWith (fun a b => (|A.val a - exactSum A x / x.length| + meanError A x) *
    (|A.val b - exactSum A y / y.length| + meanError A y)) x y).sum / x.length

end spec

section props
variable {F : Type} [Zero F] [Add F] [Sub F] [Mul F] [Fma F] [Div F] [FloatFun F] (A : FloatArithFun F)
  (c : KernOf F)

/-- **C73** `Sum`. -/
theorem C73_sum (hc : c.Valid) (x : List F) (hx : ∀ a ∈ x, A.finite a)
    (hh : (1 + A.u) ^ x.length * exactAbsSum A x ≤ A.huge) :
    ∃ s, sumIn c x = .ok s ∧ A.finite s ∧
      |A.val s - exactSum A x| ≤ ((1 + A.u) ^ x.length - 1) * exactAbsSum A x := by
  obtain ⟨t, hp, he⟩ := C09_reduce_any_op c.vec c.W hc.width c.red₁ c.red₂ hc.red₁ hc.red₂ (fun a b => a + b) x 0
    x.length (by omega) 0
  simp only [List.drop_zero, List.take_length] at hp
  have hm : A.mag (0 :: x) = exactAbsSum A x := by simp [FloatArith.mag, A.val_zero, exactAbsSum]
  have ht : A.total (0 :: x) = exactSum A x := by
    simp only [FloatArith.total, List.map_cons, A.val_zero, List.sum_cons, zero_add, exactSum]
  obtain ⟨h1, h2, -⟩ := tree_rounding_perm A.toFloatArith t (0 :: x) hp
    (by
      intro a ha
      rcases List.mem_cons.1 ha with rfl | ha
      · exact A.zero_finite
      · exact hx a ha) (by rw [hm]; simpa using hh)
  rw [hm, ht] at h2
  exact ⟨_, he, h1, by simpa using h2⟩

/-- **C73** `Sum`, in numbers: as long as there are at most `0.1 / u` samples (1.6 million for `float`), the error is at
most `1.1 n u` times the sum of the magnitudes. -/
theorem C73_sum_linear (hc : c.Valid) (x : List F) (hx : ∀ a ∈ x, A.finite a) (hn : x.length * A.u ≤ 1 / 10)
    (hh : 2 * exactAbsSum A x ≤ A.huge) :
    ∃ s, sumIn c x = .ok s ∧ A.finite s ∧
      |A.val s - exactSum A x| ≤ 11 / 10 * (x.length * A.u) * exactAbsSum A x := by
  have h0 : 0 ≤ exactAbsSum A x := List.sum_nonneg (by
    intro a ha
    obtain ⟨b, _, rfl⟩ := List.mem_map.1 ha
    exact abs_nonneg _)
  have hu := A.u_nonneg
  have h1 := one_add_pow_le hu x.length (by linarith)
  have h2 : (1 + A.u) ^ x.length - 1 ≤ 11 / 10 * (x.length * A.u) := by
    have := mul_le_mul_of_nonneg_left (show 1 + x.length * A.u ≤ 11 / 10 by linarith)
      (show 0 ≤ x.length * A.u by positivity)
    linarith
  obtain ⟨s, a, b, d⟩ := C73_sum A c hc x hx (le_trans (mul_le_mul_of_nonneg_right (by linarith) h0) hh)
  exact ⟨s, a, b, d.trans (mul_le_mul_of_nonneg_right h2 h0)⟩

/-- **C73** `Mean`. -/
theorem C73_mean (hc : c.Valid) (hu : A.u < 1) (x : List F) (hx : ∀ a ∈ x, A.finite a) (hne : x ≠ [])
    (hn : (x.length : ℝ) ≤ A.huge) (hh : (1 + A.u) ^ x.length * exactAbsSum A x ≤ (1 - A.u) * A.huge) :
    ∃ m, meanIn c x = .ok m ∧ A.finite m ∧ |A.val m - exactSum A x / x.length| ≤ meanError A x := by
  have hl : 0 < x.length := List.length_pos_iff.2 hne
  have hu0 := A.u_nonneg
  have hh0 : 0 ≤ A.huge := (Nat.cast_nonneg _).trans hn
  obtain ⟨s, h1, h2, h3⟩ := C73_sum A c hc x hx (hh.trans (by
    have := mul_nonneg hu0 hh0
    linarith))
  obtain ⟨f, e, -⟩ := div_size_rounding A hu (β := 0) hl hn h2 (abs_sum_map_le x fun a => A.val a)
    (by rw [add_zero]; exact h3) (by rw [add_zero]; exact hh)
  refine ⟨s / FloatFun.ofSize x.length, ?_, f, ?_⟩
  · rw [meanIn, if_pos (by omega), h1]; rfl
  · unfold meanError exactSum
    rw [pow_succ]
    simp only [zero_div, mul_zero, add_zero] at e
    exact e

omit [Sub F] [Mul F] [Fma F] in
/-- **C73** `Mean` of nothing is zero. -/
theorem C73_mean_empty : meanIn c ([] : List F) = .ok 0 := rfl

private theorem square_terms (x : List F) (hx : ∀ a ∈ x, A.finite a) (hs : exactSumSquare A x ≤ A.huge) :
    (∀ a ∈ x, A.finite (a * a)) ∧ (∀ a ∈ x, |A.val a ^ 2| ≤ A.val a ^ 2) ∧
    (∀ a ∈ x, |A.val (a * a) - A.val a ^ 2| ≤ ((1 + A.u) ^ 1 - 1) * A.val a ^ 2 + A.tiny) ∧
    (∀ a ∈ x, 0 ≤ A.val (a * a)) := by
  have key : ∀ a ∈ x, |A.val a * A.val a| ≤ A.huge := by
    intro a ha
    have := le_sum_of_mem x (fun a => A.val a ^ 2) (fun i _ => sq_nonneg _) ha
    rw [← pow_two, abs_of_nonneg (sq_nonneg _)]
    exact this.trans hs
  refine ⟨fun a ha => (A.mul a a (hx a ha) (hx a ha) (key a ha)).1, fun a _ => (abs_of_nonneg (sq_nonneg _)).le,
    fun a ha => ?_, fun a ha => A.mul_sign a a (hx a ha) (hx a ha) (key a ha) (mul_self_nonneg _)⟩
  have := (A.mul a a (hx a ha) (hx a ha) (key a ha)).2
  rw [← pow_two, abs_of_nonneg (sq_nonneg (A.val a))] at this
  rw [pow_one, add_sub_cancel_left]
  exact this

private theorem pow_mul_le {a X c h : ℝ} (ha : 1 ≤ a) (hX : 0 ≤ X) (hc : 0 ≤ c) (h1 : a * X + c ≤ h) : X ≤ h := by
  have : 1 * X ≤ a * X := mul_le_mul_of_nonneg_right ha hX
  linarith

theorem exactSumSquare_nonneg (x : List F) : 0 ≤ exactSumSquare A x :=
  List.sum_nonneg (by
    intro a ha
    obtain ⟨b, _, rfl⟩ := List.mem_map.1 ha
    exact sq_nonneg _)

/-- **C73** `SumSquare`: small relative error, and never negative. -/
theorem C73_sumSquare (hc : c.Valid) (x : List F) (hx : ∀ a ∈ x, A.finite a)
    (hh : (1 + A.u) ^ (x.length + 1) * exactSumSquare A x + x.length * (1 + A.u) ^ x.length * A.tiny ≤ A.huge) :
    ∃ s, sumSquareIn c x = .ok s ∧ A.finite s ∧ 0 ≤ A.val s ∧
      |A.val s - exactSumSquare A x| ≤
        ((1 + A.u) ^ (x.length + 1) - 1) * exactSumSquare A x + x.length * (1 + A.u) ^ x.length * A.tiny := by
  have hu0 := A.u_nonneg
  have ht0 := A.tiny_nonneg
  obtain ⟨t, hp, he⟩ := C10_transformReduce_any_op c.vec c.W hc.width c.red₁ c.red₂ hc.red₁ hc.red₂ (fun a b => a + b)
    (fun a => a * a) x 0 x.length (by omega) 0
  simp only [List.drop_zero, List.take_length] at hp
  have hS : exactSumSquare A x ≤ A.huge := pow_mul_le (one_le_pow₀ (by linarith)) (exactSumSquare_nonneg A x)
    (by positivity) hh
  obtain ⟨a1, a2, a3, a4⟩ := square_terms A x hx hS
  obtain ⟨r1, r2, r3⟩ := terms_rounding A.toFloatArith x (fun a => a * a) (fun a => A.val a ^ 2) (fun a => A.val a ^ 2) 1 t
    hp a1 a2 a3 hh
  exact ⟨_, he, r1, r3 a4, r2⟩

/-- **C73** `MeanSquare`. -/
theorem C73_meanSquare (hc : c.Valid) (hu : A.u < 1) (x : List F) (hx : ∀ a ∈ x, A.finite a) (hne : x ≠ [])
    (hn : (x.length : ℝ) ≤ A.huge)
    (hh : (1 + A.u) ^ (x.length + 1) * exactSumSquare A x + x.length * (1 + A.u) ^ x.length * A.tiny ≤
      (1 - A.u) * A.huge) :
    ∃ s, meanSquareIn c x = .ok s ∧ A.finite s ∧ 0 ≤ A.val s ∧
      |A.val s - exactSumSquare A x / x.length| ≤
        ((1 + A.u) ^ (x.length + 2) / (1 - A.u) - 1) * (exactSumSquare A x / x.length) +
          ((1 + A.u) ^ (x.length + 1) / (1 - A.u) + 1) * A.tiny := by
  have hl : 0 < x.length := List.length_pos_iff.2 hne
  have hl' : (x.length : ℝ) ≠ 0 := by positivity
  have hu0 := A.u_nonneg
  have hh0 : 0 ≤ A.huge := (Nat.cast_nonneg _).trans hn
  have h1u : 1 - A.u ≠ 0 := by linarith
  obtain ⟨s, h1, h2, h4, h3⟩ := C73_sumSquare A c hc x hx (hh.trans (by
    have := mul_nonneg hu0 hh0
    linarith))
  obtain ⟨f, e, g⟩ := div_size_rounding A hu hl hn h2 (abs_of_nonneg (exactSumSquare_nonneg A x)).le h3 hh
  refine ⟨s / FloatFun.ofSize x.length, ?_, f, g h4, e.trans (le_of_eq ?_)⟩
  · rw [meanSquareIn, if_pos (by omega), h1]; rfl
  · field_simp
    ring

/-- **C73** `Norm`. -/
theorem C73_norm (hc : c.Valid) (x : List F) (hx : ∀ a ∈ x, A.finite a)
    (hh : (1 + A.u) ^ (x.length + 1) * exactSumSquare A x + x.length * (1 + A.u) ^ x.length * A.tiny ≤ A.huge) :
    ∃ s, normIn c x = .ok s ∧ A.finite s ∧
      |A.val s - Real.sqrt (exactSumSquare A x)| ≤
        ((1 + A.u) ^ (x.length + 2) - 1) * Real.sqrt (exactSumSquare A x) +
          (1 + A.u) * Real.sqrt (x.length * (1 + A.u) ^ x.length * A.tiny) + A.tiny := by
  have hu0 := A.u_nonneg
  have ht0 := A.tiny_nonneg
  obtain ⟨s, h1, h2, h4, h3⟩ := C73_sumSquare A c hc x hx hh
  obtain ⟨f, e⟩ := sqrt_rounding A h2 h4 (exactSumSquare_nonneg A x) (one_le_pow₀ (by linarith)) (by positivity) h3
  refine ⟨FloatFun.sqrt s, by rw [normIn, h1]; rfl, f, ?_⟩
  rw [pow_succ _ (x.length + 1)]
  exact e

/-- **C73** `RootMeanSquare`. -/
theorem C73_rootMeanSquare (hc : c.Valid) (hu : A.u < 1) (x : List F) (hx : ∀ a ∈ x, A.finite a) (hne : x ≠ [])
    (hn : (x.length : ℝ) ≤ A.huge)
    (hh : (1 + A.u) ^ (x.length + 1) * exactSumSquare A x + x.length * (1 + A.u) ^ x.length * A.tiny ≤
      (1 - A.u) * A.huge) :
    ∃ s, rootMeanSquareIn c x = .ok s ∧ A.finite s ∧
      |A.val s - Real.sqrt (exactSumSquare A x / x.length)| ≤
        ((1 + A.u) ^ (x.length + 3) / (1 - A.u) - 1) * Real.sqrt (exactSumSquare A x / x.length) +
          (1 + A.u) * Real.sqrt (((1 + A.u) ^ (x.length + 1) / (1 - A.u) + 1) * A.tiny) + A.tiny := by
  have hu0 := A.u_nonneg
  have ht0 := A.tiny_nonneg
  have h1u : 0 < 1 - A.u := by linarith
  obtain ⟨s, h1, h2, h4, h3⟩ := C73_meanSquare A c hc hu x hx hne hn hh
  obtain ⟨f, e⟩ := sqrt_rounding A h2 h4 (div_nonneg (exactSumSquare_nonneg A x) (Nat.cast_nonneg _))
    (by
      rw [le_div_iff₀ h1u]
      have := one_le_pow₀ (show (1 : ℝ) ≤ 1 + A.u by linarith) (n := x.length + 2)
      linarith) (by positivity) h3
  refine ⟨FloatFun.sqrt s, by rw [rootMeanSquareIn, h1]; rfl, f, e.trans (le_of_eq ?_)⟩
  rw [pow_succ _ (x.length + 2)]
  ring

/-- **C73** `DotProduct` of equally long signals. -/
theorem C73_dotProduct (hc : c.Valid) (x y : List F) (hxy : x.length = y.length) (hx : ∀ a ∈ x, A.finite a)
    (hy : ∀ a ∈ y, A.finite a)
    (hh : (1 + A.u) ^ (x.length + 1) * (List.zipWith (fun a b => |A.val a * A.val b|) x y).sum +
      x.length * (1 + A.u) ^ x.length * A.tiny ≤ A.huge) :
    ∃ s, dotProduct c.vec c.W c.red₁ c.red₂ (fun a b => a * b) x y = .ok s ∧ A.finite s ∧
      |A.val s - (List.zipWith (fun a b => A.val a * A.val b) x y).sum| ≤
        ((1 + A.u) ^ (x.length + 1) - 1) * (List.zipWith (fun a b => |A.val a * A.val b|) x y).sum +
          x.length * (1 + A.u) ^ x.length * A.tiny := by
  have hu0 := A.u_nonneg
  have ht0 := A.tiny_nonneg
  obtain ⟨t, hp, he⟩ := C10_innerProduct_any_op c.vec c.W hc.width c.red₁ c.red₂ hc.red₁ hc.red₂ (fun a b => a + b)
    (fun a b => a * b) x y 0 x.length 0 (by omega) (by omega) 0
  simp only [List.drop_zero, List.take_length, show y.take x.length = y by rw [hxy, List.take_length]] at hp
  have hz : ∀ {γ : Type} (f : F → F → γ), List.zipWith f x y = (x.zip y).map fun p => f p.1 p.2 := by
    intro γ f
    rw [List.zip, List.map_zipWith]
  have hlen : (x.zip y).length = x.length := by simp [hxy]
  rw [hz] at hp
  rw [hz] at hh
  rw [hz, hz]
  have h0 : 0 ≤ ((x.zip y).map fun p => |A.val p.1 * A.val p.2|).sum := List.sum_nonneg (by
    intro a ha
    obtain ⟨b, _, rfl⟩ := List.mem_map.1 ha
    exact abs_nonneg _)
  have hS := pow_mul_le (one_le_pow₀ (by linarith)) h0 (by positivity) hh
  have key : ∀ p ∈ x.zip y, A.finite p.1 ∧ A.finite p.2 ∧ |A.val p.1 * A.val p.2| ≤ A.huge := by
    intro p hp
    have hm := List.of_mem_zip (a := p.1) (b := p.2) hp
    have := le_sum_of_mem (x.zip y) (fun p => |A.val p.1 * A.val p.2|) (fun i _ => abs_nonneg _) hp
    exact ⟨hx _ hm.1, hy _ hm.2, this.trans hS⟩
  obtain ⟨r1, r2, -⟩ := terms_rounding A.toFloatArith (x.zip y) (fun p => p.1 * p.2) (fun p => A.val p.1 * A.val p.2)
    (fun p => |A.val p.1 * A.val p.2|) 1 t hp (fun p hp => (A.mul _ _ (key p hp).1 (key p hp).2.1 (key p hp).2.2).1)
    (fun p _ => le_rfl) (fun p hp => by
      have := (A.mul _ _ (key p hp).1 (key p hp).2.1 (key p hp).2.2).2
      rw [pow_one, add_sub_cancel_left]
      exact this) (by rw [hlen]; exact hh)
  rw [hlen] at r2
  refine ⟨_, ?_, r1, r2⟩
  rw [dotProduct, cassert_true hxy, Out.ok_bind]
  exact he

theorem exactVarianceAbout_nonneg (x : List F) (m : ℝ) : 0 ≤ exactVarianceAbout A x m :=
  div_nonneg (List.sum_nonneg (by
    intro a ha
    obtain ⟨b, _, rfl⟩ := List.mem_map.1 ha
    exact sq_nonneg _)) (Nat.cast_nonneg _)

private theorem abs_le_of_sq_le {d h : ℝ} (hh : 1 ≤ h) (hd : d ^ 2 ≤ h) : |d| ≤ h := by
  by_cases h1 : |d| ≤ 1
  · linarith
  · push Not at h1
    rw [← sq_abs] at hd
    have := mul_lt_mul_of_pos_left h1 (by linarith : 0 < |d|)
    nlinarith

/-- **C73** variance about a given mean. -/
theorem C73_varianceAbout (hc : c.Valid) (hu : A.u < 1) (x : List F) (hx : ∀ a ∈ x, A.finite a) (hne : x ≠ [])
    (m : F) (hm : A.finite m) (h1h : 1 ≤ A.huge) (hn : (x.length : ℝ) ≤ A.huge)
    (hh : x.length * ((1 + A.u) ^ (x.length + 3) * exactVarianceAbout A x (A.val m) +
      (1 + A.u) ^ x.length * A.tiny) ≤ (1 - A.u) * A.huge) :
    ∃ v, varianceAboutIn c x m = .ok v ∧ A.finite v ∧ 0 ≤ A.val v ∧
      |A.val v - exactVarianceAbout A x (A.val m)| ≤
        ((1 + A.u) ^ (x.length + 4) / (1 - A.u) - 1) * exactVarianceAbout A x (A.val m) +
          ((1 + A.u) ^ (x.length + 1) / (1 - A.u) + 1) * A.tiny := by
  have hu0 := A.u_nonneg
  have ht0 := A.tiny_nonneg
  have hl : 0 < x.length := List.length_pos_iff.2 hne
  have hl' : (x.length : ℝ) ≠ 0 := by positivity
  have h1u : 1 - A.u ≠ 0 := by linarith
  have hgh : (1 - A.u) * A.huge ≤ A.huge := by
    have := mul_nonneg hu0 (show 0 ≤ A.huge by linarith)
    linarith
  obtain ⟨t, hp, he⟩ := C10_transformReduce_any_op c.vec c.W hc.width c.red₁ c.red₂ hc.red₁ hc.red₂ (fun a b => a + b)
    (fun a => let d := a - m; d * d) x 0 x.length (by omega) 0
  simp only [List.drop_zero, List.take_length] at hp
  obtain ⟨Q, hQ⟩ : ∃ Q, Q = (x.map fun a => (A.val a - A.val m) ^ 2).sum := ⟨_, rfl⟩
  have hV : exactVarianceAbout A x (A.val m) = Q / x.length := by rw [hQ]; rfl
  have hQ0 : 0 ≤ Q := by
    have := exactVarianceAbout_nonneg A x (A.val m)
    rw [hV] at this
    have := mul_nonneg this (show (0 : ℝ) ≤ x.length by positivity)
    rwa [div_mul_cancel₀ _ hl'] at this
  rw [hV] at hh ⊢
  have hh' : (1 + A.u) ^ (x.length + 3) * Q + x.length * (1 + A.u) ^ x.length * A.tiny ≤ (1 - A.u) * A.huge := by
    refine le_trans (le_of_eq ?_) hh
    field_simp
  have h2 : (1 + A.u) ^ 2 * Q ≤ A.huge := by
    have h3 : (1 + A.u) ^ 2 ≤ (1 + A.u) ^ (x.length + 3) := pow_le_pow_right₀ (by linarith) (by omega)
    have := mul_le_mul_of_nonneg_right h3 hQ0
    have : 0 ≤ x.length * (1 + A.u) ^ x.length * A.tiny := by positivity
    linarith
  have hsq : ∀ a ∈ x, (1 + A.u) ^ 2 * (A.val a - A.val m) ^ 2 ≤ A.huge := by
    intro a ha
    have := le_sum_of_mem x (fun a => (A.val a - A.val m) ^ 2) (fun i _ => sq_nonneg _) ha
    rw [← hQ] at this
    exact (mul_le_mul_of_nonneg_left this (by positivity)).trans h2
  have hsq' : ∀ a ∈ x, |A.val a - A.val m| ≤ A.huge := by
    intro a ha
    refine abs_le_of_sq_le h1h (le_trans ?_ (hsq a ha))
    exact le_mul_of_one_le_left (sq_nonneg _) (one_le_pow₀ (by linarith))
  have key : ∀ a ∈ x, A.finite ((a - m) * (a - m)) ∧ |A.val ((a - m) * (a - m)) - (A.val a - A.val m) ^ 2| ≤
      ((1 + A.u) ^ 3 - 1) * (A.val a - A.val m) ^ 2 + A.tiny := by
    intro a ha
    have e : |A.val a - A.val m| * |A.val a - A.val m| = (A.val a - A.val m) ^ 2 := by
      rw [← pow_two, sq_abs]
    have := prod_diff_rounding A.toFloatArith (hx a ha) (hx a ha) hm hm (hsq' a ha) (hsq' a ha)
      (by rw [e]; exact hsq a ha)
    rw [e, ← pow_two (A.val a - A.val m)] at this
    exact this
  have sgn : ∀ a ∈ x, 0 ≤ A.val ((a - m) * (a - m)) := by
    intro a ha
    obtain ⟨f1, e1⟩ := A.sub a m (hx a ha) hm (hsq' a ha)
    refine A.mul_sign _ _ f1 f1 ?_ (mul_self_nonneg _)
    have d1 : |A.val (a - m)| ≤ (1 + A.u) * |A.val a - A.val m| := by
      have := abs_add_le (A.val (a - m) - (A.val a - A.val m)) (A.val a - A.val m)
      rw [sub_add_cancel] at this
      linarith
    have := mul_le_mul d1 d1 (abs_nonneg _) (by positivity)
    rw [abs_mul]
    refine this.trans (le_trans (le_of_eq ?_) (hsq a ha))
    rw [← sq_abs (A.val a - A.val m)]
    ring
  obtain ⟨r1, r2, r3⟩ := terms_rounding A.toFloatArith x (fun a => (a - m) * (a - m)) (fun a => (A.val a - A.val m) ^ 2)
    (fun a => (A.val a - A.val m) ^ 2) 3 t hp (fun a ha => (key a ha).1)
    (fun a _ => (abs_of_nonneg (sq_nonneg _)).le) (fun a ha => (key a ha).2) (by rw [← hQ]; linarith)
  rw [← hQ] at r2
  obtain ⟨f, e, g⟩ := div_size_rounding A hu hl hn r1 (abs_of_nonneg hQ0).le r2 hh'
  refine ⟨_ / FloatFun.ofSize x.length, ?_, f, g (r3 sgn), e.trans (le_of_eq ?_)⟩
  · rw [varianceAboutIn, he]; rfl
  · field_simp
    ring

/-- the mean of `(xᵢ - m)²` exceeds the variance by the square of the error of `m` -/
theorem exactVarianceAbout_eq (x : List F) (hne : x ≠ []) (m : ℝ) :
    exactVarianceAbout A x m = exactVariance A x + (m - exactSum A x / x.length) ^ 2 := by
  have hl : (x.length : ℝ) ≠ 0 := by
    have := List.length_pos_iff.2 hne
    positivity
  have key : ∀ (l : List F) (m : ℝ), (l.map fun a => (A.val a - m) ^ 2).sum =
      (l.map fun a => A.val a ^ 2).sum - 2 * m * exactSum A l + l.length * m ^ 2 := by
    intro l m
    unfold exactSum
    induction l with
    | nil => simp
    | cons a l ih => simp only [List.map_cons, List.sum_cons, List.length_cons, ih]; push_cast; ring
  unfold exactVariance exactVarianceAbout
  rw [key, key]
  field_simp
  ring

/-- **C73** `Variance`: relative error `O(n u)`, plus the square of the error of the mean - no cancellation between large
numbers -, and never negative. -/
theorem C73_variance (hc : c.Valid) (hu : A.u < 1) (x : List F) (hx : ∀ a ∈ x, A.finite a) (hne : x ≠ [])
    (h1h : 1 ≤ A.huge) (hn : (x.length : ℝ) ≤ A.huge)
    (hh : (1 + A.u) ^ x.length * exactAbsSum A x ≤ (1 - A.u) * A.huge)
    (hh2 : x.length * ((1 + A.u) ^ (x.length + 3) * (exactVariance A x + meanError A x ^ 2) +
      (1 + A.u) ^ x.length * A.tiny) ≤ (1 - A.u) * A.huge) :
    ∃ v, varianceIn c x = .ok v ∧ A.finite v ∧ 0 ≤ A.val v ∧
      |A.val v - exactVariance A x| ≤
        ((1 + A.u) ^ (x.length + 4) / (1 - A.u) - 1) * exactVariance A x +
          (1 + A.u) ^ (x.length + 4) / (1 - A.u) * meanError A x ^ 2 +
          ((1 + A.u) ^ (x.length + 1) / (1 - A.u) + 1) * A.tiny := by
  have hu0 := A.u_nonneg
  obtain ⟨m, hm1, hm2, hm3⟩ := C73_mean A c hc hu x hx hne hn hh
  have heq := exactVarianceAbout_eq A x hne (A.val m)
  have hE2 : (A.val m - exactSum A x / x.length) ^ 2 ≤ meanError A x ^ 2 := by
    rw [← sq_abs]
    exact pow_le_pow_left₀ (abs_nonneg _) hm3 2
  have h1u : 0 < 1 - A.u := by linarith
  obtain ⟨v, h1, h2, h3, h4⟩ := C73_varianceAbout A c hc hu x hx hne m hm2 h1h hn (by
    refine le_trans ?_ hh2
    refine mul_le_mul_of_nonneg_left ?_ (Nat.cast_nonneg _)
    have := mul_le_mul_of_nonneg_left hE2 (show 0 ≤ (1 + A.u) ^ (x.length + 3) by positivity)
    rw [heq]
    linarith)
  refine ⟨v, by rw [varianceIn, hm1, Out.ok_bind, h1], h2, h3, ?_⟩
  rw [heq] at h4
  have hG : (1 : ℝ) ≤ (1 + A.u) ^ (x.length + 4) / (1 - A.u) := by
    rw [le_div_iff₀ h1u]
    have := one_le_pow₀ (show (1 : ℝ) ≤ 1 + A.u by linarith) (n := x.length + 4)
    linarith
  have h5 := abs_le.1 h4
  have h6 := mul_le_mul_of_nonneg_left hE2 (show 0 ≤ (1 + A.u) ^ (x.length + 4) / (1 - A.u) by linarith)
  have h7 := sq_nonneg (A.val m - exactSum A x / x.length)
  have h8 := mul_le_mul_of_nonneg_left hE2 (show 0 ≤ (1 + A.u) ^ (x.length + 4) / (1 - A.u) - 1 by linarith)
  rw [abs_le]
  constructor <;> linarith

/-- **C73** `StandardDeviation`. -/
theorem C73_standardDeviation (hc : c.Valid) (hu : A.u < 1) (x : List F) (hx : ∀ a ∈ x, A.finite a) (hne : x ≠ [])
    (h1h : 1 ≤ A.huge) (hn : (x.length : ℝ) ≤ A.huge)
    (hh : (1 + A.u) ^ x.length * exactAbsSum A x ≤ (1 - A.u) * A.huge)
    (hh2 : x.length * ((1 + A.u) ^ (x.length + 3) * (exactVariance A x + meanError A x ^ 2) +
      (1 + A.u) ^ x.length * A.tiny) ≤ (1 - A.u) * A.huge) :
    ∃ v, standardDeviationIn c x = .ok v ∧ A.finite v ∧
      |A.val v - Real.sqrt (exactVariance A x)| ≤
        ((1 + A.u) ^ (x.length + 5) / (1 - A.u) - 1) * Real.sqrt (exactVariance A x) +
          (1 + A.u) * Real.sqrt ((1 + A.u) ^ (x.length + 4) / (1 - A.u) * meanError A x ^ 2 +
            ((1 + A.u) ^ (x.length + 1) / (1 - A.u) + 1) * A.tiny) + A.tiny := by
  have hu0 := A.u_nonneg
  have ht0 := A.tiny_nonneg
  have h1u : 0 < 1 - A.u := by linarith
  obtain ⟨v, h1, h2, h3, h4⟩ := C73_variance A c hc hu x hx hne h1h hn hh hh2
  rw [add_assoc] at h4
  have hG : (1 : ℝ) ≤ (1 + A.u) ^ (x.length + 4) / (1 - A.u) := by
    rw [le_div_iff₀ h1u]
    have := one_le_pow₀ (show (1 : ℝ) ≤ 1 + A.u by linarith) (n := x.length + 4)
    linarith
  obtain ⟨f, e⟩ := sqrt_rounding A h2 h3 (show 0 ≤ exactVariance A x from exactVarianceAbout_nonneg A x _) hG
    (by positivity) h4
  refine ⟨FloatFun.sqrt v, by rw [standardDeviationIn, h1]; rfl, f, e.trans (le_of_eq ?_)⟩
  rw [pow_succ _ (x.length + 4)]
  ring

/-- **C73** `Covariance` about given means. -/
theorem C73_covarianceAbout (hc : c.Valid) (hu : A.u < 1) (x y : List F) (hxy : x.length = y.length)
    (hx : ∀ a ∈ x, A.finite a) (hy : ∀ a ∈ y, A.finite a) (hne : x ≠ [])
    (p q : F) (hp : A.finite p) (hq : A.finite q)
    (hx2 : ∀ a ∈ x, |A.val a - A.val p| ≤ A.huge) (hy2 : ∀ b ∈ y, |A.val b - A.val q| ≤ A.huge)
    (hn : (x.length : ℝ) ≤ A.huge)
    (hh : (1 + A.u) ^ (x.length + 3) *
        (List.zipWith (fun a b => |A.val a - A.val p| * |A.val b - A.val q|) x y).sum +
      x.length * (1 + A.u) ^ x.length * A.tiny ≤ (1 - A.u) * A.huge) :
    ∃ v, covarianceAboutIn c x y p q = .ok v ∧ A.finite v ∧
      |A.val v - (List.zipWith (fun a b => (A.val a - A.val p) * (A.val b - A.val q)) x y).sum / x.length| ≤
        ((1 + A.u) ^ (x.length + 4) / (1 - A.u) - 1) *
          ((List.zipWith (fun a b => |A.val a - A.val p| * |A.val b - A.val q|) x y).sum / x.length) +
          ((1 + A.u) ^ (x.length + 1) / (1 - A.u) + 1) * A.tiny := by
  have hu0 := A.u_nonneg
  have ht0 := A.tiny_nonneg
  have hl : 0 < x.length := List.length_pos_iff.2 hne
  have hl' : (x.length : ℝ) ≠ 0 := by positivity
  have h1u : 1 - A.u ≠ 0 := by linarith
  have hgh : (1 - A.u) * A.huge ≤ A.huge := by
    have := mul_nonneg hu0 (show 0 ≤ A.huge from (Nat.cast_nonneg _).trans hn)
    linarith
  obtain ⟨t, hpm, he⟩ := C10_innerProduct_any_op c.vec c.W hc.width c.red₁ c.red₂ hc.red₁ hc.red₂ (fun a b => a + b)
    (fun a b => (a - p) * (b - q)) x y 0 x.length 0 (by omega) (by omega) 0
  simp only [List.drop_zero, List.take_length, show y.take x.length = y by rw [hxy, List.take_length]] at hpm
  have hz : ∀ {γ : Type} (f : F → F → γ), List.zipWith f x y = (x.zip y).map fun p => f p.1 p.2 := by
    intro γ f
    rw [List.zip, List.map_zipWith]
  have hlen : (x.zip y).length = x.length := by simp [hxy]
  rw [hz] at hpm
  rw [hz] at hh
  rw [hz, hz]
  obtain ⟨Q, hQ⟩ : ∃ Q, Q = ((x.zip y).map fun r => |A.val r.1 - A.val p| * |A.val r.2 - A.val q|).sum := ⟨_, rfl⟩
  have hQ0 : 0 ≤ Q := by
    rw [hQ]
    refine List.sum_nonneg ?_
    intro a ha
    obtain ⟨b, _, rfl⟩ := List.mem_map.1 ha
    positivity
  rw [← hQ] at hh ⊢
  have h2 : (1 + A.u) ^ 2 * Q ≤ A.huge := by
    have h3 : (1 + A.u) ^ 2 ≤ (1 + A.u) ^ (x.length + 3) := pow_le_pow_right₀ (by linarith) (by omega)
    have := mul_le_mul_of_nonneg_right h3 hQ0
    have : 0 ≤ x.length * (1 + A.u) ^ x.length * A.tiny := by positivity
    linarith
  have key : ∀ r ∈ x.zip y, A.finite ((r.1 - p) * (r.2 - q)) ∧
      |A.val ((r.1 - p) * (r.2 - q)) - (A.val r.1 - A.val p) * (A.val r.2 - A.val q)| ≤
      ((1 + A.u) ^ 3 - 1) * (|A.val r.1 - A.val p| * |A.val r.2 - A.val q|) + A.tiny := by
    intro r hr
    have hm := List.of_mem_zip (a := r.1) (b := r.2) hr
    refine prod_diff_rounding A.toFloatArith (hx _ hm.1) (hy _ hm.2) hp hq (hx2 _ hm.1) (hy2 _ hm.2) ?_
    have := le_sum_of_mem (x.zip y) (fun r => |A.val r.1 - A.val p| * |A.val r.2 - A.val q|)
      (fun i _ => by positivity) hr
    rw [← hQ] at this
    exact (mul_le_mul_of_nonneg_left this (by positivity)).trans h2
  obtain ⟨r1, r2, -⟩ := terms_rounding A.toFloatArith (x.zip y) (fun r => (r.1 - p) * (r.2 - q))
    (fun r => (A.val r.1 - A.val p) * (A.val r.2 - A.val q))
    (fun r => |A.val r.1 - A.val p| * |A.val r.2 - A.val q|) 3 t hpm (fun a ha => (key a ha).1)
    (fun a _ => (abs_mul _ _).le) (fun a ha => (key a ha).2) (by rw [← hQ, hlen]; linarith)
  rw [← hQ, hlen] at r2
  have hle : |((x.zip y).map fun r => (A.val r.1 - A.val p) * (A.val r.2 - A.val q)).sum| ≤ Q := by
    rw [hQ]
    refine (abs_sum_map_le _ _).trans (le_of_eq ?_)
    simp only [abs_mul]
  obtain ⟨f, e, -⟩ := div_size_rounding A hu hl hn r1 hle r2 hh
  refine ⟨_ / FloatFun.ofSize x.length, ?_, f, e.trans (le_of_eq ?_)⟩
  · rw [covarianceAboutIn, cassert_true hxy, Out.ok_bind, he]; rfl
  · field_simp
    ring

private theorem zip_sum_le {f g : F → F → ℝ} {x y : List F} (h : ∀ a ∈ x, ∀ b ∈ y, f a b ≤ g a b) :
    (List.zipWith f x y).sum ≤ (List.zipWith g x y).sum := by
  induction x generalizing y with
  | nil => simp
  | cons a x ih =>
    cases y with
    | nil => simp
    | cons b y =>
      simp only [List.zipWith_cons_cons, List.sum_cons]
      have h1 := h a (by simp) b (by simp)
      have h2 := ih (y := y) (fun a ha b hb => h a (by simp [ha]) b (by simp [hb]))
      linarith

private theorem zip_cov (x y : List F) (hxy : x.length = y.length) (p q : ℝ) :
    (List.zipWith (fun a b => (A.val a - p) * (A.val b - q)) x y).sum =
      (List.zipWith (fun a b => A.val a * A.val b) x y).sum - p * exactSum A y - q * exactSum A x + x.length * (p * q) := by
  unfold exactSum
  induction x generalizing y with
  | nil =>
    have : y = [] := List.length_eq_zero_iff.mp hxy.symm
    subst this
    simp
  | cons a x ih =>
    cases y with
    | nil => simp at hxy
    | cons b y =>
      simp only [List.zipWith_cons_cons, List.sum_cons, List.map_cons, List.length_cons]
      rw [ih y (by simpa using hxy)]
      push_cast
      ring

/-- **C73** `Covariance`: the error is small compared to the spread of the signals, plus the product of the errors of the two means; the
signals' offsets do not matter otherwise. -/
theorem C73_covariance (hc : c.Valid) (hu : A.u < 1) (x y : List F) (hxy : x.length = y.length)
    (hx : ∀ a ∈ x, A.finite a) (hy : ∀ a ∈ y, A.finite a) (hne : x ≠ []) (hn : (x.length : ℝ) ≤ A.huge)
    (hhx : (1 + A.u) ^ x.length * exactAbsSum A x ≤ (1 - A.u) * A.huge)
    (hhy : (1 + A.u) ^ y.length * exactAbsSum A y ≤ (1 - A.u) * A.huge)
    (hx2 : ∀ a ∈ x, |A.val a - exactSum A x / x.length| + meanError A x ≤ A.huge)
    (hy2 : ∀ b ∈ y, |A.val b - exactSum A y / y.length| + meanError A y ≤ A.huge)
    (hh : x.length * ((1 + A.u) ^ (x.length + 3) * spread A x y + (1 + A.u) ^ x.length * A.tiny) ≤ (1 - A.u) * A.huge) :
    ∃ v, covarianceIn c x y = .ok v ∧ A.finite v ∧
      |A.val v - exactCovariance A x y| ≤
        ((1 + A.u) ^ (x.length + 4) / (1 - A.u) - 1) * spread A x y + meanError A x * meanError A y +
          ((1 + A.u) ^ (x.length + 1) / (1 - A.u) + 1) * A.tiny := by
  have hu0 := A.u_nonneg
  have h1u : 0 < 1 - A.u := by linarith
  have hlen := List.length_pos_iff.2 hne
  have hl : (0 : ℝ) < x.length := by exact_mod_cast hlen
  have hney : y ≠ [] := by rintro rfl; simp at hxy; exact hne hxy
  obtain ⟨p, hp1, hp2, hp3⟩ := C73_mean A c hc hu x hx hne hn hhx
  obtain ⟨q, hq1, hq2, hq3⟩ := C73_mean A c hc hu y hy hney (by rw [← hxy]; exact hn) hhy
  have tri : ∀ a m e E : ℝ, |m - e| ≤ E → |a - m| ≤ |a - e| + E := by
    intro a m e E h
    have h0 := abs_sub_le a e m
    rw [abs_sub_comm e m] at h0
    linarith
  have hs : (List.zipWith (fun a b => |A.val a - A.val p| * |A.val b - A.val q|) x y).sum ≤ x.length * spread A x y := by
    have := zip_sum_le (x := x) (y := y) (f := fun a b => |A.val a - A.val p| * |A.val b - A.val q|)
      (g := fun a b => (|A.val a - exactSum A x / x.length| + meanError A x) * (|A.val b - exactSum A y / y.length| + meanError A y))
      (fun a ha b hb => mul_le_mul (tri _ _ _ _ hp3) (tri _ _ _ _ hq3) (abs_nonneg _)
        ((abs_nonneg _).trans (tri (A.val a) _ _ _ hp3)))
    unfold spread
    rw [mul_div_cancel₀ _ hl.ne']
    exact this
  obtain ⟨v, h1, h2, h3⟩ := C73_covarianceAbout A c hc hu x y hxy hx hy hne p q hp2 hq2
    (fun a ha => (tri _ _ _ _ hp3).trans (hx2 a ha)) (fun b hb => (tri _ _ _ _ hq3).trans (hy2 b hb)) hn (by
      refine le_trans ?_ hh
      have := mul_le_mul_of_nonneg_left hs (show 0 ≤ (1 + A.u) ^ (x.length + 3) by positivity)
      linarith)
  refine ⟨v, by rw [covarianceIn, hp1, hq1, Out.ok_bind, Out.ok_bind, h1], h2, ?_⟩
  have hcov : (List.zipWith (fun a b => (A.val a - A.val p) * (A.val b - A.val q)) x y).sum / x.length =
      exactCovariance A x y + (A.val p - exactSum A x / x.length) * (A.val q - exactSum A y / y.length) := by
    unfold exactCovariance
    rw [zip_cov A x y hxy, zip_cov A x y hxy]
    have hy' : (y.length : ℝ) = x.length := by rw [hxy]
    rw [hy']
    field_simp
    ring
  rw [hcov] at h3
  have hprod : |(A.val p - exactSum A x / x.length) * (A.val q - exactSum A y / y.length)| ≤ meanError A x * meanError A y := by
    rw [abs_mul]
    exact mul_le_mul hp3 hq3 (abs_nonneg _) ((abs_nonneg _).trans hp3)
  have hG : (1 : ℝ) ≤ (1 + A.u) ^ (x.length + 4) / (1 - A.u) := by
    rw [le_div_iff₀ h1u]
    have := one_le_pow₀ (show (1 : ℝ) ≤ 1 + A.u by linarith) (n := x.length + 4)
    linarith
  have hs2 : (List.zipWith (fun a b => |A.val a - A.val p| * |A.val b - A.val q|) x y).sum / x.length ≤ spread A x y := by
    rw [div_le_iff₀ hl]
    linarith
  have h6 := mul_le_mul_of_nonneg_left hs2 (show 0 ≤ (1 + A.u) ^ (x.length + 4) / (1 - A.u) - 1 by linarith)
  have h7 := abs_le.1 h3
  have h8 := abs_le.1 hprod
  rw [abs_le]
  constructor <;> linarith

end props

/-! ### the hypotheses hold for `float` -/

section example_float

/-- the integer `k` as a `float` -/
noncomputable def floatOfInt (k : ℤ) : Bin 24 (-149) := .num k ⟨k * 2 ^ 149, by
  push_cast
  rw [mul_assoc]
  norm_num⟩

/-- such machines exist -/
example : KernOf.Valid (F := Bin 24 (-149))
    ⟨true, 8, fun op init l => l.foldl op init, fun op init l => l.foldl op init⟩ :=
  ⟨by norm_num, isReduction_foldl, isReduction_foldl⟩

/-- the variance of 1, 2, 3, 4 in `float`, vectorised, is 1.25 up to a millionth and a half -/
example (c : KernOf (Bin 24 (-149))) (hc : c.Valid) :
    ∃ v, varianceIn c [floatOfInt 1, floatOfInt 2, floatOfInt 3, floatOfInt 4] = .ok v ∧ 0 ≤ v.val ∧
      |v.val - 5 / 4| ≤ 3 / 2000000 := by
  obtain ⟨A, hA⟩ : ∃ A, A = Bin.arithFun 24 (-149) (by norm_num) (by norm_num) := ⟨_, rfl⟩
  have hu : A.u = 2 ^ (-(24 : ℤ)) := by rw [hA]; rfl
  have ht : A.tiny = 2 ^ (-150 : ℤ) := by rw [hA]; change (2 : ℝ) ^ ((-149 : ℤ) - 1) = _; norm_num
  have hh : A.huge = 2 ^ 126 := by rw [hA]; rfl
  have hv : ∀ k : ℤ, A.val (floatOfInt k) = k := by intro k; rw [hA]; rfl
  obtain ⟨x, hx⟩ : ∃ x, x = [floatOfInt 1, floatOfInt 2, floatOfInt 3, floatOfInt 4] := ⟨_, rfl⟩
  have hl : x.length = 4 := by rw [hx]; rfl
  have h1 : exactAbsSum A x = 10 := by
    rw [hx]; simp only [exactAbsSum, List.map_cons, hv, List.map_nil, List.sum_cons, List.sum_nil]; norm_num
  have h2 : exactSum A x = 10 := by
    rw [hx]; simp only [exactSum, List.map_cons, hv, List.map_nil, List.sum_cons, List.sum_nil]; norm_num
  have h3 : exactVariance A x = 5 / 4 := by
    rw [exactVariance, h2, hl, exactVarianceAbout, hl, hx]
    simp only [List.map_cons, hv, List.map_nil, List.sum_cons, List.sum_nil]
    norm_num
  obtain ⟨v, e1, -, e2, e3⟩ := C73_variance A c hc (by rw [hu]; norm_num) x (by
      intro a ha
      rw [hx] at ha
      have hfin : ∀ k : ℤ, |(k : ℝ)| ≤ 2 ^ 128 → A.finite (floatOfInt k) := by
        intro k hk
        rw [hA]
        exact hk
      simp only [List.mem_cons, List.not_mem_nil, or_false] at ha
      rcases ha with rfl | rfl | rfl | rfl <;> exact hfin _ (by norm_num)) (by rw [hx]; simp)
    (by rw [hh]; norm_num) (by rw [hl, hh]; norm_num) (by rw [hl, h1, hh, hu]; norm_num)
    (by rw [meanError, hl, h1, h3, hh, hu, ht]; norm_num)
  rw [h3, meanError, hl, h1, hu, ht] at e3
  have e4 : A.val v = v.val := by rw [hA]; rfl
  rw [e4] at e2 e3
  refine ⟨v, by rw [← hx]; exact e1, e2, e3.trans ?_⟩
  norm_num

/-- the covariance of 1, 2, 3 and 6, 4, 2 in `float` is -4/3 up to a hundred-thousandth -/
example (c : KernOf (Bin 24 (-149))) (hc : c.Valid) :
    ∃ v, covarianceIn c [floatOfInt 1, floatOfInt 2, floatOfInt 3] [floatOfInt 6, floatOfInt 4, floatOfInt 2] = .ok v ∧
      |v.val + 4 / 3| ≤ 1 / 100000 := by
  obtain ⟨A, hA⟩ : ∃ A, A = Bin.arithFun 24 (-149) (by norm_num) (by norm_num) := ⟨_, rfl⟩
  have hu : A.u = 2 ^ (-(24 : ℤ)) := by rw [hA]; rfl
  have ht : A.tiny = 2 ^ (-150 : ℤ) := by rw [hA]; change (2 : ℝ) ^ ((-149 : ℤ) - 1) = _; norm_num
  have hh : A.huge = 2 ^ 126 := by rw [hA]; rfl
  have hv : ∀ k : ℤ, A.val (floatOfInt k) = k := by intro k; rw [hA]; rfl
  have hfin : ∀ k : ℤ, |(k : ℝ)| ≤ 2 ^ 128 → A.finite (floatOfInt k) := by
    intro k hk
    rw [hA]
    exact hk
  obtain ⟨x, hx⟩ : ∃ x, x = [floatOfInt 1, floatOfInt 2, floatOfInt 3] := ⟨_, rfl⟩
  obtain ⟨y, hy⟩ : ∃ y, y = [floatOfInt 6, floatOfInt 4, floatOfInt 2] := ⟨_, rfl⟩
  have hl : x.length = 3 := by rw [hx]; rfl
  have hl' : y.length = 3 := by rw [hy]; rfl
  have h1 : exactAbsSum A x = 6 := by
    rw [hx]; simp only [exactAbsSum, List.map_cons, hv, List.map_nil, List.sum_cons, List.sum_nil]; norm_num
  have h1' : exactAbsSum A y = 12 := by
    rw [hy]; simp only [exactAbsSum, List.map_cons, hv, List.map_nil, List.sum_cons, List.sum_nil]; norm_num
  have h2 : exactSum A x = 6 := by
    rw [hx]; simp only [exactSum, List.map_cons, hv, List.map_nil, List.sum_cons, List.sum_nil]; norm_num
  have h2' : exactSum A y = 12 := by
    rw [hy]; simp only [exactSum, List.map_cons, hv, List.map_nil, List.sum_cons, List.sum_nil]; norm_num
  have h3 : exactCovariance A x y = -4 / 3 := by
    rw [exactCovariance, h2, h2', hl, hl', hx, hy]
    simp only [List.zipWith_cons_cons, List.zipWith_nil_left, hv, List.sum_cons, List.sum_nil]
    norm_num
  have h4 : spread A x y = ((1 + meanError A x) * (2 + meanError A y) + meanError A x * meanError A y +
      (1 + meanError A x) * (2 + meanError A y)) / 3 := by
    rw [spread, h2, h2', hl, hl']
    rw [show (List.zipWith (fun a b => (|A.val a - 6 / ((3 : ℕ) : ℝ)| + meanError A x) *
        (|A.val b - 12 / ((3 : ℕ) : ℝ)| + meanError A y)) x y) = [(1 + meanError A x) * (2 + meanError A y),
        meanError A x * meanError A y, (1 + meanError A x) * (2 + meanError A y)] by
      generalize meanError A x = ea
      generalize meanError A y = eb
      rw [hx, hy]
      simp only [List.zipWith_cons_cons, List.zipWith_nil_left, hv]
      norm_num]
    simp only [List.sum_cons, List.sum_nil]
    norm_num
    ring
  have h5 : meanError A x = ((1 + (2 : ℝ) ^ (-(24 : ℤ))) ^ 4 / (1 - (2 : ℝ) ^ (-(24 : ℤ))) - 1) * 2 + 2 ^ (-150 : ℤ) := by
    rw [meanError, hl, h1, hu, ht]; norm_num
  have h5' : meanError A y = ((1 + (2 : ℝ) ^ (-(24 : ℤ))) ^ 4 / (1 - (2 : ℝ) ^ (-(24 : ℤ))) - 1) * 4 + 2 ^ (-150 : ℤ) := by
    rw [meanError, hl', h1', hu, ht]; norm_num
  obtain ⟨v, e1, -, e3⟩ := C73_covariance A c hc (by rw [hu]; norm_num) x y (by rw [hl, hl']) (by
      intro a ha
      rw [hx] at ha
      simp only [List.mem_cons, List.not_mem_nil, or_false] at ha
      rcases ha with rfl | rfl | rfl <;> exact hfin _ (by norm_num)) (by
      intro a ha
      rw [hy] at ha
      simp only [List.mem_cons, List.not_mem_nil, or_false] at ha
      rcases ha with rfl | rfl | rfl <;> exact hfin _ (by norm_num)) (by rw [hx]; simp)
    (by rw [hl, hh]; norm_num) (by rw [hl, h1, hh, hu]; norm_num) (by rw [hl', h1', hh, hu]; norm_num) (by
      intro a ha
      rw [h2, hl, h5, hh]
      rw [hx] at ha
      simp only [List.mem_cons, List.not_mem_nil, or_false] at ha
      rcases ha with rfl | rfl | rfl <;> rw [hv] <;> norm_num) (by
      intro a ha
      rw [h2', hl', h5', hh]
      rw [hy] at ha
      simp only [List.mem_cons, List.not_mem_nil, or_false] at ha
      rcases ha with rfl | rfl | rfl <;> rw [hv] <;> norm_num)
    (by rw [h4, h5, h5', hl, hh, hu, ht]; norm_num)
  rw [h3, h4, h5, h5', hl, hu, ht] at e3
  have e4 : A.val v = v.val := by rw [hA]; rfl
  rw [e4] at e3
  refine ⟨v, by rw [← hx, ← hy]; exact e1, ?_⟩
  rw [show v.val + 4 / 3 = v.val - -4 / 3 by ring]
  refine e3.trans ?_
  norm_num

end example_float

end Verif
