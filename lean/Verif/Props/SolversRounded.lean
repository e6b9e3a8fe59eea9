import Verif.Props.Solvers

/-!
# C58, continued: the accuracy of bisection with rounding
-/

set_option linter.unusedSimpArgs false
set_option linter.unusedVariables false
set_option linter.unusedSectionVars false

namespace Verif

/-- On the interval from `lo` to `hi`, midpoints and distances are computed with an absolute error of at most `δ`. -/
structure BisectArith.Accurate (A : BisectArith ℝ) (lo hi δ : ℝ) : Prop where
  mid : ∀ x ∈ Set.uIcc lo hi, ∀ y ∈ Set.uIcc lo hi, |A.mid x y - (x + y) / 2| ≤ δ
  dist : ∀ x ∈ Set.uIcc lo hi, ∀ y ∈ Set.uIcc lo hi, |A.dist x y - (|y - x|)| ≤ δ

theorem BisectArith.Accurate.nonneg {A : BisectArith ℝ} {lo hi δ : ℝ} (h : A.Accurate lo hi δ) : 0 ≤ δ :=
  (abs_nonneg _).trans (h.mid lo Set.left_mem_uIcc lo Set.left_mem_uIcc)

/-- one turn roughly halves the interval -/
theorem bisectStep_width {A : BisectArith ℝ} {lo hi δ : ℝ} (hδ : A.Accurate lo hi δ) (func : ℝ → ℝ) {s : BisectState ℝ}
    (ha : s.a ∈ Set.uIcc lo hi) (hb : s.b ∈ Set.uIcc lo hi) (hc : s.c = A.mid s.a s.b) :
    |(bisectStep A func s).b - (bisectStep A func s).a| ≤ |s.b - s.a| / 2 + δ := by
  have hm := hδ.mid s.a ha s.b hb
  rw [← hc] at hm
  have e : |s.b - s.a| / 2 = |(s.b - s.a) / 2| := by rw [abs_div, abs_of_pos (by norm_num : (0 : ℝ) < 2)]
  rw [e]
  simp only [bisectStep]
  split
  · calc |s.c - s.a| = |(s.b - s.a) / 2 + (s.c - (s.a + s.b) / 2)| := by congr 1; ring
      _ ≤ _ := (abs_add_le _ _).trans (by linarith)
  · calc |s.b - s.c| = |(s.b - s.a) / 2 - (s.c - (s.a + s.b) / 2)| := by congr 1; ring
      _ ≤ _ := (abs_sub _ _).trans (by linarith)

/-- What `Bisect` returns is the midpoint of a bracketing interval no point of which is further from it than half the tolerance plus three
roundings. -/
theorem C58_rounded_core {A : BisectArith ℝ} (hA : A.Between) {a b δ : ℝ} (hδ : A.Accurate a b δ) (fuel : ℕ) (func : ℝ → ℝ)
    {tolerance r : ℝ} (ht : 0 ≤ tolerance) (htop : |b - a| / 2 + 2 * δ < A.top) (h : bisect A fuel func a b tolerance = .ok r) :
    ∃ a' b', Brackets func a b a' b' ∧ r ∈ Set.uIcc a' b' ∧ ∀ w ∈ Set.uIcc a' b', |r - w| ≤ tolerance / 2 + 3 * δ := by
  simp only [bisect, Out.bind_eq_ok, Out.pure_def, Out.ok.injEq] at h
  obtain ⟨s, hs, rfl⟩ := h
  have h0 : Brackets func a b a b :=
    ⟨⟨⟨min_le_left _ _, le_max_left _ _⟩, ⟨min_le_right _ _, le_max_right _ _⟩⟩, id⟩
  have hd0 := hδ.nonneg
  -- the width known from the previous turn
  let Inv : BisectState ℝ → Prop := fun s => Brackets func a b s.a s.b ∧ s.c = A.mid s.a s.b ∧ s.err = A.dist s.a s.b ∧
    ∃ w : ℝ, |s.b - s.a| ≤ w / 2 + δ ∧ (w - δ ≤ s.errPrev ∨ w / 2 + 2 * δ < s.errPrev)
  have hstep : ∀ s, Inv s → Inv (bisectStep A func s) := by
    rintro s ⟨h1, h2, h3, w, h4, h5⟩
    obtain ⟨g1, g2⟩ := bisectStep_brackets hA func s h1 h2
    refine ⟨g1, g2, rfl, |s.b - s.a|, bisectStep_width hδ func h1.inside.1 h1.inside.2 h2, Or.inl ?_⟩
    have := hδ.dist s.a h1.inside.1 s.b h1.inside.2
    rw [← h3, abs_le] at this
    show |s.b - s.a| - δ ≤ s.err
    linarith [this.1]
  have key : ∀ (n : ℕ) (s s' : BisectState ℝ), Inv s →
      whileN n (bisectCond tolerance) (fun s => .ok (bisectStep A func s)) s = .ok s' → Inv s' ∧ bisectCond tolerance s' = false := by
    intro n
    induction n with
    | zero => intro s s' _ h; simp [whileN] at h
    | succ n ih =>
      intro s s' h1 h3
      unfold whileN at h3
      split at h3
      · exact ih _ _ (hstep s h1) h3
      · rename_i hc
        simp at h3; subst h3; exact ⟨h1, by simpa using hc⟩
  have hfirst : Inv (bisectStep A func ⟨a, b, A.mid a b, A.top, A.top⟩) := by
    obtain ⟨g1, g2⟩ := bisectStep_brackets hA func ⟨a, b, A.mid a b, A.top, A.top⟩ h0 rfl
    exact ⟨g1, g2, rfl, |b - a|, bisectStep_width hδ func (s := ⟨a, b, A.mid a b, A.top, A.top⟩) Set.left_mem_uIcc Set.right_mem_uIcc rfl,
      Or.inr htop⟩
  obtain ⟨⟨k1, k2, k3, w, k4, k5⟩, kc⟩ := key fuel _ _ hfirst hs
  have hdist := hδ.dist s.a k1.inside.1 s.b k1.inside.2
  rw [← k3, abs_le] at hdist
  have hwidth : |s.b - s.a| ≤ tolerance + 4 * δ := by
    simp only [bisectCond, Bool.and_eq_false_iff, decide_eq_false_iff_not, not_lt] at kc
    rcases kc with kc | kc
    · linarith [hdist.1]
    · rcases k5 with k5 | k5 <;> linarith [hdist.1, hdist.2]
  have hin : s.c ∈ Set.uIcc s.a s.b := by
    have := hA s.a s.b
    rw [← k2] at this
    exact this
  refine ⟨s.a, s.b, k1, hin, fun w hw => ?_⟩
  have hm := hδ.mid s.a k1.inside.1 s.b k1.inside.2
  rw [← k2, abs_le] at hm
  rcases Set.mem_uIcc.mp hw with ⟨q1, q2⟩ | ⟨q1, q2⟩ <;> rw [abs_le] at hwidth ⊢ <;>
    constructor <;> linarith [hwidth.1, hwidth.2, hm.1, hm.2]

/-- a bracketed continuous function has a root in the bracket -/
theorem Brackets.root {func : ℝ → ℝ} {a b a' b' : ℝ} (h : Brackets func a b a' b') (hcont : ContinuousOn func (Set.uIcc a b))
    (hsign : func a * func b ≤ 0) : ∃ z ∈ Set.uIcc a' b', z ∈ Set.uIcc a b ∧ func z = 0 := by
  have hsub : Set.uIcc a' b' ⊆ Set.uIcc a b := Set.uIcc_subset_uIcc h.inside.1 h.inside.2
  have hz : (0 : ℝ) ∈ Set.uIcc (func a') (func b') := by
    rcases mul_nonpos_iff.mp (h.signChange hsign) with ⟨p, q⟩ | ⟨p, q⟩
    · exact Set.mem_uIcc.mpr (Or.inr ⟨q, p⟩)
    · exact Set.mem_uIcc.mpr (Or.inl ⟨p, q⟩)
  obtain ⟨z, hz1, hz2⟩ := intermediate_value_uIcc (hcont.mono hsub) hz
  exact ⟨z, hz1, hsub hz1, hz2⟩

/-- `Bisect` in rounded arithmetic: for a continuous function with a sign change between the ends, the result is within half the tolerance
plus three roundings of a root.  The default tolerance is zero: the accuracy is then that of the arithmetic. -/
theorem C58_rounded_root {A : BisectArith ℝ} (hA : A.Between) {a b δ : ℝ} (hδ : A.Accurate a b δ) (fuel : ℕ) (func : ℝ → ℝ)
    {tolerance r : ℝ} (ht : 0 ≤ tolerance) (htop : |b - a| / 2 + 2 * δ < A.top) (hcont : ContinuousOn func (Set.uIcc a b))
    (hsign : func a * func b ≤ 0) (h : bisect A fuel func a b tolerance = .ok r) :
    ∃ z ∈ Set.uIcc a b, func z = 0 ∧ |r - z| ≤ tolerance / 2 + 3 * δ := by
  obtain ⟨a', b', h1, h2, h3⟩ := C58_rounded_core hA hδ fuel func ht htop h
  obtain ⟨z, hz1, hz2, hz3⟩ := h1.root hcont hsign
  exact ⟨z, hz2, hz3, h3 z hz1⟩

/-- The same for a function that is itself evaluated inexactly and need not be continuous, if only its sign is right further than `ε` from
a point `z`: negative on one side, positive on the other. -/
theorem C58_noisy_root {A : BisectArith ℝ} (hA : A.Between) {a b δ : ℝ} (hδ : A.Accurate a b δ) (fuel : ℕ) (func : ℝ → ℝ)
    {tolerance r z ε σ : ℝ} (ht : 0 ≤ tolerance) (hε : 0 ≤ ε) (htop : |b - a| / 2 + 2 * δ < A.top) (hz : z ∈ Set.uIcc a b)
    (hbelow : ∀ x ∈ Set.uIcc a b, x < z - ε → σ * func x < 0) (habove : ∀ x ∈ Set.uIcc a b, z + ε < x → 0 < σ * func x)
    (hsign : func a * func b ≤ 0) (h : bisect A fuel func a b tolerance = .ok r) :
    |r - z| ≤ ε + tolerance / 2 + 3 * δ := by
  obtain ⟨a', b', h1, h2, h3⟩ := C58_rounded_core hA hδ fuel func ht htop h
  have hs := h1.signChange hsign
  have hin := h1.inside
  have hσ : σ * func a' * (σ * func b') = σ ^ 2 * (func a' * func b') := by ring
  have hle : σ * func a' * (σ * func b') ≤ 0 := by rw [hσ]; exact mul_nonpos_of_nonneg_of_nonpos (sq_nonneg _) hs
  have hno1 : ¬ (a' < z - ε ∧ b' < z - ε) := fun ⟨p, q⟩ =>
    absurd hle (not_le.mpr (mul_pos_of_neg_of_neg (hbelow a' hin.1 p) (hbelow b' hin.2 q)))
  have hno2 : ¬ (z + ε < a' ∧ z + ε < b') := fun ⟨p, q⟩ =>
    absurd hle (not_le.mpr (mul_pos (habove a' hin.1 p) (habove b' hin.2 q)))
  -- some point of the bracket is within `ε` of `z`
  obtain ⟨w, hw1, hw2⟩ : ∃ w ∈ Set.uIcc a' b', |w - z| ≤ ε := by
    by_cases p : |a' - z| ≤ ε
    · exact ⟨a', Set.left_mem_uIcc, p⟩
    by_cases q : |b' - z| ≤ ε
    · exact ⟨b', Set.right_mem_uIcc, q⟩
    refine ⟨z, ?_, by simpa using hε⟩
    rw [abs_le, not_and_or, not_le, not_le] at p q
    rw [Set.mem_uIcc]
    rcases p with p | p <;> rcases q with q | q
    · exact absurd ⟨by linarith, by linarith⟩ hno1
    · exact Or.inl ⟨by linarith, by linarith⟩
    · exact Or.inr ⟨by linarith, by linarith⟩
    · exact absurd ⟨by linarith, by linarith⟩ hno2
  have := h3 w hw1
  calc |r - z| = |(r - w) + (w - z)| := by congr 1; ring
    _ ≤ |r - w| + |w - z| := abs_add_le _ _
    _ ≤ _ := by linarith

/-- arithmetic on a grid: results are rounded down to multiples of `1 / 64` (the midpoint never below its arguments), distances saturate
at 1000 -/
noncomputable def gridArith : BisectArith ℝ :=
  ⟨fun a b => max (min a b) (⌊(a + b) / 2 * 64⌋ / 64), fun a b => min 1000 (⌊|b - a| * 64⌋ / 64), 2000⟩

theorem gridArith_between : gridArith.Between := by
  intro a b
  refine ⟨le_max_left _ _, max_le min_le_max ?_⟩
  have h1 : (⌊(a + b) / 2 * 64⌋ : ℝ) ≤ (a + b) / 2 * 64 := Int.floor_le _
  have h2 := le_max_left a b
  have h3 := le_max_right a b
  linarith

theorem gridArith_accurate {lo hi : ℝ} (h : |hi - lo| ≤ 1000) : gridArith.Accurate lo hi (1 / 64) := by
  constructor
  · intro x _ y _
    have h1 : (⌊(x + y) / 2 * 64⌋ : ℝ) ≤ (x + y) / 2 * 64 := Int.floor_le _
    have h2 : (x + y) / 2 * 64 < ⌊(x + y) / 2 * 64⌋ + 1 := Int.lt_floor_add_one _
    have h3 := min_le_left x y
    have h4 := min_le_right x y
    rw [abs_le]
    simp only [gridArith]
    have := le_max_right (min x y) ((⌊(x + y) / 2 * 64⌋ : ℝ) / 64)
    have := max_le (c := (x + y) / 2) (a := min x y) (b := ((⌊(x + y) / 2 * 64⌋ : ℝ) / 64)) (by linarith) (by linarith)
    constructor <;> linarith
  · intro x hx y hy
    have h1 : (⌊|y - x| * 64⌋ : ℝ) ≤ |y - x| * 64 := Int.floor_le _
    have h2 : |y - x| * 64 < ⌊|y - x| * 64⌋ + 1 := Int.lt_floor_add_one _
    have h3 : |y - x| ≤ |hi - lo| := Set.abs_sub_le_of_uIcc_subset_uIcc (Set.uIcc_subset_uIcc hx hy)
    simp only [gridArith]
    rw [min_eq_right (by linarith), abs_le]
    constructor <;> linarith

theorem gridArith_values : ∃ values : Finset ℝ, ∀ a b, gridArith.dist a b ∈ values := by
  refine ⟨(Finset.range 64001).image fun n : ℕ => (n : ℝ) / 64, fun a b => ?_⟩
  simp only [gridArith, Finset.mem_image, Finset.mem_range]
  have h0 : (0 : ℤ) ≤ ⌊|b - a| * 64⌋ := Int.floor_nonneg.mpr (by positivity)
  obtain ⟨m, hm⟩ : ∃ m : ℕ, (m : ℤ) = ⌊|b - a| * 64⌋ := ⟨_, Int.toNat_of_nonneg h0⟩
  rw [← hm]
  push_cast
  by_cases h : m ≤ 64000
  · refine ⟨m, by omega, (min_eq_right ?_).symm⟩
    have : (m : ℝ) ≤ 64000 := by exact_mod_cast h
    linarith
  · refine ⟨64000, by norm_num, ?_⟩
    have : (64000 : ℝ) ≤ m := by exact_mod_cast (by omega : 64000 ≤ m)
    rw [min_eq_left (by linarith)]; norm_num

/-- the hypotheses are met: the square root of two on the grid, with the default tolerance -/
example : ∃ fuel r, bisect gridArith fuel (fun x : ℝ => x ^ 2 - 2) 0 2 0 = .ok r ∧ |r - Real.sqrt 2| ≤ 3 / 64 := by
  obtain ⟨values, hv⟩ := gridArith_values
  obtain ⟨r, hr⟩ := C58_terminates gridArith (fun x : ℝ => x ^ 2 - 2) 0 2 0 values hv
  obtain ⟨z, h3, h4, h5⟩ := C58_rounded_root gridArith_between (gridArith_accurate (lo := 0) (hi := 2) (by norm_num)) _ _ le_rfl (by norm_num [gridArith])
    (by fun_prop) (by norm_num) hr
  refine ⟨_, r, hr, ?_⟩
  have hz : Real.sqrt 2 = z := by
    rw [Set.uIcc_of_le (by norm_num)] at h3
    rw [show (2 : ℝ) = z ^ 2 by linarith, Real.sqrt_sq h3.1]
  rw [hz]; linarith

end Verif
