import Verif.Spec.FloatArith
import Verif.Spec.Reduction
import Verif.Lemmas.ConvolutionLanes
import Mathlib.Tactic.Linarith
import Mathlib.Tactic.Positivity
import Mathlib.Tactic.NormNum
import Mathlib.Algebra.Order.AbsoluteValue.Basic

/-! Error analysis of summation, compensated summation and convolution in rounded arithmetic. -/

set_option linter.unusedSimpArgs false
set_option linter.unusedSectionVars false

namespace Verif
open Finset

section
variable {F : Type u} [Zero F] [Add F] [Sub F] [Mul F] [Fma F] (A : FloatArith F)

/-- sum of the magnitudes -/
def FloatArith.mag (l : List F) : ℝ := (l.map fun x => |A.val x|).sum

/-- exact sum -/
def FloatArith.total (l : List F) : ℝ := (l.map A.val).sum

theorem FloatArith.mag_nonneg (l : List F) : 0 ≤ A.mag l := by
  unfold FloatArith.mag
  apply List.sum_nonneg
  intro x hx
  obtain ⟨y, _, rfl⟩ := List.mem_map.1 hx
  exact abs_nonneg _

theorem FloatArith.total_le (l : List F) : |A.total l| ≤ A.mag l := by
  unfold FloatArith.total FloatArith.mag
  induction l with
  | nil => simp
  | cons x l ih =>
    simp only [List.map_cons, List.sum_cons]
    exact (abs_add_le _ _).trans (add_le_add le_rfl ih)

theorem OpTree.leaves_pos {β : Type*} (t : OpTree β) : 0 < t.leaves.length := by
  induction t with
  | leaf b => simp [OpTree.leaves]
  | node l r ihl ihr => simp only [OpTree.leaves, List.length_append]; omega

/-- any parenthesisation of a sum -/
theorem tree_rounding (t : OpTree F) (hf : ∀ x ∈ t.leaves, A.finite x)
    (hh : (1 + A.u) ^ (t.leaves.length - 1) * A.mag t.leaves ≤ A.huge) :
    A.finite (t.eval (fun a b => a + b)) ∧
      |A.val (t.eval (fun a b => a + b)) - A.total t.leaves| ≤
        ((1 + A.u) ^ (t.leaves.length - 1) - 1) * A.mag t.leaves ∧
      ((∀ x ∈ t.leaves, 0 ≤ A.val x) → 0 ≤ A.val (t.eval (fun a b => a + b))) := by
  have hu := A.u_nonneg
  induction t with
  | leaf b => simp [OpTree.eval, OpTree.leaves, FloatArith.total, FloatArith.mag] at hf ⊢; exact hf
  | node l r ihl ihr =>
    have hl := l.leaves_pos
    have hr := r.leaves_pos
    simp only [OpTree.leaves, List.length_append, List.mem_append] at hf hh ⊢
    have m1 : A.mag (l.leaves ++ r.leaves) = A.mag l.leaves + A.mag r.leaves := by
      simp [FloatArith.mag]
    have t1 : A.total (l.leaves ++ r.leaves) = A.total l.leaves + A.total r.leaves := by
      simp [FloatArith.total]
    rw [m1] at hh ⊢
    rw [t1]
    have ml := A.mag_nonneg l.leaves
    have mr := A.mag_nonneg r.leaves
    set n := l.leaves.length + r.leaves.length - 2 with hn
    have e : l.leaves.length + r.leaves.length - 1 = n + 1 := by omega
    rw [e] at hh ⊢
    have g1 : (1 : ℝ) ≤ 1 + A.u := by linarith
    have gl : (1 + A.u) ^ (l.leaves.length - 1) ≤ (1 + A.u) ^ n := pow_le_pow_right₀ g1 (by omega)
    have gr : (1 + A.u) ^ (r.leaves.length - 1) ≤ (1 + A.u) ^ n := pow_le_pow_right₀ g1 (by omega)
    have gn : (1 + A.u) ^ n ≤ (1 + A.u) ^ (n + 1) := pow_le_pow_right₀ g1 (by omega)
    have gpos : 0 ≤ (1 + A.u) ^ n := by positivity
    have hln : (1 + A.u) ^ (l.leaves.length - 1) * A.mag l.leaves ≤ (1 + A.u) ^ n * A.mag l.leaves :=
      mul_le_mul_of_nonneg_right gl ml
    have hrn : (1 + A.u) ^ (r.leaves.length - 1) * A.mag r.leaves ≤ (1 + A.u) ^ n * A.mag r.leaves :=
      mul_le_mul_of_nonneg_right gr mr
    have hsum : (1 + A.u) ^ n * (A.mag l.leaves + A.mag r.leaves) ≤ A.huge :=
      (mul_le_mul_of_nonneg_right gn (by linarith)).trans hh
    have pl : 0 ≤ (1 + A.u) ^ n * A.mag l.leaves := by positivity
    have pr : 0 ≤ (1 + A.u) ^ n * A.mag r.leaves := by positivity
    obtain ⟨fl, el, nl⟩ := ihl (fun x hx => hf x (Or.inl hx)) (by linarith)
    obtain ⟨fr, er, nr⟩ := ihr (fun x hx => hf x (Or.inr hx)) (by linarith)
    simp only [OpTree.eval]
    set x := A.val (l.eval (fun a b => a + b))
    set y := A.val (r.eval (fun a b => a + b))
    have tl := A.total_le l.leaves
    have tr := A.total_le r.leaves
    have hx : |x| ≤ (1 + A.u) ^ n * A.mag l.leaves := by
      have : |x| ≤ |x - A.total l.leaves| + |A.total l.leaves| := by
        have := abs_add_le (x - A.total l.leaves) (A.total l.leaves); simpa using this
      linarith
    have hy : |y| ≤ (1 + A.u) ^ n * A.mag r.leaves := by
      have : |y| ≤ |y - A.total r.leaves| + |A.total r.leaves| := by
        have := abs_add_le (y - A.total r.leaves) (A.total r.leaves); simpa using this
      linarith
    have hxy : |x + y| ≤ (1 + A.u) ^ n * (A.mag l.leaves + A.mag r.leaves) := by
      have := abs_add_le x y; linarith
    obtain ⟨ff, ee⟩ := A.add _ _ fl fr (hxy.trans hsum)
    refine ⟨ff, ?_, fun hpos => A.add_sign _ _ fl fr (hxy.trans hsum)
      (add_nonneg (nl fun x hx => hpos x (Or.inl hx)) (nr fun x hx => hpos x (Or.inr hx)))⟩
    have h1 := mul_le_mul_of_nonneg_left hxy hu
    have h2 := abs_add_le (A.val (l.eval (fun a b => a + b) + r.eval (fun a b => a + b)) - (x + y))
      ((x - A.total l.leaves) + (y - A.total r.leaves))
    have h3 := abs_add_le (x - A.total l.leaves) (y - A.total r.leaves)
    have e2 : A.val (l.eval (fun a b => a + b) + r.eval (fun a b => a + b)) - (x + y) +
        ((x - A.total l.leaves) + (y - A.total r.leaves)) =
        A.val (l.eval (fun a b => a + b) + r.eval (fun a b => a + b)) -
          (A.total l.leaves + A.total r.leaves) := by ring
    rw [e2] at h2
    have e3 : ((1 + A.u) ^ (n + 1) - 1) * (A.mag l.leaves + A.mag r.leaves) =
        A.u * ((1 + A.u) ^ n * (A.mag l.leaves + A.mag r.leaves)) +
        ((1 + A.u) ^ n * A.mag l.leaves - A.mag l.leaves) +
        ((1 + A.u) ^ n * A.mag r.leaves - A.mag r.leaves) := by ring
    rw [e3]
    linarith

/-- error of a tree over a permutation of given leaves -/
theorem tree_rounding_perm (t : OpTree F) (l : List F) (hp : t.leaves.Perm l) (hf : ∀ x ∈ l, A.finite x)
    (hh : (1 + A.u) ^ (l.length - 1) * A.mag l ≤ A.huge) :
    A.finite (t.eval (fun a b => a + b)) ∧
      |A.val (t.eval (fun a b => a + b)) - A.total l| ≤ ((1 + A.u) ^ (l.length - 1) - 1) * A.mag l ∧
      ((∀ x ∈ l, 0 ≤ A.val x) → 0 ≤ A.val (t.eval (fun a b => a + b))) := by
  have e1 : A.mag t.leaves = A.mag l := (hp.map _).sum_eq
  have e2 : A.total t.leaves = A.total l := (hp.map _).sum_eq
  have e3 := hp.length_eq
  obtain ⟨h1, h2, h3⟩ := tree_rounding A t (fun x hx => hf x (hp.subset hx)) (by rw [e1, e3]; exact hh)
  rw [e1, e2, e3] at h2
  exact ⟨h1, h2, fun h => h3 fun x hx => h x (hp.subset hx)⟩

/-! ### compensated summation -/

theorem kahan_real {u s c x y t d c' X : ℝ} (hu0 : 0 ≤ u) (hu : u ≤ 1 / 1000)
    (hy : |y - (x - c)| ≤ u * |x - c|) (ht : |t - (s + y)| ≤ u * |s + y|)
    (hd : |d - (t - s)| ≤ u * |t - s|) (hc' : |c' - (d - y)| ≤ u * |d - y|)
    (hX : 0 ≤ X) (hc : |c| ≤ 21 / 10 * u * X) (hs : |s| ≤ 11 / 10 * X) :
    |c'| ≤ 21 / 10 * u * (X + |x|) ∧
    |(t - c') - (s - c) - x| ≤ 201 / 100 * u * |x| + 7 * u ^ 2 * X := by
  have hx0 := abs_nonneg x
  obtain ⟨p, hp⟩ : ∃ p, p = |x - c| := ⟨_, rfl⟩
  obtain ⟨Y, hY⟩ : ∃ Y, Y = |y| := ⟨_, rfl⟩
  obtain ⟨q, hq⟩ : ∃ q, q = |t - (s + y)| := ⟨_, rfl⟩
  have p0 : 0 ≤ p := hp ▸ abs_nonneg _
  have Y0 : 0 ≤ Y := hY ▸ abs_nonneg _
  have q0 : 0 ≤ q := hq ▸ abs_nonneg _
  have hpx : p ≤ |x| + 21 / 10 * u * X := by
    have : |x - c| ≤ |x| + |c| := abs_sub _ _
    linarith
  have hYp : Y ≤ (1 + u) * p := by
    have := abs_add_le (y - (x - c)) (x - c)
    rw [sub_add_cancel, ← hp, ← hY] at this
    rw [← hp] at hy
    linarith
  have hqs : q ≤ u * (11 / 10 * X + Y) := by
    have h1 : |s + y| ≤ |s| + |y| := abs_add_le _ _
    have h2 := mul_le_mul_of_nonneg_left (show |s + y| ≤ 11 / 10 * X + Y by linarith) hu0
    linarith
  have hts : |t - s| ≤ Y + q := by
    have := abs_add_le (t - (s + y)) y
    have e : t - (s + y) + y = t - s := by ring
    rw [e] at this
    linarith
  have hd1 : |d - (t - s)| ≤ u * (Y + q) := hd.trans (mul_le_mul_of_nonneg_left hts hu0)
  have hdy : |d - y| ≤ u * (Y + q) + q := by
    have := abs_add_le (d - (t - s)) (t - (s + y))
    have e : d - (t - s) + (t - (s + y)) = d - y := by ring
    rw [e] at this
    linarith
  have hcd : |c' - (d - y)| ≤ u * (u * (Y + q) + q) := hc'.trans (mul_le_mul_of_nonneg_left hdy hu0)
  have b1 : |c'| ≤ (1 + u) * (u * (Y + q) + q) := by
    have := abs_add_le (c' - (d - y)) (d - y)
    rw [sub_add_cancel] at this
    linarith
  have b2 : |(t - c') - (s - c) - x| ≤ u * p + u * (Y + q) + u * (u * (Y + q) + q) := by
    have e : (t - c') - (s - c) - x = (y - (x - c)) + (-(d - (t - s)) + -(c' - (d - y))) := by ring
    rw [e]
    have h1 := abs_add_le (y - (x - c)) (-(d - (t - s)) + -(c' - (d - y)))
    have h2 := abs_add_le (-(d - (t - s))) (-(c' - (d - y)))
    rw [abs_neg, abs_neg] at h2
    rw [← hp] at hy
    linarith
  -- numeric part
  have uX : 0 ≤ u * X := mul_nonneg hu0 hX
  have uuX : u * (u * X) ≤ 1 / 1000 * (u * X) := mul_le_mul_of_nonneg_right hu uX
  have ux : 0 ≤ u * |x| := mul_nonneg hu0 hx0
  have uux : u * (u * |x|) ≤ 1 / 1000 * (u * |x|) := mul_le_mul_of_nonneg_right hu ux
  have uX' : u * X ≤ 1 / 1000 * X := mul_le_mul_of_nonneg_right hu hX
  have up : u * p ≤ 1 / 1000 * p := mul_le_mul_of_nonneg_right hu p0
  have up0 : 0 ≤ u * p := mul_nonneg hu0 p0
  have up1 : u * p ≤ u * |x| + 21 / 10 * (u * (u * X)) := by
    have := mul_le_mul_of_nonneg_left hpx hu0; linarith
  have hY1 : Y ≤ 1001 / 1000 * p := by linarith
  have huY : u * Y ≤ 1001 / 1000 * (u * p) := by
    have := mul_le_mul_of_nonneg_left hY1 hu0; linarith
  have uY0 : 0 ≤ u * Y := mul_nonneg hu0 Y0
  have hq1 : q ≤ 11 / 10 * (u * X) + u * Y := by linarith
  have huq : u * q ≤ 11 / 10 * (u * (u * X)) + u * (u * Y) := by
    have := mul_le_mul_of_nonneg_left hq1 hu0; linarith
  have uuY : u * (u * Y) ≤ 1 / 1000 * (u * Y) := mul_le_mul_of_nonneg_right hu uY0
  have uq0 : 0 ≤ u * q := mul_nonneg hu0 q0
  have uuq : u * (u * q) ≤ 1 / 1000 * (u * q) := mul_le_mul_of_nonneg_right hu uq0
  have uuX0 : 0 ≤ u * (u * X) := mul_nonneg hu0 uX
  have hq2 : u * q ≤ 1 / 1000 * q := mul_le_mul_of_nonneg_right hu q0
  constructor
  · have e : (1 + u) * (u * (Y + q) + q) = u * Y + 2 * (u * q) + q + u * (u * Y) + u * (u * q) := by ring
    rw [e] at b1
    have e2 : 21 / 10 * u * (X + |x|) = 21 / 10 * (u * X) + 21 / 10 * (u * |x|) := by ring
    rw [e2]
    linarith
  · have e : u * p + u * (Y + q) + u * (u * (Y + q) + q) =
        u * p + u * Y + 2 * (u * q) + u * (u * Y) + u * (u * q) := by ring
    rw [e] at b2
    have e2 : 201 / 100 * u * |x| + 7 * u ^ 2 * X = 201 / 100 * (u * |x|) + 7 * (u * (u * X)) := by ring
    rw [e2]
    linarith

/-- one block of four terms -/
def laneBlock (T : ℕ → F) (start j : ℕ) : F :=
  (T (start + 4 * j) + T (start + 4 * j + 1)) + (T (start + 4 * j + 2) + T (start + 4 * j + 3))

theorem kahan_blocks (hu : A.u ≤ 1 / 1000) (T : ℕ → F) (start : ℕ) (s0 : F) (h0 : A.finite s0) (m : ℕ)
    (hm : m * A.u ≤ 1 / 10) (hf : ∀ j, j < m → A.finite (laneBlock T start j))
    (hh : 4 * (|A.val s0| + ∑ j ∈ range m, |A.val (laneBlock T start j)|) ≤ A.huge) :
    ∃ c s, laneBlocks (plusCompensated : ReduceOp F) T start m (0, s0) = (c, s) ∧ A.finite c ∧ A.finite s ∧
      |A.val c| ≤ 21 / 10 * A.u * (|A.val s0| + ∑ j ∈ range m, |A.val (laneBlock T start j)|) ∧
      |A.val s - A.val c - (A.val s0 + ∑ j ∈ range m, A.val (laneBlock T start j))| ≤
        (201 / 100 * A.u + 7 * m * A.u ^ 2) *
          (|A.val s0| + ∑ j ∈ range m, |A.val (laneBlock T start j)|) := by
  have hu0 := A.u_nonneg
  induction m with
  | zero =>
    refine ⟨0, s0, rfl, A.zero_finite, h0, ?_, ?_⟩
    · rw [A.val_zero, abs_zero]; positivity
    · simp only [A.val_zero, range_zero, sum_empty, sub_zero, add_zero, sub_self, abs_zero]
      positivity
  | succ m ih =>
    rw [sum_range_succ] at hh ⊢
    rw [sum_range_succ]
    set X := |A.val s0| + ∑ j ∈ range m, |A.val (laneBlock T start j)| with hX
    set S := A.val s0 + ∑ j ∈ range m, A.val (laneBlock T start j) with hS
    set x := laneBlock T start m with hx
    have hX0 : 0 ≤ X := by positivity
    have hx0 := abs_nonneg (A.val x)
    have eX : |A.val s0| + (∑ j ∈ range m, |A.val (laneBlock T start j)| + |A.val x|) = X + |A.val x| := by
      rw [hX]; ring
    have eS : A.val s0 + (∑ j ∈ range m, A.val (laneBlock T start j) + A.val x) = S + A.val x := by
      rw [hS]; ring
    rw [eX] at hh ⊢
    rw [eS]
    push_cast at hm
    have hmu : (m : ℝ) * A.u ≤ 1 / 10 := by linarith
    have hmu0 : 0 ≤ (m : ℝ) * A.u := by positivity
    obtain ⟨c, s, e, fc, fs, bc, bs⟩ := ih hmu (fun j hj => hf j (by omega)) (by linarith)
    have fx : A.finite x := hf m (by omega)
    have hSX : |S| ≤ X := by
      rw [hS, hX]
      exact (abs_add_le _ _).trans (add_le_add le_rfl (abs_sum_le_sum_abs _ _))
    have uX0 : 0 ≤ A.u * X := mul_nonneg hu0 hX0
    have uX : A.u * X ≤ 1 / 1000 * X := mul_le_mul_of_nonneg_right hu hX0
    have muX : (m : ℝ) * A.u * (A.u * X) ≤ 1 / 10 * (A.u * X) := mul_le_mul_of_nonneg_right hmu uX0
    have hsX : |A.val s| ≤ 11 / 10 * X := by
      have h1 := abs_add_le (A.val s - A.val c - S) (A.val c + S)
      have h2 := abs_add_le (A.val c) S
      have e1 : A.val s - A.val c - S + (A.val c + S) = A.val s := by ring
      rw [e1] at h1
      have e2 : (201 / 100 * A.u + 7 * m * A.u ^ 2) * X =
        201 / 100 * (A.u * X) + 7 * (m * A.u * (A.u * X)) := by ring
      rw [e2] at bs
      have e3 : 21 / 10 * A.u * X = 21 / 10 * (A.u * X) := by ring
      rw [e3] at bc
      linarith
    have ux : A.u * |A.val x| ≤ 1 / 1000 * |A.val x| := mul_le_mul_of_nonneg_right hu hx0
    have bc' : |A.val c| ≤ 21 / 10 * (A.u * X) := by linarith [bc, show 21 / 10 * A.u * X = 21 / 10 * (A.u * X) by ring]
    -- the four operations
    have hxc : |A.val x - A.val c| ≤ |A.val x| + 1 / 100 * X := by
      have : |A.val x - A.val c| ≤ |A.val x| + |A.val c| := abs_sub _ _
      linarith
    obtain ⟨fy, ey⟩ := A.sub x c fx fc (by linarith)
    have hyb : |A.val (x - c)| ≤ 1001 / 1000 * (|A.val x| + 1 / 100 * X) := by
      have h1 := abs_add_le (A.val (x - c) - (A.val x - A.val c)) (A.val x - A.val c)
      rw [sub_add_cancel] at h1
      have h2 := mul_le_mul_of_nonneg_right hu (abs_nonneg (A.val x - A.val c))
      linarith
    have hsy : |A.val s + A.val (x - c)| ≤ 12 / 10 * X + 1001 / 1000 * |A.val x| := by
      have := abs_add_le (A.val s) (A.val (x - c))
      linarith
    obtain ⟨ft, et⟩ := A.add s (x - c) fs fy (by linarith)
    have hts : |A.val (s + (x - c)) - A.val s| ≤ 1 / 10 * X + 11 / 10 * |A.val x| := by
      have h1 := abs_add_le (A.val (s + (x - c)) - (A.val s + A.val (x - c))) (A.val (x - c))
      have e1 : A.val (s + (x - c)) - (A.val s + A.val (x - c)) + A.val (x - c) =
        A.val (s + (x - c)) - A.val s := by ring
      rw [e1] at h1
      have h2 := mul_le_mul_of_nonneg_right hu (abs_nonneg (A.val s + A.val (x - c)))
      linarith
    obtain ⟨fd, ed⟩ := A.sub (s + (x - c)) s ft fs (by linarith)
    have hdy : |A.val (s + (x - c) - s) - A.val (x - c)| ≤ X + 3 * |A.val x| := by
      have h1 := abs_add_le (A.val (s + (x - c) - s) - (A.val (s + (x - c)) - A.val s))
        (A.val (s + (x - c)) - A.val s)
      rw [sub_add_cancel] at h1
      have h2 := mul_le_mul_of_nonneg_right hu (abs_nonneg (A.val (s + (x - c)) - A.val s))
      have h3 : |A.val (s + (x - c) - s) - A.val (x - c)| ≤ |A.val (s + (x - c) - s)| + |A.val (x - c)| :=
        abs_sub _ _
      linarith
    obtain ⟨fc', ec'⟩ := A.sub (s + (x - c) - s) (x - c) fd fy (by linarith)
    obtain ⟨k1, k2⟩ := kahan_real hu0 hu ey et ed ec' hX0 bc hsX
    refine ⟨s + (x - c) - s - (x - c), s + (x - c), ?_, fc', ft, k1, ?_⟩
    · rw [laneBlocks, e]
      rfl
    · have h1 := abs_add_le ((A.val (s + (x - c)) - A.val (s + (x - c) - s - (x - c))) - (A.val s - A.val c) - A.val x)
        (A.val s - A.val c - S)
      have e1 : (A.val (s + (x - c)) - A.val (s + (x - c) - s - (x - c))) - (A.val s - A.val c) - A.val x +
        (A.val s - A.val c - S) =
        A.val (s + (x - c)) - A.val (s + (x - c) - s - (x - c)) - (S + A.val x) := by ring
      rw [e1] at h1
      have p1 : 0 ≤ 7 * ((m : ℝ) + 1) * A.u ^ 2 * |A.val x| := by positivity
      push_cast
      have e2 : (201 / 100 * A.u + 7 * ((m : ℝ) + 1) * A.u ^ 2) * (X + |A.val x|) =
        (201 / 100 * A.u + 7 * m * A.u ^ 2) * X + (201 / 100 * A.u * |A.val x| + 7 * A.u ^ 2 * X) +
          7 * ((m : ℝ) + 1) * A.u ^ 2 * |A.val x| := by ring
      rw [e2]
      linarith

/-- the whole compensated loop -/
theorem kahan_total (hu : A.u ≤ 1 / 1000) (T : ℕ → F) (start : ℕ) (s0 : F) (h0 : A.finite s0) (m : ℕ)
    (hm : m * A.u ≤ 1 / 10) (hf : ∀ j, j < m → A.finite (laneBlock T start j))
    (hh : 4 * (|A.val s0| + ∑ j ∈ range m, |A.val (laneBlock T start j)|) ≤ A.huge) :
    A.finite (laneBlocks (plusCompensated : ReduceOp F) T start m (0, s0)).2 ∧
      |A.val (laneBlocks (plusCompensated : ReduceOp F) T start m (0, s0)).2 -
          (A.val s0 + ∑ j ∈ range m, A.val (laneBlock T start j))| ≤
        5 * A.u * (|A.val s0| + ∑ j ∈ range m, |A.val (laneBlock T start j)|) := by
  obtain ⟨c, s, e, fc, fs, bc, bs⟩ := kahan_blocks A hu T start s0 h0 m hm hf hh
  rw [e]
  refine ⟨fs, ?_⟩
  have hu0 := A.u_nonneg
  set X := |A.val s0| + ∑ j ∈ range m, |A.val (laneBlock T start j)| with hX
  set S := A.val s0 + ∑ j ∈ range m, A.val (laneBlock T start j) with hS
  have hX0 : 0 ≤ X := by positivity
  have uX0 : 0 ≤ A.u * X := mul_nonneg hu0 hX0
  have muX : (m : ℝ) * A.u * (A.u * X) ≤ 1 / 10 * (A.u * X) := mul_le_mul_of_nonneg_right hm uX0
  have h1 := abs_add_le (A.val s - A.val c - S) (A.val c)
  have e1 : A.val s - A.val c - S + A.val c = A.val s - S := by ring
  rw [e1] at h1
  have e2 : (201 / 100 * A.u + 7 * m * A.u ^ 2) * X = 201 / 100 * (A.u * X) + 7 * (m * A.u * (A.u * X)) := by
    ring
  rw [e2] at bs
  have e3 : 21 / 10 * A.u * X = 21 / 10 * (A.u * X) := by ring
  rw [e3] at bc
  have e4 : 5 * A.u * X = 5 * (A.u * X) := by ring
  rw [e4]
  show |A.val s - S| ≤ _
  linarith

/-! ### approximations -/

/-- `x` approximates `S` with relative error `e` of the magnitude `X ≥ |S|` -/
structure FloatArith.Approx (x : F) (S X e : ℝ) : Prop where
  fin : A.finite x
  err : |A.val x - S| ≤ e * X
  le : |S| ≤ X

variable {A}

theorem FloatArith.Approx.exact {x : F} (h : A.finite x) : A.Approx x (A.val x) |A.val x| 0 :=
  ⟨h, by simp, le_rfl⟩

theorem FloatArith.Approx.nonneg {x : F} {S X e : ℝ} (h : A.Approx x S X e) : 0 ≤ X :=
  (abs_nonneg _).trans h.le

theorem FloatArith.Approx.mono {x : F} {S X e e' : ℝ} (h : A.Approx x S X e) (he : e ≤ e') :
    A.Approx x S X e' :=
  ⟨h.fin, h.err.trans (mul_le_mul_of_nonneg_right he h.nonneg), h.le⟩

theorem FloatArith.Approx.abs_le {x : F} {S X e : ℝ} (h : A.Approx x S X e) : |A.val x| ≤ (1 + e) * X := by
  have h1 := abs_add_le (A.val x - S) S
  rw [sub_add_cancel] at h1
  have := h.err
  have := h.le
  linarith

theorem FloatArith.Approx.add {x y : F} {S S' X X' e : ℝ} (h : A.Approx x S X e) (h' : A.Approx y S' X' e)
    (hh : (1 + e) * (X + X') ≤ A.huge) : A.Approx (x + y) (S + S') (X + X') (e + A.u * (1 + e)) := by
  have hu0 := A.u_nonneg
  have a1 := h.abs_le
  have a2 := h'.abs_le
  have h1 : |A.val x + A.val y| ≤ (1 + e) * (X + X') := by
    have := abs_add_le (A.val x) (A.val y)
    linarith
  obtain ⟨f, er⟩ := A.add x y h.fin h'.fin (h1.trans hh)
  refine ⟨f, ?_, (abs_add_le _ _).trans (add_le_add h.le h'.le)⟩
  have h2 := mul_le_mul_of_nonneg_left h1 hu0
  have h3 := abs_add_le (A.val (x + y) - (A.val x + A.val y)) ((A.val x - S) + (A.val y - S'))
  have h4 := abs_add_le (A.val x - S) (A.val y - S')
  have e1 : A.val (x + y) - (A.val x + A.val y) + ((A.val x - S) + (A.val y - S')) =
    A.val (x + y) - (S + S') := by ring
  rw [e1] at h3
  have := h.err
  have := h'.err
  have e2 : (e + A.u * (1 + e)) * (X + X') = e * X + e * X' + A.u * ((1 + e) * (X + X')) := by ring
  rw [e2]
  linarith

theorem sum_laneBlocks (f : ℕ → ℝ) (st m : ℕ) :
    ∑ k ∈ range (st + 4 * m), f k = ∑ k ∈ range st, f k +
      ∑ j ∈ range m, ((f (st + 4 * j) + f (st + 4 * j + 1)) + (f (st + 4 * j + 2) + f (st + 4 * j + 3))) := by
  induction m with
  | zero => simp
  | succ m ih =>
    rw [sum_range_succ _ m, ← add_assoc, ← ih, show st + 4 * (m + 1) = st + 4 * m + 1 + 1 + 1 + 1 by ring]
    simp only [sum_range_succ, ← add_assoc]

variable (A)

theorem lane_head (hu : A.u ≤ 1 / 1000) (T : ℕ → F) (c : ℕ) (hT : ∀ k, k < c → A.finite (T k))
    {s : F} {S X e : ℝ} (hs : A.Approx s S X e) (he0 : 0 ≤ e) (he : e ≤ 1 / 20)
    (hh : 2 * (X + ∑ k ∈ range (c % 4), |A.val (T k)|) ≤ A.huge) :
    A.Approx (laneHead T c s) (S + ∑ k ∈ range (c % 4), A.val (T k))
      (X + ∑ k ∈ range (c % 4), |A.val (T k)|) (e + 22 / 10 * A.u) := by
  have hu0 := A.u_nonneg
  have hX := hs.nonneg
  have ue : A.u * e ≤ 1 / 20 * A.u := by
    have := mul_le_mul_of_nonneg_left he hu0; linarith
  have ue0 : 0 ≤ A.u * e := mul_nonneg hu0 he0
  have uu : A.u * A.u ≤ 1 / 1000 * A.u := mul_le_mul_of_nonneg_right hu hu0
  have hab : ∀ k, 0 ≤ |A.val (T k)| := fun k => abs_nonneg _
  have pair : ∀ i, i + 1 < c → |A.val (T i)| + |A.val (T (i + 1))| ≤ A.huge →
      A.Approx (T i + T (i + 1)) (A.val (T i) + A.val (T (i + 1)))
        (|A.val (T i)| + |A.val (T (i + 1))|) (e + 11 / 10 * A.u) := by
    intro i hi hb
    have := (FloatArith.Approx.exact (hT i (by omega))).add (FloatArith.Approx.exact (hT (i + 1) hi))
      (by linarith)
    exact this.mono (by linarith)
  have grow : ∀ Z : ℝ, 0 ≤ Z → (1 + (e + 11 / 10 * A.u)) * Z ≤ 2 * Z := fun Z hZ =>
    mul_le_mul_of_nonneg_right (by linarith) hZ
  have grow' : ∀ Z : ℝ, 0 ≤ Z → (1 + e) * Z ≤ 2 * Z := fun Z hZ =>
    mul_le_mul_of_nonneg_right (by linarith) hZ
  unfold laneHead
  by_cases b0 : c % 2 = 1
  · by_cases b1 : c / 2 % 2 = 1
    · have hc : c % 4 = 3 := by omega
      simp only [b0, b1, if_true]
      rw [hc] at hh ⊢
      simp only [sum_range_succ, sum_range_zero, zero_add] at hh ⊢
      have p0 := hab 0
      have p1 := hab 1
      have p2 := hab 2
      have g1 := grow' (X + |A.val (T 0)|) (by linarith)
      have h1 := (hs.add ((FloatArith.Approx.exact (hT 0 (by omega))).mono he0) (by linarith)).mono
        (show e + A.u * (1 + e) ≤ e + 11 / 10 * A.u by linarith)
      have h2 := pair 1 (by omega) (by norm_num; linarith)
      have g2 := grow (X + |A.val (T 0)| + (|A.val (T 1)| + |A.val (T (1 + 1))|)) (by norm_num; linarith)
      have h3 := (h1.add h2 (by norm_num at g2 ⊢; linarith)).mono
        (show e + 11 / 10 * A.u + A.u * (1 + (e + 11 / 10 * A.u)) ≤ e + 22 / 10 * A.u by linarith)
      have e1 : S + (A.val (T 0) + A.val (T 1) + A.val (T 2)) =
        S + A.val (T 0) + (A.val (T 1) + A.val (T (1 + 1))) := by norm_num; ring
      have e2 : X + (|A.val (T 0)| + |A.val (T 1)| + |A.val (T 2)|) =
        X + |A.val (T 0)| + (|A.val (T 1)| + |A.val (T (1 + 1))|) := by norm_num; ring
      rw [e1, e2]
      exact h3
    · have hc : c % 4 = 1 := by omega
      simp only [b0, b1, if_true, if_false]
      rw [hc] at hh ⊢
      simp only [sum_range_succ, sum_range_zero, zero_add] at hh ⊢
      have p0 := hab 0
      have g1 := grow' (X + |A.val (T 0)|) (by linarith)
      exact (hs.add ((FloatArith.Approx.exact (hT 0 (by omega))).mono he0) (by linarith)).mono
        (show e + A.u * (1 + e) ≤ e + 22 / 10 * A.u by linarith)
  · have b0' : c % 2 = 0 := by omega
    by_cases b1 : c / 2 % 2 = 1
    · have hc : c % 4 = 2 := by omega
      simp only [b0', b1, if_true, zero_ne_one, if_false]
      rw [hc] at hh ⊢
      simp only [sum_range_succ, sum_range_zero, zero_add] at hh ⊢
      have p0 := hab 0
      have p1 := hab 1
      have h2 := pair 0 (by omega) (by norm_num; linarith)
      have g2 := grow (X + (|A.val (T 0)| + |A.val (T 1)|)) (by linarith)
      exact ((hs.mono (show e ≤ e + 11 / 10 * A.u by linarith)).add h2 (by norm_num at g2 ⊢; linarith)).mono
        (show e + 11 / 10 * A.u + A.u * (1 + (e + 11 / 10 * A.u)) ≤ e + 22 / 10 * A.u by linarith)
    · have hc : c % 4 = 0 := by omega
      simp only [b0', b1, zero_ne_one, if_false]
      rw [hc]
      simp only [sum_range_zero, add_zero]
      exact hs.mono (by linarith)

theorem lane_block (hu : A.u ≤ 1 / 1000) (T : ℕ → F) (start j : ℕ)
    (hT : ∀ k, k < start + 4 * (j + 1) → A.finite (T k))
    (hh : 2 * ((|A.val (T (start + 4 * j))| + |A.val (T (start + 4 * j + 1))|) +
      (|A.val (T (start + 4 * j + 2))| + |A.val (T (start + 4 * j + 3))|)) ≤ A.huge) :
    A.Approx (laneBlock T start j)
      ((A.val (T (start + 4 * j)) + A.val (T (start + 4 * j + 1))) +
        (A.val (T (start + 4 * j + 2)) + A.val (T (start + 4 * j + 3))))
      ((|A.val (T (start + 4 * j))| + |A.val (T (start + 4 * j + 1))|) +
        (|A.val (T (start + 4 * j + 2))| + |A.val (T (start + 4 * j + 3))|)) (22 / 10 * A.u) := by
  have hu0 := A.u_nonneg
  have uu : A.u * A.u ≤ 1 / 1000 * A.u := mul_le_mul_of_nonneg_right hu hu0
  have hab : ∀ k, 0 ≤ |A.val (T k)| := fun k => abs_nonneg _
  have a0 := hab (start + 4 * j)
  have a1 := hab (start + 4 * j + 1)
  have a2 := hab (start + 4 * j + 2)
  have a3 := hab (start + 4 * j + 3)
  have h1 := (FloatArith.Approx.exact (hT (start + 4 * j) (by omega))).add
    (FloatArith.Approx.exact (hT (start + 4 * j + 1) (by omega))) (by linarith)
  have h2 := (FloatArith.Approx.exact (hT (start + 4 * j + 2) (by omega))).add
    (FloatArith.Approx.exact (hT (start + 4 * j + 3) (by omega))) (by linarith)
  refine (h1.add h2 ?_).mono (by linarith)
  refine le_trans (mul_le_mul_of_nonneg_right (show 1 + (0 + A.u * (1 + 0)) ≤ 2 by linarith) (by linarith)) hh

/-- one call of the unrolled, compensated loop adds all terms with an error of eight roundings, whatever
their number -/
theorem lane_rounding (hu : A.u ≤ 1 / 1000) (T : ℕ → F) (c : ℕ) (hc : c * A.u ≤ 2 / 5)
    (hT : ∀ k, k < c → A.finite (T k))
    {s : F} {S X e : ℝ} (hs : A.Approx s S X e) (he0 : 0 ≤ e) (he : e ≤ 1 / 20)
    (hh : 8 * (X + ∑ k ∈ range c, |A.val (T k)|) ≤ A.huge) :
    A.Approx (laneLoop (plusCompensated : ReduceOp F) T c s) (S + ∑ k ∈ range c, A.val (T k))
      (X + ∑ k ∈ range c, |A.val (T k)|) (e + 8 * A.u) := by
  have hu0 := A.u_nonneg
  have hX := hs.nonneg
  set st := c % 4 with hst
  set m := c / 4 with hm
  have hcm : c = st + 4 * m := by omega
  set B : ℕ → ℝ := fun j => (A.val (T (st + 4 * j)) + A.val (T (st + 4 * j + 1))) +
        (A.val (T (st + 4 * j + 2)) + A.val (T (st + 4 * j + 3))) with hB
  set B' : ℕ → ℝ := fun j => (|A.val (T (st + 4 * j))| + |A.val (T (st + 4 * j + 1))|) +
        (|A.val (T (st + 4 * j + 2))| + |A.val (T (st + 4 * j + 3))|) with hB'
  have s1 : ∑ k ∈ range c, A.val (T k) = ∑ k ∈ range st, A.val (T k) + ∑ j ∈ range m, B j := by
    rw [hcm]; exact sum_laneBlocks (fun k => A.val (T k)) st m
  have s2 : ∑ k ∈ range c, |A.val (T k)| = ∑ k ∈ range st, |A.val (T k)| + ∑ j ∈ range m, B' j := by
    rw [hcm]; exact sum_laneBlocks (fun k => |A.val (T k)|) st m
  have B0 : ∀ j, 0 ≤ B' j := fun j => by simp only [hB']; positivity
  have sB0 : 0 ≤ ∑ j ∈ range m, B' j := sum_nonneg fun j _ => B0 j
  have sH0 : 0 ≤ ∑ k ∈ range st, |A.val (T k)| := sum_nonneg fun j _ => abs_nonneg _
  rw [s2] at hh
  have hd := lane_head A hu T c hT hs he0 he (by rw [← hst]; linarith)
  rw [← hst] at hd
  have hbl : ∀ j, j < m → A.Approx (laneBlock T st j) (B j) (B' j) (22 / 10 * A.u) := by
    intro j hj
    refine lane_block A hu T st j (fun k hk => hT k (by omega)) ?_
    have := single_le_sum (f := B') (fun i _ => B0 i) (mem_range.2 hj)
    simp only [hB'] at this ⊢
    linarith
  set h := laneHead T c s with hh'
  set e2 := e + 22 / 10 * A.u with he2
  have e2n : 0 ≤ e2 := by positivity
  have e2b : e2 ≤ 6 / 100 := by rw [he2]; linarith
  have hmu : (m : ℝ) * A.u ≤ 1 / 10 := by
    have h4 : (4 : ℝ) * m ≤ c := by
      have : 4 * m ≤ c := by omega
      exact_mod_cast this
    have := mul_le_mul_of_nonneg_right h4 hu0
    linarith
  have hmag : |A.val h| + ∑ j ∈ range m, |A.val (laneBlock T st j)| ≤
      (1 + e2) * (X + ∑ k ∈ range c, |A.val (T k)|) := by
    have h1 := hd.abs_le
    have h2 : ∑ j ∈ range m, |A.val (laneBlock T st j)| ≤ ∑ j ∈ range m, (1 + e2) * B' j := by
      apply sum_le_sum
      intro j hj
      exact ((hbl j (mem_range.1 hj)).mono (by rw [he2]; linarith)).abs_le
    rw [← mul_sum] at h2
    rw [s2]
    have e1 : (1 + e2) * (X + (∑ k ∈ range st, |A.val (T k)| + ∑ j ∈ range m, B' j)) =
      (1 + e2) * (X + ∑ k ∈ range st, |A.val (T k)|) + (1 + e2) * ∑ j ∈ range m, B' j := by ring
    rw [e1]
    linarith
  set Z := X + ∑ k ∈ range c, |A.val (T k)| with hZ
  have hZ0 : 0 ≤ Z := by rw [hZ, s2]; linarith
  have hZh : 8 * Z ≤ A.huge := by rw [hZ, s2]; exact hh
  have e2Z : e2 * Z ≤ 6 / 100 * Z := mul_le_mul_of_nonneg_right e2b hZ0
  obtain ⟨kf, ke⟩ := kahan_total A hu T st h hd.fin m hmu (fun j hj => (hbl j hj).fin) (by linarith)
  have hlane : laneLoop (plusCompensated : ReduceOp F) T c s =
      (laneBlocks (plusCompensated : ReduceOp F) T st m (0, h)).2 := rfl
  rw [hlane]
  refine ⟨kf, ?_, ?_⟩
  · have hS : |(A.val h + ∑ j ∈ range m, A.val (laneBlock T st j)) - (S + ∑ k ∈ range c, A.val (T k))| ≤ e2 * Z := by
      have h1 := hd.err
      have h2 : |∑ j ∈ range m, (A.val (laneBlock T st j) - B j)| ≤ ∑ j ∈ range m, e2 * B' j := by
        refine (abs_sum_le_sum_abs _ _).trans (sum_le_sum fun j hj => ?_)
        exact ((hbl j (mem_range.1 hj)).mono (by rw [he2]; linarith)).err
      rw [← mul_sum, sum_sub_distrib] at h2
      have h3 := abs_add_le (A.val h - (S + ∑ k ∈ range st, A.val (T k)))
        (∑ j ∈ range m, A.val (laneBlock T st j) - ∑ j ∈ range m, B j)
      have e1 : A.val h - (S + ∑ k ∈ range st, A.val (T k)) +
          (∑ j ∈ range m, A.val (laneBlock T st j) - ∑ j ∈ range m, B j) =
        (A.val h + ∑ j ∈ range m, A.val (laneBlock T st j)) - (S + ∑ k ∈ range c, A.val (T k)) := by
        rw [s1]; ring
      rw [e1] at h3
      have e3 : e2 * Z = e2 * (X + ∑ k ∈ range st, |A.val (T k)|) + e2 * ∑ j ∈ range m, B' j := by
        rw [hZ, s2]; ring
      rw [e3]
      linarith
    have h5 := mul_le_mul_of_nonneg_left hmag (show 0 ≤ 5 * A.u by linarith)
    have h6 := abs_add_le (A.val (laneBlocks (plusCompensated : ReduceOp F) T st m (0, h)).2 -
      (A.val h + ∑ j ∈ range m, A.val (laneBlock T st j)))
      ((A.val h + ∑ j ∈ range m, A.val (laneBlock T st j)) - (S + ∑ k ∈ range c, A.val (T k)))
    rw [sub_add_sub_cancel] at h6
    have uZ : 0 ≤ A.u * Z := mul_nonneg hu0 hZ0
    have ue2 : A.u * (e2 * Z) ≤ 6 / 100 * (A.u * Z) := by
      have := mul_le_mul_of_nonneg_left e2Z hu0; linarith
    have e4 : 5 * A.u * ((1 + e2) * Z) = 5 * (A.u * Z) + 5 * (A.u * (e2 * Z)) := by ring
    have e5 : (e + 8 * A.u) * Z = e2 * Z + 58 / 10 * (A.u * Z) := by rw [he2]; ring
    rw [e4] at h5
    rw [e5]
    linarith
  · refine (abs_add_le _ _).trans (add_le_add hs.le (abs_sum_le_sum_abs _ _))

end
end Verif
