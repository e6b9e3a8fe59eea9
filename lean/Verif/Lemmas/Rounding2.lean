import Verif.Lemmas.Rounding
import Mathlib.Algebra.Field.GeomSum
import Mathlib.Data.List.GetD

/-! Error analysis of the convolution kernels in rounded arithmetic. -/

set_option linter.unusedSimpArgs false
set_option linter.unusedSectionVars false

namespace Verif
open Finset

section
variable {F : Type u} [Zero F] [Add F] [Sub F] [Mul F] [Fma F] (A : FloatArith F)

/-- the numbers a signal stands for -/
def FloatArith.vals (l : List F) : List ℝ := l.map A.val

/-- the magnitudes of a signal -/
def FloatArith.mags (l : List F) : List ℝ := l.map fun x => |A.val x|

theorem FloatArith.sigI_vals (l : List F) (i : ℤ) : sigI (A.vals l) i = A.val (sigI l i) := by
  unfold sigI FloatArith.vals sig
  split
  · by_cases h : i.toNat < l.length
    · simp [h]
    · simp [h, A.val_zero]
  · exact A.val_zero.symm

theorem FloatArith.sigI_mags (l : List F) (i : ℤ) : sigI (A.mags l) i = |A.val (sigI l i)| := by
  unfold sigI FloatArith.mags sig
  split
  · by_cases h : i.toNat < l.length
    · simp [h]
    · simp [h, A.val_zero]
  · simp [A.val_zero]

theorem FloatArith.finite_sigI {l : List F} (h : ∀ x ∈ l, A.finite x) (i : ℤ) : A.finite (sigI l i) := by
  unfold sigI sig
  split
  · by_cases h' : i.toNat < l.length
    · rw [List.getD_eq_getElem _ _ h']
      exact h _ (List.getElem_mem _)
    · rw [List.getD_eq_default _ _ (by omega)]
      exact A.zero_finite
  · exact A.zero_finite

/-- the magnitude of the terms of a convolution sum -/
def FloatArith.convMag (u v : List F) (N : ℕ) : ℝ := convAt (A.mags u) (A.mags v) N

/-- the exact convolution sum -/
def FloatArith.convVal (u v : List F) (N : ℕ) : ℝ := convAt (A.vals u) (A.vals v) N

theorem FloatArith.convVal_comm (u v : List F) (N : ℕ) : A.convVal u v N = A.convVal v u N := convAt_comm _ _ _

theorem FloatArith.convMag_comm (u v : List F) (N : ℕ) : A.convMag u v N = A.convMag v u N := convAt_comm _ _ _

theorem FloatArith.convMag_nonneg (u v : List F) (N : ℕ) : 0 ≤ A.convMag u v N := by
  unfold FloatArith.convMag convAt
  refine sum_nonneg fun i _ => mul_nonneg ?_ ?_
  · rw [← sigI_nat, A.sigI_mags]; exact abs_nonneg _
  · rw [← sigI_nat, A.sigI_mags]; exact abs_nonneg _

theorem FloatArith.convVal_window (u v : List F) (N a c : ℕ) (ha : a = 0 ∨ a + v.length ≤ N + 1)
    (hb : u.length ≤ a + c ∨ N + 1 ≤ a + c) :
    ∑ k ∈ range c, A.val (sigI u ((a : ℤ) + k)) * A.val (sigI v ((N : ℤ) - (a + k))) = A.convVal u v N := by
  have := convAt_window (A.vals u) (A.vals v) N a c (by simpa [FloatArith.vals] using ha)
    (by simpa [FloatArith.vals] using hb)
  simp only [A.sigI_vals] at this
  exact this

theorem FloatArith.convMag_window (u v : List F) (N a c : ℕ) (ha : a = 0 ∨ a + v.length ≤ N + 1)
    (hb : u.length ≤ a + c ∨ N + 1 ≤ a + c) :
    ∑ k ∈ range c, |A.val (sigI u ((a : ℤ) + k)) * A.val (sigI v ((N : ℤ) - (a + k)))| = A.convMag u v N := by
  have := convAt_window (A.mags u) (A.mags v) N a c (by simpa [FloatArith.mags] using ha)
    (by simpa [FloatArith.mags] using hb)
  simp only [A.sigI_mags, ← abs_mul] at this
  exact this

theorem laneConv_rounding (hu : A.u ≤ 1 / 1000) {u v : List F} {N : ℕ} {s0 x : F}
    (h : LaneConv (plusCompensated : ReduceOp F) u v N s0 x)
    (hfu : ∀ a ∈ u, A.finite a) (hfv : ∀ a ∈ v, A.finite a) (hf0 : A.finite s0)
    (hlen : u.length * A.u ≤ 2 / 5)
    (hh : 10 * (|A.val s0| + A.convMag u v N + u.length * A.tiny) ≤ A.huge) :
    A.finite x ∧ |A.val x - (A.val s0 + A.convVal u v N)| ≤
      26 * A.u * (|A.val s0| + A.convMag u v N) + 2 * (u.length * A.tiny) := by
  obtain ⟨a, b, c, d, hab, hbc, hcd, hd, ha, hb, rfl⟩ := h
  have hu0 := A.u_nonneg
  have ht0 := A.tiny_nonneg
  have hs0 := abs_nonneg (A.val s0)
  have hZ0 := A.convMag_nonneg u v N
  set Z := A.convMag u v N with hZ
  set η := (u.length : ℝ) * A.tiny with hη
  have hη0 : 0 ≤ η := by positivity
  have hL : ((d - a : ℕ) : ℝ) ≤ u.length := by
    have : d - a ≤ u.length := by omega
    exact_mod_cast this
  -- exact products and computed products
  set E : ℤ → ℝ := fun m => A.val (sigI u m) * A.val (sigI v ((N : ℤ) - m)) with hE
  set P : ℤ → F := fun m => sigI u m * sigI v ((N : ℤ) - m) with hP
  have wV : ∑ k ∈ range (d - a), E ((a : ℤ) + k) = A.convVal u v N :=
    A.convVal_window u v N a (d - a) ha (by omega)
  have wM : ∑ k ∈ range (d - a), |E ((a : ℤ) + k)| = Z :=
    A.convMag_window u v N a (d - a) ha (by omega)
  have hEle : ∀ k, k < d - a → |E ((a : ℤ) + k)| ≤ Z := by
    intro k hk
    rw [← wM]
    exact single_le_sum (f := fun k : ℕ => |E ((a : ℤ) + k)|) (fun i _ => abs_nonneg _) (mem_range.2 hk)
  have hPm : ∀ k, k < d - a → A.finite (P ((a : ℤ) + k)) ∧
      |A.val (P ((a : ℤ) + k)) - E ((a : ℤ) + k)| ≤ A.u * |E ((a : ℤ) + k)| + A.tiny := by
    intro k hk
    exact A.mul _ _ (A.finite_sigI hfu _) (A.finite_sigI hfv _) ((hEle k hk).trans (by linarith))
  have hPfin : ∀ m : ℤ, (a : ℤ) ≤ m → m < d → A.finite (P m) := by
    intro m h1 h2
    have := (hPm (m - a).toNat (by omega)).1
    rwa [show (a : ℤ) + ((m - a).toNat : ℕ) = m by omega] at this
  have sumErr : |∑ k ∈ range (d - a), A.val (P ((a : ℤ) + k)) - A.convVal u v N| ≤ A.u * Z + η := by
    rw [← wV, ← sum_sub_distrib]
    refine (abs_sum_le_sum_abs _ _).trans ?_
    refine (sum_le_sum fun k hk => (hPm k (mem_range.1 hk)).2).trans ?_
    rw [sum_add_distrib, ← mul_sum, wM, sum_const, card_range, nsmul_eq_mul]
    have := mul_le_mul_of_nonneg_right hL ht0
    linarith
  have sumMag : ∑ k ∈ range (d - a), |A.val (P ((a : ℤ) + k))| ≤ (1 + A.u) * Z + η := by
    have : ∀ k ∈ range (d - a), |A.val (P ((a : ℤ) + k))| ≤ (1 + A.u) * |E ((a : ℤ) + k)| + A.tiny := by
      intro k hk
      have h1 := (hPm k (mem_range.1 hk)).2
      have h2 := abs_add_le (A.val (P ((a : ℤ) + k)) - E ((a : ℤ) + k)) (E ((a : ℤ) + k))
      rw [sub_add_cancel] at h2
      linarith
    refine (sum_le_sum this).trans ?_
    rw [sum_add_distrib, ← mul_sum, wM, sum_const, card_range, nsmul_eq_mul]
    have := mul_le_mul_of_nonneg_right hL ht0
    linarith
  -- split
  have t1 : ((b : ℤ) - a).toNat = b - a := by omega
  have t2 : ((c : ℤ) - b).toNat = c - b := by omega
  have t3 : ((d : ℤ) - c).toNat = d - c := by omega
  have t4 : ((d : ℤ) - a).toNat = d - a := by omega
  have sV := sum_three (fun m => A.val (P m)) a b c d (by omega) (by omega) (by omega)
  have sM := sum_three (fun m => |A.val (P m)|) a b c d (by omega) (by omega) (by omega)
  rw [t1, t2, t3, t4] at sV sM
  set M1 := ∑ k ∈ range (b - a), |A.val (P ((a : ℤ) + k))| with hM1
  set M2 := ∑ k ∈ range (c - b), |A.val (P ((b : ℤ) + k))| with hM2
  set M3 := ∑ k ∈ range (d - c), |A.val (P ((c : ℤ) + k))| with hM3
  have M10 : 0 ≤ M1 := sum_nonneg fun _ _ => abs_nonneg _
  have M20 : 0 ≤ M2 := sum_nonneg fun _ _ => abs_nonneg _
  have M30 : 0 ≤ M3 := sum_nonneg fun _ _ => abs_nonneg _
  have uZ : A.u * Z ≤ 1 / 1000 * Z := mul_le_mul_of_nonneg_right hu hZ0
  have big : 8 * (|A.val s0| + M1 + M2 + M3) ≤ A.huge := by linarith
  have cnt : ∀ n : ℕ, n ≤ d - a → (n : ℝ) * A.u ≤ 2 / 5 := by
    intro n hn
    have h1 : (n : ℝ) ≤ u.length := le_trans (by exact_mod_cast hn) hL
    exact (mul_le_mul_of_nonneg_right h1 hu0).trans hlen
  have r1 := lane_rounding A hu (fun k : ℕ => P ((a : ℤ) + k)) (b - a) (cnt _ (by omega))
    (fun k hk => hPfin _ (by omega) (by omega)) (FloatArith.Approx.exact hf0) le_rfl (by norm_num)
    (by linarith)
  have r2 := lane_rounding A hu (fun k : ℕ => P ((b : ℤ) + k)) (c - b) (cnt _ (by omega))
    (fun k hk => hPfin _ (by omega) (by omega)) r1 (by linarith) (by linarith)
    (by linarith)
  have r3 := lane_rounding A hu (fun k : ℕ => P ((c : ℤ) + k)) (d - c) (cnt _ (by omega))
    (fun k hk => hPfin _ (by omega) (by omega)) r2 (by linarith) (by linarith)
    (by linarith)
  refine ⟨r3.fin, ?_⟩
  have re := r3.err
  have e1 : A.val s0 + ∑ k ∈ range (b - a), A.val (P ((a : ℤ) + k)) + ∑ k ∈ range (c - b), A.val (P ((b : ℤ) + k)) +
      ∑ k ∈ range (d - c), A.val (P ((c : ℤ) + k)) =
      A.val s0 + ∑ k ∈ range (d - a), A.val (P ((a : ℤ) + k)) := by
    rw [← sV]; ring
  have e2 : |A.val s0| + M1 + M2 + M3 = |A.val s0| + ∑ k ∈ range (d - a), |A.val (P ((a : ℤ) + k))| := by
    rw [← sM]; ring
  rw [e1, e2] at re
  have h7 := abs_add_le (A.val (laneLoop (plusCompensated : ReduceOp F) (fun k : ℕ => P ((c : ℤ) + k)) (d - c)
      (laneLoop (plusCompensated : ReduceOp F) (fun k : ℕ => P ((b : ℤ) + k)) (c - b)
        (laneLoop (plusCompensated : ReduceOp F) (fun k : ℕ => P ((a : ℤ) + k)) (b - a) s0))) -
      (A.val s0 + ∑ k ∈ range (d - a), A.val (P ((a : ℤ) + k))))
    (∑ k ∈ range (d - a), A.val (P ((a : ℤ) + k)) - A.convVal u v N)
  have h8 := mul_le_mul_of_nonneg_left
    (show |A.val s0| + ∑ k ∈ range (d - a), |A.val (P ((a : ℤ) + k))| ≤ |A.val s0| + ((1 + A.u) * Z + η) by
      linarith) (show 0 ≤ 0 + 8 * A.u + 8 * A.u + 8 * A.u by linarith)
  have uuZ : A.u * (A.u * Z) ≤ 1 / 1000 * (A.u * Z) := mul_le_mul_of_nonneg_right hu (mul_nonneg hu0 hZ0)
  have uη : A.u * η ≤ 1 / 1000 * η := mul_le_mul_of_nonneg_right hu hη0
  have us0 : 0 ≤ A.u * |A.val s0| := mul_nonneg hu0 hs0
  have uZ0 : 0 ≤ A.u * Z := mul_nonneg hu0 hZ0
  have e3 : (0 + 8 * A.u + 8 * A.u + 8 * A.u) * (|A.val s0| + ((1 + A.u) * Z + η)) =
    24 * (A.u * |A.val s0|) + 24 * (A.u * Z) + 24 * (A.u * (A.u * Z)) + 24 * (A.u * η) := by ring
  rw [e3] at h8
  have e4 : 26 * A.u * (|A.val s0| + Z) = 26 * (A.u * |A.val s0|) + 26 * (A.u * Z) := by ring
  rw [e4]
  refine le_trans (le_of_eq ?_) (h7.trans ?_)
  · congr 1
    simp only [hP]
    ring
  · linarith

/-! ### multiply-add chains -/

theorem fma_rounding (f : F → F → F → F) {a b c : F}
    (hf : f a b c = a * b + c ∨
      (|A.val a * A.val b + A.val c| ≤ A.huge → A.finite (f a b c) ∧
        |A.val (f a b c) - (A.val a * A.val b + A.val c)| ≤ A.u * |A.val a * A.val b + A.val c| + A.tiny))
    (ha : A.finite a) (hb : A.finite b) (hc : A.finite c)
    (hh : (1 + A.u) * |A.val a * A.val b| + A.tiny + |A.val c| ≤ A.huge) :
    A.finite (f a b c) ∧ |A.val (f a b c) - (A.val a * A.val b + A.val c)| ≤
      A.u * |A.val c| + ((1 + A.u) ^ 2 - 1) * |A.val a * A.val b| + (1 + A.u) * A.tiny := by
  have hu0 := A.u_nonneg
  have ht0 := A.tiny_nonneg
  set p := A.val a * A.val b with hp
  have p0 := abs_nonneg p
  have c0 := abs_nonneg (A.val c)
  have up0 : 0 ≤ A.u * |p| := mul_nonneg hu0 p0
  have uup0 : 0 ≤ A.u * (A.u * |p|) := mul_nonneg hu0 up0
  have ut0 : 0 ≤ A.u * A.tiny := mul_nonneg hu0 ht0
  have e1 : ((1 + A.u) ^ 2 - 1) * |p| = 2 * (A.u * |p|) + A.u * (A.u * |p|) := by ring
  rw [e1]
  rcases hf with hf | hf
  · obtain ⟨fp, ep⟩ := A.mul a b ha hb (by linarith)
    rw [← hp] at ep
    have h1 : |A.val (a * b)| ≤ (1 + A.u) * |p| + A.tiny := by
      have := abs_add_le (A.val (a * b) - p) p
      rw [sub_add_cancel] at this
      linarith
    have h2 : |A.val (a * b) + A.val c| ≤ (1 + A.u) * |p| + A.tiny + |A.val c| := by
      have := abs_add_le (A.val (a * b)) (A.val c)
      linarith
    obtain ⟨fs, es⟩ := A.add (a * b) c fp hc (h2.trans hh)
    rw [hf]
    refine ⟨fs, ?_⟩
    have h3 := mul_le_mul_of_nonneg_left h2 hu0
    have h4 := abs_add_le (A.val (a * b + c) - (A.val (a * b) + A.val c)) (A.val (a * b) - p)
    have e2 : A.val (a * b + c) - (A.val (a * b) + A.val c) + (A.val (a * b) - p) =
      A.val (a * b + c) - (p + A.val c) := by ring
    rw [e2] at h4
    have e3 : A.u * ((1 + A.u) * |p| + A.tiny + |A.val c|) =
      A.u * |p| + A.u * (A.u * |p|) + A.u * A.tiny + A.u * |A.val c| := by ring
    linarith
  · have h2 : |p + A.val c| ≤ |p| + |A.val c| := abs_add_le _ _
    obtain ⟨fs, es⟩ := hf (by linarith)
    refine ⟨fs, ?_⟩
    have h3 := mul_le_mul_of_nonneg_left h2 hu0
    linarith

/-- `s` is the result of adding products of total magnitude `X` (including the start value) to `S`, by `k`
multiply-adds -/
structure FloatArith.Chain (s : F) (S X : ℝ) (k : ℕ) : Prop where
  fin : A.finite s
  err : |A.val s - S| ≤ ((1 + A.u) ^ (k + 1) - 1) * X + k * (1 + A.u) ^ k * A.tiny
  le : |S| ≤ X

variable {A}

theorem FloatArith.Chain.nonneg {s : F} {S X : ℝ} {k : ℕ} (h : A.Chain s S X k) : 0 ≤ X :=
  (abs_nonneg _).trans h.le

theorem FloatArith.Chain.abs_le {s : F} {S X : ℝ} {k : ℕ} (h : A.Chain s S X k) :
    |A.val s| ≤ (1 + A.u) ^ (k + 1) * X + k * (1 + A.u) ^ k * A.tiny := by
  have h1 := abs_add_le (A.val s - S) S
  rw [sub_add_cancel] at h1
  have := h.err
  have := h.le
  linarith

theorem FloatArith.Chain.skip {s : F} {S X : ℝ} {k : ℕ} (h : A.Chain s S X k) : A.Chain s S X (k + 1) := by
  refine ⟨h.fin, h.err.trans ?_, h.le⟩
  have hu0 := A.u_nonneg
  have ht0 := A.tiny_nonneg
  have g1 : (1 : ℝ) ≤ 1 + A.u := by linarith
  apply add_le_add
  · exact mul_le_mul_of_nonneg_right (by linarith [pow_le_pow_right₀ g1 (show k + 1 ≤ k + 1 + 1 by omega)]) h.nonneg
  · refine mul_le_mul_of_nonneg_right (mul_le_mul (by push_cast; linarith) (pow_le_pow_right₀ g1 (by omega))
      (by positivity) (by positivity)) ht0

theorem FloatArith.Chain.step {s : F} {S X : ℝ} {k n : ℕ} (h : A.Chain s S X k) {f : F → F → F → F} {a b : F}
    (hf : f a b s = a * b + s ∨
      (|A.val a * A.val b + A.val s| ≤ A.huge → A.finite (f a b s) ∧
        |A.val (f a b s) - (A.val a * A.val b + A.val s)| ≤ A.u * |A.val a * A.val b + A.val s| + A.tiny))
    (ha : A.finite a) (hb : A.finite b) (hk : k + 1 ≤ n)
    (hh : (1 + A.u) ^ (n + 1) * (X + |A.val a * A.val b| + n * A.tiny) ≤ A.huge) :
    A.Chain (f a b s) (S + A.val a * A.val b) (X + |A.val a * A.val b|) (k + 1) := by
  have hu0 := A.u_nonneg
  have ht0 := A.tiny_nonneg
  have hX := h.nonneg
  have g1 : (1 : ℝ) ≤ 1 + A.u := by linarith
  set g := 1 + A.u with hg
  set p := A.val a * A.val b with hp
  have p0 := abs_nonneg p
  have gk : 0 ≤ g ^ k := by positivity
  have gk1 : g ^ k ≤ g ^ (k + 1) := pow_le_pow_right₀ g1 (by omega)
  have gk2 : g ^ (k + 1) ≤ g ^ (n + 1) := pow_le_pow_right₀ g1 (by omega)
  have gg : g ≤ g ^ (k + 1) := by
    have := pow_le_pow_right₀ g1 (show 1 ≤ k + 1 by omega); simpa using this
  have g1k : (1 : ℝ) ≤ g ^ (k + 1) := one_le_pow₀ g1
  have hkn : (k : ℝ) + 1 ≤ n := by exact_mod_cast hk
  have hs := h.abs_le
  have big : g * |p| + A.tiny + |A.val s| ≤ A.huge := by
    refine le_trans ?_ hh
    have a1 : g * |p| ≤ g ^ (k + 1) * |p| := mul_le_mul_of_nonneg_right gg p0
    have a2 : A.tiny ≤ g ^ (k + 1) * A.tiny := by
      have := mul_le_mul_of_nonneg_right g1k ht0; linarith
    have a3 : (k : ℝ) * g ^ k * A.tiny ≤ (k : ℝ) * g ^ (k + 1) * A.tiny :=
      mul_le_mul_of_nonneg_right (mul_le_mul_of_nonneg_left gk1 (by positivity)) ht0
    have a4 : g ^ (k + 1) * (X + |p| + ((k : ℝ) + 1) * A.tiny) ≤ g ^ (n + 1) * (X + |p| + n * A.tiny) := by
      refine mul_le_mul gk2 ?_ (by positivity) (by positivity)
      have := mul_le_mul_of_nonneg_right hkn ht0
      linarith
    refine le_trans ?_ a4
    have e : g ^ (k + 1) * (X + |p| + ((k : ℝ) + 1) * A.tiny) =
      g ^ (k + 1) * X + g ^ (k + 1) * |p| + (k : ℝ) * g ^ (k + 1) * A.tiny + g ^ (k + 1) * A.tiny := by ring
    rw [e]
    linarith
  obtain ⟨ff, ee⟩ := fma_rounding A f hf ha hb h.fin big
  refine ⟨ff, ?_, (abs_add_le _ _).trans (add_le_add h.le le_rfl)⟩
  have h1 := abs_add_le (A.val (f a b s) - (p + A.val s)) (A.val s - S)
  have e1 : A.val (f a b s) - (p + A.val s) + (A.val s - S) = A.val (f a b s) - (S + p) := by ring
  rw [e1] at h1
  have he := h.err
  rw [← hg] at he ee
  have us := mul_le_mul_of_nonneg_left hs hu0
  have b1 : (g ^ 2 - 1) * |p| ≤ (g ^ (k + 1 + 1) - 1) * |p| :=
    mul_le_mul_of_nonneg_right (by linarith [pow_le_pow_right₀ g1 (show 2 ≤ k + 1 + 1 by omega)]) p0
  have b2 : g * A.tiny ≤ g ^ (k + 1) * A.tiny := mul_le_mul_of_nonneg_right gg ht0
  have e2 : A.u = g - 1 := by rw [hg]; ring
  have e3 : A.u * (g ^ (k + 1) * X + k * g ^ k * A.tiny) =
    (g ^ (k + 1 + 1) - g ^ (k + 1)) * X + (k * g ^ (k + 1) - k * g ^ k) * A.tiny := by
    rw [e2]; ring
  rw [e3] at us
  have e4 : (g ^ (k + 1 + 1) - 1) * (X + |p|) + ((k + 1 : ℕ) : ℝ) * g ^ (k + 1) * A.tiny =
    (g ^ (k + 1 + 1) - 1) * X + (g ^ (k + 1 + 1) - 1) * |p| + k * g ^ (k + 1) * A.tiny + g ^ (k + 1) * A.tiny := by
    push_cast; ring
  rw [e4]
  linarith

theorem FloatArith.Chain.mono {s : F} {S X : ℝ} {k n : ℕ} (h : A.Chain s S X k) (hkn : k ≤ n) :
    A.Chain s S X n := by
  induction hkn with
  | refl => exact h
  | step _ ih => exact ih.skip

variable (A)

theorem slide_rounding' (vec : Bool) (W : ℕ) (u v out : List F) (n : ℕ) (acc : Bool)
    (hns : slideSwaps u.length v.length = false)
    (hfu : ∀ a ∈ u, A.finite a) (hfv : ∀ a ∈ v, A.finite a) (hfo : acc = true → ∀ a ∈ out, A.finite a)
    (hh : ∀ j, j < out.length → (1 + A.u) ^ (u.length + 1) *
      (|A.val (if acc then sig out j else 0)| + A.convMag u v (n + j) + u.length * A.tiny) ≤ A.huge) :
    ∃ out', convolutionSlide vec W u v out n acc = .ok out' ∧ out'.length = out.length ∧
      ∀ j, j < out.length → A.Chain (sig out' j) (A.val (if acc then sig out j else 0) + A.convVal u v (n + j))
        (|A.val (if acc then sig out j else 0)| + A.convMag u v (n + j)) u.length := by
  rw [convolutionSlide, if_neg (by simp [hns])]
  have hu0 := A.u_nonneg
  have ht0 := A.tiny_nonneg
  set base := if acc then out else out.map fun _ => 0 with hbase
  have hbl : base.length = out.length := by rw [hbase]; split <;> simp
  have hbs : ∀ j, sig base j = if acc then sig out j else 0 := by
    intro j
    rw [hbase]; split
    · rfl
    · unfold sig; by_cases h : j < out.length <;> simp [h]
  have hbf : ∀ j, A.finite (sig base j) := by
    intro j
    rw [hbs]
    split
    · rename_i ha
      have := A.finite_sigI (hfo ha) (j : ℤ)
      rwa [sigI_nat] at this
    · exact A.zero_finite
  set mF : ℤ := max 0 ((n : ℤ) - v.length + 1) with hmF
  set mL : ℤ := min (u.length : ℤ) (n + out.length) with hmL
  set E : ℕ → ℕ → ℝ := fun j i => A.val (sigI u (mF + i)) * A.val (sigI v ((n : ℤ) + j - (mF + i))) with hE
  have emF : ((mF.toNat : ℕ) : ℤ) = mF := by omega
  have wV : ∀ j, j < out.length → ∑ i ∈ range (mL - mF).toNat, E j i = A.convVal u v (n + j) := by
    intro j hj
    have hw := A.convVal_window u v (n + j) mF.toNat (mL - mF).toNat (by omega) (by omega)
    rw [emF] at hw
    push_cast at hw
    exact hw
  have wM : ∀ j, j < out.length → ∑ i ∈ range (mL - mF).toNat, |E j i| = A.convMag u v (n + j) := by
    intro j hj
    have hw := A.convMag_window u v (n + j) mF.toNat (mL - mF).toNat (by omega) (by omega)
    rw [emF] at hw
    push_cast at hw
    exact hw
  have hzero : ∀ j i : ℕ, (n : ℤ) + j - (mF + i) < 0 ∨ (v.length : ℤ) ≤ (n : ℤ) + j - (mF + i) → E j i = 0 := by
    intro j i h
    have : sigI v ((n : ℤ) + j - (mF + i)) = 0 := by
      rcases h with h | h
      · exact sigI_neg h
      · exact sigI_ge h
    simp only [hE, this, A.val_zero, mul_zero]
  have hpart : ∀ j k, j < out.length → k < (mL - mF).toNat →
      |A.val (sig base j)| + ∑ i ∈ range k, |E j i| + |E j k| ≤
        |A.val (sig base j)| + A.convMag u v (n + j) := by
    intro j k hj hk
    rw [← wM j hj, add_assoc, ← sum_range_succ]
    apply add_le_add le_rfl
    apply sum_le_sum_of_subset_of_nonneg
    · intro i hi
      have := mem_range.1 hi
      exact mem_range.2 (by omega)
    · intro i _ _; exact abs_nonneg _
  have key := forN_inv (body := fun k (out' : List F) => do
      let slidingRange : Interval Int := ⟨mF + k, mF + v.length + k⟩
      let multiplier ← rd u slidingRange.first
      let writeRange := (Interval.mk (n : ℤ) ((n : ℤ) + out.length)).intersection slidingRange
      let writeRangeOut := writeRange.unshift n
      let writeFirst2 := writeRange.first - slidingRange.first
      fmaTransform vec W multiplier v out' writeRangeOut.first
        (writeRangeOut.last - writeRangeOut.first).toNat writeFirst2)
    (fun k s => s.length = out.length ∧ ∀ j : ℕ, j < out.length →
      A.Chain (sig s j) (A.val (sig base j) + ∑ i ∈ range k, E j i)
        (|A.val (sig base j)| + ∑ i ∈ range k, |E j i|) k)
    (mL - mF).toNat base ⟨hbl, by
      intro j hj
      refine ⟨hbf j, ?_, ?_⟩
      · simp only [range_zero, sum_empty, add_zero, sub_self, abs_zero, Nat.cast_zero, zero_mul, zero_add, pow_one,
          add_sub_cancel_left]
        positivity
      · simp⟩
  replace key := key (by
      rintro k s hk ⟨hl, hs⟩
      have hrd : rd u (mF + k) = .ok (sigI u (mF + k)) := rd_sig (by omega) (by omega)
      simp only [Interval.intersection, Interval.unshift]
      rw [hrd, Out.ok_bind]
      have hstep : ∀ j (s' : F), j < out.length →
          (s' = Fma.lane (sigI v ((n : ℤ) + j - (mF + k))) (sigI u (mF + k)) (sig s j) ∨
            s' = Fma.scalar (sigI v ((n : ℤ) + j - (mF + k))) (sigI u (mF + k)) (sig s j)) →
          A.Chain s' (A.val (sig base j) + ∑ i ∈ range (k + 1), E j i)
            (|A.val (sig base j)| + ∑ i ∈ range (k + 1), |E j i|) (k + 1) := by
        intro j s' hj hs'
        have hch := hs j hj
        have hfv' := A.finite_sigI hfv ((n : ℤ) + j - (mF + k))
        have hfu' := A.finite_sigI hfu (mF + k)
        rw [sum_range_succ, sum_range_succ, ← add_assoc, ← add_assoc]
        have hb := hh j hj
        rw [← hbs] at hb
        have hc : (1 + A.u) ^ (u.length + 1) * (|A.val (sig base j)| + ∑ i ∈ range k, |E j i| +
            |A.val (sigI v ((n : ℤ) + j - (mF + k))) * A.val (sigI u (mF + k))| + u.length * A.tiny) ≤ A.huge := by
          refine le_trans (mul_le_mul_of_nonneg_left ?_ (by positivity)) hb
          have := hpart j k hj hk
          rw [mul_comm (A.val (sigI v _))]
          exact add_le_add this le_rfl
        have eE : E j k = A.val (sigI v ((n : ℤ) + j - (mF + k))) * A.val (sigI u (mF + k)) := by
          simp only [hE]; ring
        rw [eE]
        rcases hs' with rfl | rfl
        · exact hch.step (A.lane _ _ _ hfv' hfu' hch.fin) hfv' hfu' (by omega) hc
        · exact hch.step (A.scalar _ _ _ hfv' hfu' hch.fin) hfv' hfu' (by omega) hc
      have hskip : ∀ j, j < out.length → E j k = 0 →
          A.Chain (sig s j) (A.val (sig base j) + ∑ i ∈ range (k + 1), E j i)
            (|A.val (sig base j)| + ∑ i ∈ range (k + 1), |E j i|) (k + 1) := by
        intro j hj h0
        rw [sum_range_succ, sum_range_succ, h0, abs_zero, add_zero, add_zero]
        exact (hs j hj).skip
      split
      · rename_i hlt
        simp only
        obtain ⟨s', e1, e2, e3⟩ := fmaTransform_steps vec W (sigI u (mF + k)) v s
          (max (n : ℤ) (mF + k) - n) (min ((n : ℤ) + out.length) (mF + v.length + k) - n -
            (max (n : ℤ) (mF + k) - n)).toNat (max (n : ℤ) (mF + k) - (mF + k)) (by
            right
            refine ⟨by omega, by omega, by rw [hl]; omega, by omega⟩)
        refine ⟨s', e1, by rw [e2, hl], fun j hj => ?_⟩
        have h3 := e3 j
        split at h3
        · have : max (n : ℤ) (mF + k) - (mF + k) + (j - (max (n : ℤ) (mF + k) - n)) =
            (n : ℤ) + j - (mF + k) := by omega
          rw [this] at h3
          exact hstep j _ hj h3
        · rename_i hr
          rw [h3]
          exact hskip j hj (hzero j k (by omega))
      · rename_i hnlt
        simp only
        obtain ⟨s', e1, e2, e3⟩ := fmaTransform_steps vec W (sigI u (mF + k)) v s (0 - (n : ℤ))
          (0 - (n : ℤ) - (0 - (n : ℤ))).toNat (0 - (mF + k)) (Or.inl (by omega))
        refine ⟨s', e1, by rw [e2, hl], fun j hj => ?_⟩
        have h3 := e3 j
        rw [if_neg (by omega)] at h3
        rw [h3]
        exact hskip j hj (hzero j k (by omega)))
  obtain ⟨s, hs, hl, hi⟩ := key
  refine ⟨s, hs, hl, fun j hj => ?_⟩
  have := hi j hj
  rw [wV j hj, wM j hj, hbs] at this
  exact this.mono (by omega)

/-- the sliding kernel: `m` is the length of the input that is walked through -/
theorem slide_rounding (vec : Bool) (W : ℕ) (u v out : List F) (n : ℕ) (acc : Bool) (m : ℕ)
    (hm : m = if slideSwaps u.length v.length then v.length else u.length)
    (hfu : ∀ a ∈ u, A.finite a) (hfv : ∀ a ∈ v, A.finite a) (hfo : acc = true → ∀ a ∈ out, A.finite a)
    (hh : ∀ j, j < out.length → (1 + A.u) ^ (m + 1) *
      (|A.val (if acc then sig out j else 0)| + A.convMag u v (n + j) + m * A.tiny) ≤ A.huge) :
    ∃ out', convolutionSlide vec W u v out n acc = .ok out' ∧ out'.length = out.length ∧
      ∀ j, j < out.length → A.Chain (sig out' j) (A.val (if acc then sig out j else 0) + A.convVal u v (n + j))
        (|A.val (if acc then sig out j else 0)| + A.convMag u v (n + j)) m := by
  cases hs : slideSwaps u.length v.length with
  | false =>
    rw [hs, if_neg (by simp)] at hm
    subst hm
    exact slide_rounding' A vec W u v out n acc hs hfu hfv hfo hh
  | true =>
    rw [hs, if_pos rfl] at hm
    subst hm
    rw [convolutionSlide, if_pos hs]
    obtain ⟨o, h1, h2, h3⟩ := slide_rounding' A vec W v u out n acc (slideSwaps_swap hs) hfv hfu hfo
      (by simpa only [A.convMag_comm v u] using hh)
    exact ⟨o, h1, h2, by simpa only [A.convMag_comm v u, A.convVal_comm v u] using h3⟩

end
end Verif
