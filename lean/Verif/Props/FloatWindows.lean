import Verif.Spec.FloatWindows
import Verif.Lemmas.Spaces
import Verif.Lemmas.BinaryFormat
import Verif.Props.Windowing
import Mathlib.Analysis.Real.Pi.Bounds

/-!
# Property C93: evenly spaced points and the cosine windows in floating point
-/

set_option linter.unusedVariables false
set_option linter.style.longLine false
set_option linter.unusedSectionVars false

namespace Verif
open Finset

section
variable {F : Type} [Zero F] [Add F] [Sub F] [Mul F] [Fma F] [Div F] [FloatFun F] {A : FloatArithFun F}

namespace FloatArithFun.Near

private theorem mag {a : F} {x E X : ℝ} (h : A.Near a x E) (hX : |x| ≤ X) : |A.val a| ≤ X + E := by
  have h1 := abs_add_le (A.val a - x) x
  rw [sub_add_cancel] at h1
  linarith [h.2]

theorem mono {a : F} {x E E' : ℝ} (h : A.Near a x E) (hE : E ≤ E') : A.Near a x E' := ⟨h.1, h.2.trans hE⟩

theorem move {a : F} {x y E E' : ℝ} (h : A.Near a x E) (hy : |x - y| ≤ E') : A.Near a y (E + E') := by
  refine ⟨h.1, ?_⟩
  have h1 := abs_add_le (A.val a - x) (x - y)
  rw [sub_add_sub_cancel] at h1
  linarith [h.2]

theorem add {a b : F} {x y Ea Eb ea eb S E : ℝ} (ha : A.Near a x Ea) (hb : A.Near b y Eb) (hS : |x + y| ≤ S) (hea : Ea ≤ ea) (heb : Eb ≤ eb)
    (hh : S + ea + eb ≤ A.huge) (hE : Ea + Eb + A.u * (S + ea + eb) ≤ E) : A.Near (a + b) (x + y) E := by
  have h1 : |A.val a + A.val b - (x + y)| ≤ Ea + Eb := by
    rw [show A.val a + A.val b - (x + y) = (A.val a - x) + (A.val b - y) by ring]
    exact (abs_add_le _ _).trans (add_le_add ha.2 hb.2)
  have h2 : |A.val a + A.val b| ≤ S + ea + eb := by
    have := abs_add_le (A.val a + A.val b - (x + y)) (x + y)
    rw [sub_add_cancel] at this
    linarith
  obtain ⟨f1, f2⟩ := A.add a b ha.1 hb.1 (h2.trans hh)
  refine ⟨f1, ?_⟩
  have h3 := abs_add_le (A.val (a + b) - (A.val a + A.val b)) (A.val a + A.val b - (x + y))
  rw [sub_add_sub_cancel] at h3
  have h4 := mul_le_mul_of_nonneg_left h2 A.u_nonneg
  linarith

theorem sub {a b : F} {x y Ea Eb ea eb S E : ℝ} (ha : A.Near a x Ea) (hb : A.Near b y Eb) (hS : |x - y| ≤ S) (hea : Ea ≤ ea) (heb : Eb ≤ eb)
    (hh : S + ea + eb ≤ A.huge) (hE : Ea + Eb + A.u * (S + ea + eb) ≤ E) : A.Near (a - b) (x - y) E := by
  have h1 : |A.val a - A.val b - (x - y)| ≤ Ea + Eb := by
    rw [show A.val a - A.val b - (x - y) = (A.val a - x) - (A.val b - y) by ring]
    exact (abs_sub _ _).trans (add_le_add ha.2 hb.2)
  have h2 : |A.val a - A.val b| ≤ S + ea + eb := by
    have := abs_add_le (A.val a - A.val b - (x - y)) (x - y)
    rw [sub_add_cancel] at this
    linarith
  obtain ⟨f1, f2⟩ := A.sub a b ha.1 hb.1 (h2.trans hh)
  refine ⟨f1, ?_⟩
  have h3 := abs_add_le (A.val (a - b) - (A.val a - A.val b)) (A.val a - A.val b - (x - y))
  rw [sub_add_sub_cancel] at h3
  have h4 := mul_le_mul_of_nonneg_left h2 A.u_nonneg
  linarith

theorem mul {a b : F} {x y Ea Eb ea eb X Y E : ℝ} (ha : A.Near a x Ea) (hb : A.Near b y Eb) (hX : |x| ≤ X) (hY : |y| ≤ Y) (hea : Ea ≤ ea) (heb : Eb ≤ eb)
    (hh : (X + ea) * (Y + eb) ≤ A.huge) (hE : Ea * Y + X * Eb + ea * Eb + A.u * ((X + ea) * (Y + eb)) + A.tiny ≤ E) : A.Near (a * b) (x * y) E := by
  have ea0 : 0 ≤ Ea := (abs_nonneg _).trans ha.2
  have eb0 : 0 ≤ Eb := (abs_nonneg _).trans hb.2
  have x0 : 0 ≤ X := (abs_nonneg _).trans hX
  have y0 : 0 ≤ Y := (abs_nonneg _).trans hY
  have h1 : |A.val a * A.val b - x * y| ≤ Ea * Y + X * Eb + ea * Eb := by
    rw [show A.val a * A.val b - x * y = (A.val a - x) * y + x * (A.val b - y) + (A.val a - x) * (A.val b - y) by ring]
    refine (abs_add_le _ _).trans (add_le_add ((abs_add_le _ _).trans (add_le_add ?_ ?_)) ?_) <;> rw [abs_mul]
    · exact mul_le_mul ha.2 hY (abs_nonneg _) ea0
    · exact mul_le_mul hX hb.2 (abs_nonneg _) x0
    · exact mul_le_mul (ha.2.trans hea) hb.2 (abs_nonneg _) (ea0.trans hea)
  have h2 : |A.val a * A.val b| ≤ (X + ea) * (Y + eb) := by
    rw [abs_mul]
    exact mul_le_mul ((ha.mag hX).trans (by linarith)) ((hb.mag hY).trans (by linarith)) (abs_nonneg _) (by linarith)
  obtain ⟨f1, f2⟩ := A.mul a b ha.1 hb.1 (h2.trans hh)
  refine ⟨f1, ?_⟩
  have h3 := abs_add_le (A.val (a * b) - A.val a * A.val b) (A.val a * A.val b - x * y)
  rw [sub_add_sub_cancel] at h3
  have h4 := mul_le_mul_of_nonneg_left h2 A.u_nonneg
  linarith

end FloatArithFun.Near

theorem linSpaceF_writes (e : Exec) {mem m : List F} {out : Span} {g : ℕ → F} (hw : out.Within mem) (h : Writes mem m out g)
    (start stop : F) (inclusive : Bool) :
    ∃ m', linSpaceF e m out start stop inclusive = .ok m' ∧ Writes mem m' out (fun i => FloatFun.ofSize i *
      ((stop - start) / FloatFun.ofSize (linDivisor out.size inclusive)) + start) := by
  have hw' := h.within hw
  have hd : (max 1 ((out.size : ℤ) - (if inclusive then 1 else 0))).toNat = linDivisor out.size inclusive := by
    unfold linDivisor
    cases inclusive <;> simp <;> omega
  obtain ⟨m1, e1, h1⟩ := fill_writes m out (fun i => (FloatFun.ofSize i : F)) hw'
  obtain ⟨m2, e2, h2⟩ := compoundVS_writes e .mul ((stop - start) / FloatFun.ofSize (linDivisor out.size inclusive)) hw' h1
  obtain ⟨m3, e3, h3⟩ := compoundVS_writes e .add start hw' h2
  refine ⟨m3, ?_, ⟨h3.length.trans h.length, fun i hi => h3.written i hi, fun j hj => (h3.rest j hj).trans (h.rest j hj)⟩⟩
  unfold linSpaceF
  simp only []
  rw [e1, Out.ok_bind, hd, e2, Out.ok_bind, e3]

private theorem ratio_near {Δ D d' D' u : ℝ} (hD : 0 < D) (hu0 : 0 ≤ u) (hu : u ≤ 1 / 1000) (h1 : |d' - Δ| ≤ u * |Δ|) (h2 : |D' - D| ≤ u * D) :
    0 < D' ∧ |d' / D' - Δ / D| ≤ 3 * u * (|Δ| / D) := by
  have h2' := abs_le.1 h2
  have hD' : 999 / 1000 * D ≤ D' := by nlinarith
  have hp : 0 < D' := by linarith
  refine ⟨hp, ?_⟩
  rw [div_sub_div _ _ hp.ne' hD.ne', abs_div, abs_of_pos (mul_pos hp hD), div_le_iff₀ (mul_pos hp hD)]
  have e1 : d' * D - D' * Δ = (d' - Δ) * D - Δ * (D' - D) := by ring
  rw [e1]
  refine (abs_sub _ _).trans ?_
  rw [abs_mul, abs_mul, abs_of_pos hD]
  have g1 := mul_le_mul_of_nonneg_right h1 hD.le
  have g2 := mul_le_mul_of_nonneg_left h2 (abs_nonneg Δ)
  have g3 : 3 * u * (|Δ| / D) * (D' * D) = 3 * u * |Δ| * D' := by field_simp
  rw [g3]
  have g4 : 3 * u * |Δ| * (999 / 1000 * D) ≤ 3 * u * |Δ| * D' := mul_le_mul_of_nonneg_left hD' (by positivity)
  have g5 : 0 ≤ u * |Δ| * D := by positivity
  nlinarith

/-- one point of LinSpace -/
private theorem point_near (n : ℕ) (hs : Suits A n) (start stop : F) (fs : A.finite start) (ft : A.finite stop)
    (hmag : 8 * (|A.val start| + |A.val stop|) ≤ A.huge) (inclusive : Bool) (i : ℕ) (hi : i < n) :
    A.Near (FloatFun.ofSize i * ((stop - start) / FloatFun.ofSize (linDivisor n inclusive)) + start)
      (A.val start + i * ((A.val stop - A.val start) / linDivisor n inclusive))
      (A.u * |A.val start + i * ((A.val stop - A.val start) / linDivisor n inclusive)| +
        9 * A.u * |A.val stop - A.val start| * (i / linDivisor n inclusive) + (3 * i + 2) * A.tiny) := by
  have hu0 := A.u_nonneg
  have ht0 := A.tiny_nonneg
  have hu := hs.u
  obtain ⟨D, hDdef⟩ : ∃ D, D = linDivisor n inclusive := ⟨_, rfl⟩
  rw [← hDdef]
  have hD1 : 1 ≤ D := by rw [hDdef]; unfold linDivisor; omega
  have hDn : D ≤ n := by rw [hDdef]; unfold linDivisor; cases inclusive <;> simp <;> omega
  have hiD : i ≤ D := by rw [hDdef]; unfold linDivisor; cases inclusive <;> simp <;> omega
  have hDR : (1 : ℝ) ≤ D := by exact_mod_cast hD1
  have hDnR : (D : ℝ) ≤ n := by exact_mod_cast hDn
  have hiR : (i : ℝ) ≤ D := by exact_mod_cast hiD
  have hi0 : (0 : ℝ) ≤ i := Nat.cast_nonneg i
  have hhuge := hs.huge
  obtain ⟨Δ, hΔ⟩ : ∃ Δ, Δ = A.val stop - A.val start := ⟨_, rfl⟩
  rw [← hΔ]
  have hΔm : |Δ| ≤ |A.val stop| + |A.val start| := by rw [hΔ]; exact abs_sub _ _
  obtain ⟨f1, g1⟩ := A.sub stop start ft fs (by rw [← hΔ]; linarith [abs_nonneg Δ, abs_nonneg (A.val start), abs_nonneg (A.val stop)])
  rw [← hΔ] at g1
  obtain ⟨f2, g2⟩ := A.ofSize D (by linarith)
  obtain ⟨hDp, hr⟩ := ratio_near (by linarith : (0 : ℝ) < D) hu0 hu g1 g2
  obtain ⟨s, hsdef⟩ : ∃ s, s = |Δ| / D := ⟨_, rfl⟩
  rw [← hsdef] at hr
  have hs0 : 0 ≤ s := by rw [hsdef]; positivity
  have hsΔ : s ≤ |Δ| := by rw [hsdef]; exact div_le_self (abs_nonneg _) hDR
  have habs : |Δ / D| = s := by rw [hsdef, abs_div, abs_of_pos (by linarith : (0 : ℝ) < D)]
  obtain ⟨t, ht⟩ : ∃ t, t = A.tiny := ⟨_, rfl⟩
  obtain ⟨u, hudef⟩ : ∃ u, u = A.u := ⟨_, rfl⟩
  have htn : (3 * (n : ℝ) + 2) * t ≤ u / 10 := by rw [ht, hudef]; exact hs.tiny
  rw [← ht] at ht0 ⊢
  rw [← hudef] at hu0 hu hr g1 g2 ⊢
  have hus : u * s ≤ 1 / 1000 * s := mul_le_mul_of_nonneg_right hu hs0
  have hrm : |A.val (stop - start) / A.val (FloatFun.ofSize D)| ≤ s + 3 * u * s := by
    have := abs_add_le (A.val (stop - start) / A.val (FloatFun.ofSize D) - Δ / D) (Δ / D)
    rw [sub_add_cancel, habs] at this
    linarith
  have hn0 : (0 : ℝ) ≤ n := Nat.cast_nonneg n
  have hΔh : 8 * |Δ| ≤ A.huge := by linarith
  obtain ⟨f3, g3⟩ := A.div (stop - start) (FloatFun.ofSize D) f1 f2 hDp.ne' (by linarith)
  rw [← ht, ← hudef] at g3
  have hq : A.Near ((stop - start) / FloatFun.ofSize D) (Δ / D) (5 * u * s + t) := by
    refine ⟨f3, ?_⟩
    have h1 := abs_add_le (A.val ((stop - start) / FloatFun.ofSize D) - A.val (stop - start) / A.val (FloatFun.ofSize D))
      (A.val (stop - start) / A.val (FloatFun.ofSize D) - Δ / D)
    rw [sub_add_sub_cancel] at h1
    have h2 := mul_le_mul_of_nonneg_left hrm hu0
    have h3 : u * (u * s) ≤ u * (1 / 1000 * s) := mul_le_mul_of_nonneg_left hus hu0
    nlinarith [mul_nonneg hu0 hs0]
  obtain ⟨f4, g4⟩ := A.ofSize i (by linarith)
  have hiN : A.Near (FloatFun.ofSize i) (i : ℝ) (u * i) := ⟨f4, by rw [hudef]; exact g4⟩
  obtain ⟨p, hp⟩ : ∃ p, p = (i : ℝ) * s := ⟨_, rfl⟩
  have hp0 : 0 ≤ p := by rw [hp]; positivity
  have hpΔ : p ≤ |Δ| := by
    rw [hp, hsdef, mul_div_assoc', div_le_iff₀ (by linarith), mul_comm]
    exact mul_le_mul_of_nonneg_left hiR (abs_nonneg _)
  have hup0 : 0 ≤ u * p := mul_nonneg hu0 hp0
  have hup : u * p ≤ 1 / 1000 * p := mul_le_mul_of_nonneg_right hu hp0
  have huup : u * (u * p) ≤ 1 / 1000 * (u * p) := mul_le_mul_of_nonneg_right hu hup0
  have huuup : u * (u * (u * p)) ≤ 1 / 1000 * (u * (u * p)) := mul_le_mul_of_nonneg_right hu (mul_nonneg hu0 hup0)
  obtain ⟨r, hrr⟩ : ∃ r, r = (i : ℝ) * t := ⟨_, rfl⟩
  have hr0 : 0 ≤ r := by rw [hrr]; positivity
  have hr1 : r ≤ 1 := by
    have : r ≤ n * t := by rw [hrr]; exact mul_le_mul_of_nonneg_right (by linarith) ht0
    nlinarith
  have hur0 : 0 ≤ u * r := mul_nonneg hu0 hr0
  have hur : u * r ≤ 1 / 1000 * r := mul_le_mul_of_nonneg_right hu hr0
  have huur : u * (u * r) ≤ 1 / 1000 * (u * r) := mul_le_mul_of_nonneg_right hu hur0
  have ht1 : t ≤ 1 := by nlinarith
  have x1 : ((i : ℝ) + u * i) * (s + (5 * u * s + t)) = p + 6 * (u * p) + 5 * (u * (u * p)) + r + u * r := by rw [hp, hrr]; ring
  have hm := hiN.mul hq (X := (i : ℝ)) (Y := s) (ea := u * i) (eb := 5 * u * s + t) (E := 8 * (u * p) + 2 * r + t) (by rw [abs_of_nonneg hi0])
    habs.le le_rfl le_rfl (by rw [x1]; linarith) (by
      rw [x1, ← hudef, ← ht]
      have x2 : u * i * s + i * (5 * u * s + t) + u * i * (5 * u * s + t) = 6 * (u * p) + 5 * (u * (u * p)) + r + u * r := by rw [hp, hrr]; ring
      rw [x2]
      linarith)
  have hst : A.Near start (A.val start) 0 := ⟨fs, by simp⟩
  obtain ⟨x, hx⟩ : ∃ x, x = A.val start + i * (Δ / D) := ⟨_, rfl⟩
  have hxm : |x| ≤ |A.val start| + p := by
    rw [hx]
    refine (abs_add_le _ _).trans (add_le_add le_rfl ?_)
    rw [abs_mul, habs, abs_of_nonneg hi0, hp]
  have hfin := hm.add hst (S := |x|) (ea := 8 * (u * p) + 2 * r + t) (eb := 0) (E := u * |x| + 9 * (u * p) + (3 * r + 2 * t)) (by rw [hx, add_comm]) le_rfl le_rfl
    (by linarith [abs_nonneg (A.val start), abs_nonneg (A.val stop)]) (by
      rw [← hudef]
      have : u * t ≤ 1 / 1000 * t := mul_le_mul_of_nonneg_right hu ht0
      linarith)
  rw [add_comm ((i : ℝ) * (Δ / D)), ← hx] at hfin
  rw [← hx]
  refine hfin.mono (le_of_eq ?_)
  rw [hp, hrr, hsdef]
  field_simp

/-- **C93** LinSpace in floating point: for every number of points, every point is the exact point up to one rounding of itself, nine of its
distance from the start, and underflow; nothing else in memory changes. -/
theorem C93_linSpace (e : Exec) (mem : List F) (out : Span) (hw : out.Within mem) (hs : Suits A out.size) (start stop : F) (fs : A.finite start)
    (ft : A.finite stop) (hmag : 8 * (|A.val start| + |A.val stop|) ≤ A.huge) (inclusive : Bool) :
    ∃ (mem' : List F) (x : ℕ → F) (step : ℝ), linSpaceF e mem out start stop inclusive = .ok mem' ∧ Writes mem mem' out x ∧
      (inclusive = true → 2 ≤ out.size → A.val start + ((out.size : ℝ) - 1) * step = A.val stop) ∧
      (inclusive = false → 1 ≤ out.size → A.val start + out.size * step = A.val stop) ∧
      ∀ i, i < out.size → A.finite (x i) ∧ |A.val (x i) - (A.val start + i * step)| ≤
        A.u * |A.val start + i * step| + 9 * A.u * (i * |step|) + (3 * i + 2) * A.tiny := by
  have : Inhabited F := ⟨0⟩
  obtain ⟨m, e1, h1⟩ := linSpaceF_writes e hw (Writes.refl mem out hw) start stop inclusive
  have hD : 1 ≤ linDivisor out.size inclusive := by unfold linDivisor; omega
  have hDR : (0 : ℝ) < linDivisor out.size inclusive := by exact_mod_cast hD
  refine ⟨m, _, (A.val stop - A.val start) / linDivisor out.size inclusive, e1, h1, ?_, ?_, fun i hi => ?_⟩
  · rintro rfl hn
    have : linDivisor out.size true = out.size - 1 := by unfold linDivisor; simp; omega
    have h2 : (linDivisor out.size true : ℝ) = out.size - 1 := by rw [this, Nat.cast_sub (by omega)]; simp
    rw [← h2]
    field_simp
    ring
  · rintro rfl hn
    have : linDivisor out.size false = out.size := by unfold linDivisor; simp; omega
    rw [this] at hDR ⊢
    field_simp
    ring
  · have := point_near out.size hs start stop fs ft hmag inclusive i hi
    refine ⟨this.1, this.2.trans (le_of_eq ?_)⟩
    rw [abs_div, abs_of_pos hDR]
    ring

/-! ### windows -/

private theorem cosNear {O : WindowOps F} {uc : ℝ} (hO : O.Ok A uc) {a : F} {x E : ℝ} (h : A.Near a x E) : A.Near (O.cos a) (Real.cos x) (uc + E) := by
  have h1 := hO.cos a h.1
  have h2 := h1.move (y := Real.cos x) (E' := E) ((Real.abs_cos_sub_cos_le _ _).trans h.2)
  exact h2

private theorem sizeNear (k : ℕ) (hk : (k : ℝ) ≤ A.huge) : A.Near (FloatFun.ofSize k) k (A.u * k) := A.ofSize k hk

/-- the argument of the cosine windows -/
private theorem angle_near {O : WindowOps F} {uc : ℝ} (hO : O.Ok A uc) (n : ℕ) (hs : Suits A n) (hn : 2 ≤ n) (i : ℕ) (hi : i < n) :
    A.Near (FloatFun.ofSize i * ((FloatFun.ofSize 2 * O.pi - FloatFun.ofSize 0) / FloatFun.ofSize (linDivisor n true)) + FloatFun.ofSize 0)
      (2 * Real.pi * i / ((n : ℝ) - 1)) (90 * A.u) ∧ |2 * Real.pi * i / ((n : ℝ) - 1)| ≤ 6.3 := by
  have hu0 := A.u_nonneg
  have ht0 := A.tiny_nonneg
  have hu := hs.u
  have hhuge := hs.huge
  have hn0 : (0 : ℝ) ≤ n := Nat.cast_nonneg n
  have hi0 : (0 : ℝ) ≤ i := Nat.cast_nonneg i
  have hnR : (2 : ℝ) ≤ n := by exact_mod_cast hn
  have hiR : (i : ℝ) ≤ n - 1 := by
    have : (i : ℝ) + 1 ≤ n := by exact_mod_cast hi
    linarith
  have ht : A.tiny ≤ A.u / 10 := by nlinarith [hs.tiny]
  have hit : (3 * (i : ℝ) + 2) * A.tiny ≤ A.u / 10 := (mul_le_mul_of_nonneg_right (by linarith) ht0).trans hs.tiny
  have p1 := Real.pi_gt_three
  have p2 := Real.pi_lt_d2
  have hz := sizeNear (A := A) 0 (by push_cast; linarith)
  have hz0 : A.val (FloatFun.ofSize 0 : F) = 0 := by
    have := hz.2
    simp only [Nat.cast_zero, mul_zero, sub_zero] at this
    exact abs_eq_zero.1 (le_antisymm this (abs_nonneg _))
  have h2 := sizeNear (A := A) 2 (by push_cast; linarith)
  have hpi := hO.pi
  have hpib : 2 * A.u * Real.pi ≤ 6.3 * A.u := by nlinarith
  have hstop := h2.mul (hpi.mono hpib) (X := 2) (Y := 3.15) (ea := 1 / 100) (eb := 1 / 100) (E := 26 * A.u) (by simp)
    (by rw [abs_of_pos Real.pi_pos]; linarith) (by push_cast; linarith) (by linarith) (by norm_num; linarith) (by push_cast; linarith)
  push_cast at hstop
  obtain ⟨stop, hst⟩ : ∃ stop : F, stop = FloatFun.ofSize 2 * O.pi := ⟨_, rfl⟩
  rw [← hst] at hstop ⊢
  obtain ⟨v, hv⟩ : ∃ v, v = A.val stop := ⟨_, rfl⟩
  have hsv := abs_le.1 hstop.2
  rw [← hv] at hsv
  have hv0 : 0 ≤ v := by linarith
  have hv1 : v ≤ 6.33 := by linarith
  have key := point_near n hs (FloatFun.ofSize 0) stop hz.1 hstop.1 (by rw [hz0, ← hv, abs_of_nonneg hv0, abs_zero]; linarith) true i hi
  have hdiv : (linDivisor n true : ℝ) = n - 1 := by
    have : linDivisor n true = n - 1 := by unfold linDivisor; simp; omega
    rw [this, Nat.cast_sub (by omega)]
    simp
  rw [hz0, hdiv, ← hv, zero_add, sub_zero] at key
  have hd0 : (0 : ℝ) < (n : ℝ) - 1 := by linarith
  obtain ⟨ρ, hρ⟩ : ∃ ρ, ρ = (i : ℝ) / (n - 1) := ⟨_, rfl⟩
  have hρ0 : 0 ≤ ρ := by rw [hρ]; positivity
  have hρ1 : ρ ≤ 1 := by rw [hρ, div_le_one hd0]; exact hiR
  have e1 : (i : ℝ) * (v / (n - 1)) = v * ρ := by rw [hρ]; ring
  have e2 : 2 * Real.pi * i / ((n : ℝ) - 1) = 2 * Real.pi * ρ := by rw [hρ]; ring
  have hvρ0 : 0 ≤ v * ρ := mul_nonneg hv0 hρ0
  have hvρ : v * ρ ≤ 6.33 := by nlinarith
  rw [e1, abs_of_nonneg hvρ0, abs_of_nonneg hv0, ← hρ] at key
  rw [e2]
  constructor
  · refine (key.move (y := 2 * Real.pi * ρ) (E' := 26 * A.u) ?_).mono ?_
    · rw [show v * ρ - 2 * Real.pi * ρ = (v - 2 * Real.pi) * ρ by ring, abs_mul, abs_of_nonneg hρ0]
      have : |v - 2 * Real.pi| ≤ 26 * A.u := by rw [hv]; exact hstop.2
      calc |v - 2 * Real.pi| * ρ ≤ 26 * A.u * 1 := mul_le_mul this hρ1 hρ0 (by linarith)
        _ = _ := mul_one _
    · have g1 : A.u * (v * ρ) ≤ A.u * 6.33 := mul_le_mul_of_nonneg_left hvρ hu0
      have g2 : 9 * A.u * v * ρ = 9 * (A.u * (v * ρ)) := by ring
      rw [g2]
      linarith
  · rw [abs_of_nonneg (by positivity)]
    nlinarith

/-- `c` times the cosine of an angle that is known up to `E` -/
private theorem term_near {O : WindowOps F} {uc : ℝ} (hO : O.Ok A uc) {n : ℕ} (hs : Suits A n) (c : ℚ) (hc0 : 1 / 1000 ≤ |c|) (hc : |c| ≤ 1) {a : F} {x E : ℝ}
    (h : A.Near a x E) (hE : E ≤ 0.4) {B : ℝ} (hB : |(c : ℝ)| * (uc + E) + 5.2 * |(c : ℝ)| * A.u + A.u / 10 ≤ B) :
    A.Near (O.lit c * O.cos a) (c * Real.cos x) B := by
  have hu0 := A.u_nonneg
  have hu := hs.u
  have hhuge := hs.huge
  have ht0 := A.tiny_nonneg
  have hn0 : (0 : ℝ) ≤ n := Nat.cast_nonneg n
  have ht : A.tiny ≤ A.u / 10 := by nlinarith [hs.tiny]
  have hcR : |(c : ℝ)| ≤ 1 := by exact_mod_cast hc
  obtain ⟨k, hk⟩ : ∃ k, k = |(c : ℝ)| := ⟨_, rfl⟩
  have hk0 : 0 ≤ k := by rw [hk]; exact abs_nonneg _
  have hl := hO.lit c hc0 hc
  rw [← hk] at hl hB hcR
  have huk : A.u * k ≤ 1 / 1000 * k := mul_le_mul_of_nonneg_right hu hk0
  have hE' : uc + E ≤ 0.41 := by linarith [hO.cos_small]
  have huk0 : 0 ≤ A.u * k := mul_nonneg hu0 hk0
  have huuk : A.u * (A.u * k) ≤ 1 / 1000 * (A.u * k) := mul_le_mul_of_nonneg_right hu huk0
  refine hl.mul (cosNear hO h) (X := k) (Y := 1) (ea := 2 * A.u * k) (eb := 0.41) hk.ge (Real.abs_cos_le_one _) le_rfl hE' ?_ ?_
  · linarith
  · have g1 : 2 * A.u * k * (uc + E) ≤ 2 * A.u * k * 0.41 := mul_le_mul_of_nonneg_left hE' (by positivity)
    linarith

private theorem tiny_le {n : ℕ} (hs : Suits A n) : A.tiny ≤ A.u / 10 := by
  have hn0 : (0 : ℝ) ≤ n := Nat.cast_nonneg n
  nlinarith [hs.tiny, A.tiny_nonneg]

/-- an integer multiple of an angle -/
private theorem mult_near {n : ℕ} (hs : Suits A n) (k : ℕ) (hk : k ≤ 3) {a : F} {x : ℝ} (h : A.Near a x (90 * A.u)) (hx : |x| ≤ 6.3) :
    A.Near (FloatFun.ofSize k * a) (k * x) (104 * k * A.u + A.u / 10) := by
  have hu0 := A.u_nonneg
  have hu := hs.u
  have hhuge := hs.huge
  have hn0 : (0 : ℝ) ≤ n := Nat.cast_nonneg n
  have hkR : (k : ℝ) ≤ 3 := by exact_mod_cast hk
  have hk0 : (0 : ℝ) ≤ k := Nat.cast_nonneg k
  have huk0 : 0 ≤ A.u * k := mul_nonneg hu0 hk0
  have huk : A.u * k ≤ 1 / 1000 * k := mul_le_mul_of_nonneg_right hu hk0
  have huuk : A.u * (A.u * k) ≤ 1 / 1000 * (A.u * k) := mul_le_mul_of_nonneg_right hu huk0
  have h2 := sizeNear (A := A) k (by linarith)
  refine h2.mul h (X := (k : ℝ)) (Y := 6.3) (ea := A.u * k) (eb := 0.09) (by rw [abs_of_nonneg hk0]) hx le_rfl (by linarith) (by linarith) ?_
  have := tiny_le hs
  linarith

/-- **C93** Hamming window in floating point, any length: every sample is within `uc / 2 + 46 u` of the exact window, hence the window is
symmetric up to twice that. -/
theorem C93_hamming {O : WindowOps F} {uc : ℝ} (hO : O.Ok A uc) (e : Exec) (mem : List F) (out : Span) (hw : out.Within mem)
    (hs : Suits A out.size) (hn : 2 ≤ out.size) :
    ∃ (mem' : List F) (w : ℕ → F), hammingWindowF O e mem out = .ok mem' ∧ Writes mem mem' out w ∧ ∀ i, i < out.size →
      A.Near (w i) (0.54 - 0.46 * Real.cos (2 * Real.pi * i / ((out.size : ℝ) - 1))) (uc / 2 + 46 * A.u) := by
  have : Inhabited F := ⟨0⟩
  obtain ⟨m1, e1, h1⟩ := linSpaceF_writes e hw (Writes.refl mem out hw) (FloatFun.ofSize 0) (FloatFun.ofSize 2 * O.pi) true
  obtain ⟨m2, e2, h2⟩ := functionInto_writes e O.cos hw h1
  obtain ⟨m3, e3, h3⟩ := compoundVS_writes e .mul (O.lit (-46 / 100)) hw h2
  obtain ⟨m4, e4, h4⟩ := compoundVS_writes e .add (O.lit (54 / 100)) hw h3
  refine ⟨m4, _, ?_, h4, fun i hi => ?_⟩
  · unfold hammingWindowF
    rw [e1, Out.ok_bind, e2, Out.ok_bind, e3, Out.ok_bind, e4]
  have hu0 := A.u_nonneg
  have hu := hs.u
  have hc0 := hO.cos_nonneg
  have hc1 := hO.cos_small
  have hhuge := hs.huge
  have hn0 : (0 : ℝ) ≤ out.size := Nat.cast_nonneg _
  obtain ⟨ha, -⟩ := angle_near hO out.size hs hn i hi
  have hl1 := hO.lit (-46 / 100) (by norm_num [abs_div]) (by norm_num [abs_div])
  have hl2 := hO.lit (54 / 100) (by norm_num [abs_div]) (by norm_num [abs_div])
  have q1 : |((-46 / 100 : ℚ) : ℝ)| = 0.46 := by push_cast; rw [abs_of_nonpos (by norm_num)]; norm_num
  have q2 : |((54 / 100 : ℚ) : ℝ)| = 0.54 := by push_cast; rw [abs_of_nonneg (by norm_num)]; norm_num
  rw [q1] at hl1
  rw [q2] at hl2
  obtain ⟨θ, hθ⟩ : ∃ θ, θ = 2 * Real.pi * i / ((out.size : ℝ) - 1) := ⟨_, rfl⟩
  rw [← hθ] at ha ⊢
  have hcos := abs_le.1 (Real.abs_cos_le_one θ)
  have ht := tiny_le hs
  have hm := (cosNear hO ha).mul hl1 (X := 1) (Y := 0.46) (ea := 0.1) (eb := 0.001) (E := 0.46 * uc + 43.5 * A.u) (Real.abs_cos_le_one _) q1.le
    (by linarith) (by linarith) (by linarith) (by linarith)
  have hr := hm.add hl2 (S := 1) (ea := 0.1) (eb := 0.01) (E := uc / 2 + 46 * A.u)
    (by push_cast; rw [abs_le]; constructor <;> linarith) (by linarith) (by linarith) (by linarith) (by linarith)
  push_cast at hr
  rw [show (0.54 : ℝ) - 0.46 * Real.cos θ = Real.cos θ * (-46 / 100) + 54 / 100 by ring]
  exact hr

/-- **C93** Blackman window in floating point, any length -/
theorem C93_blackman {O : WindowOps F} {uc : ℝ} (hO : O.Ok A uc) (e : Exec) (mem : List F) (out : Span) (hw : out.Within mem)
    (hs : Suits A out.size) (hn : 2 ≤ out.size) :
    ∃ (mem' : List F) (w : ℕ → F), blackmanWindowF O e mem out = .ok mem' ∧ Writes mem mem' out w ∧ ∀ i, i < out.size →
      A.Near (w i) (0.42 - 0.5 * Real.cos (2 * Real.pi * i / ((out.size : ℝ) - 1)) + 0.08 * Real.cos (4 * Real.pi * i / ((out.size : ℝ) - 1)))
        (uc + 80 * A.u) := by
  have : Inhabited F := ⟨0⟩
  obtain ⟨m1, e1, h1⟩ := linSpaceF_writes e hw (Writes.refl mem out hw) (FloatFun.ofSize 0) (FloatFun.ofSize 2 * O.pi) true
  obtain ⟨m2, e2, h2⟩ := forEach_writes (fun kreal => pure (O.lit (42 / 100) - O.lit (5 / 10) * O.cos kreal
    + O.lit (8 / 100) * O.cos (FloatFun.ofSize 2 * kreal))) hw h1 (fun i _ => rfl)
  refine ⟨m2, _, ?_, h2, fun i hi => ?_⟩
  · unfold blackmanWindowF
    rw [e1, Out.ok_bind, e2]
  have hu0 := A.u_nonneg
  have hu := hs.u
  have hc0 := hO.cos_nonneg
  have hc1 := hO.cos_small
  have hhuge := hs.huge
  have hn0 : (0 : ℝ) ≤ out.size := Nat.cast_nonneg _
  obtain ⟨ha, hb⟩ := angle_near hO out.size hs hn i hi
  generalize FloatFun.ofSize i * ((FloatFun.ofSize 2 * O.pi - FloatFun.ofSize 0) / FloatFun.ofSize (linDivisor out.size true)) +
    FloatFun.ofSize 0 = a at ha ⊢
  obtain ⟨θ, hθ⟩ : ∃ θ, θ = 2 * Real.pi * i / ((out.size : ℝ) - 1) := ⟨_, rfl⟩
  rw [show 4 * Real.pi * i / ((out.size : ℝ) - 1) = 2 * (2 * Real.pi * i / ((out.size : ℝ) - 1)) by ring]
  rw [← hθ] at ha hb ⊢
  have ha2 := mult_near hs 2 (by norm_num) ha hb
  push_cast at ha2
  have q0 : |((42 / 100 : ℚ) : ℝ)| = 0.42 := by push_cast; rw [abs_of_nonneg (by norm_num)]; norm_num
  have q1 : |((5 / 10 : ℚ) : ℝ)| = 0.5 := by push_cast; rw [abs_of_nonneg (by norm_num)]; norm_num
  have q2 : |((8 / 100 : ℚ) : ℝ)| = 0.08 := by push_cast; rw [abs_of_nonneg (by norm_num)]; norm_num
  have hl0 := hO.lit (42 / 100) (by norm_num [abs_div]) (by norm_num [abs_div])
  have t1 := term_near hO hs (5 / 10) (by norm_num [abs_div]) (by norm_num [abs_div]) ha (by linarith) (B := 0.5 * uc + 48 * A.u) (by rw [q1]; linarith)
  have t2 := term_near hO hs (8 / 100) (by norm_num [abs_div]) (by norm_num [abs_div]) ha2 (by linarith) (B := 0.08 * uc + 18 * A.u) (by rw [q2]; linarith)
  rw [q0] at hl0
  push_cast at hl0 t1 t2
  have c1 := abs_le.1 (Real.abs_cos_le_one θ)
  have c2 := abs_le.1 (Real.abs_cos_le_one (2 * θ))
  have r1 := hl0.sub t1 (S := 1) (ea := 0.1) (eb := 0.1) (E := 0.5 * uc + 51 * A.u) (by rw [abs_le]; constructor <;> linarith) (by linarith) (by linarith)
    (by linarith) (by linarith)
  have r2 := r1.add t2 (S := 2) (ea := 0.1) (eb := 0.1) (E := uc + 80 * A.u) (by rw [abs_le]; constructor <;> linarith) (by linarith) (by linarith)
    (by linarith) (by linarith)
  rw [show (0.42 : ℝ) - 0.5 * Real.cos θ + 0.08 * Real.cos (2 * θ) = 42 / 100 - 5 / 10 * Real.cos θ + 8 / 100 * Real.cos (2 * θ) by norm_num]
  exact r2

/-- **C93** Blackman-Harris window in floating point, any length -/
theorem C93_blackmanHarris {O : WindowOps F} {uc : ℝ} (hO : O.Ok A uc) (e : Exec) (mem : List F) (out : Span) (hw : out.Within mem)
    (hs : Suits A out.size) (hn : 2 ≤ out.size) :
    ∃ (mem' : List F) (w : ℕ → F), blackmanHarrisWindowF O e mem out = .ok mem' ∧ Writes mem mem' out w ∧ ∀ i, i < out.size →
      A.Near (w i) (0.35875 - 0.48829 * Real.cos (2 * Real.pi * i / ((out.size : ℝ) - 1)) +
        0.14128 * Real.cos (4 * Real.pi * i / ((out.size : ℝ) - 1)) - 0.01168 * Real.cos (6 * Real.pi * i / ((out.size : ℝ) - 1)))
        (uc + 100 * A.u) := by
  have : Inhabited F := ⟨0⟩
  obtain ⟨m1, e1, h1⟩ := linSpaceF_writes e hw (Writes.refl mem out hw) (FloatFun.ofSize 0) (FloatFun.ofSize 2 * O.pi) true
  obtain ⟨m2, e2, h2⟩ := forEach_writes (fun kreal => pure (O.lit (35875 / 100000) - O.lit (48829 / 100000) * O.cos kreal
    + O.lit (14128 / 100000) * O.cos (FloatFun.ofSize 2 * kreal)
    + O.lit (-1168 / 100000) * O.cos (FloatFun.ofSize 3 * kreal))) hw h1 (fun i _ => rfl)
  refine ⟨m2, _, ?_, h2, fun i hi => ?_⟩
  · unfold blackmanHarrisWindowF
    rw [e1, Out.ok_bind, e2]
  have hu0 := A.u_nonneg
  have hu := hs.u
  have hc0 := hO.cos_nonneg
  have hc1 := hO.cos_small
  have hhuge := hs.huge
  have hn0 : (0 : ℝ) ≤ out.size := Nat.cast_nonneg _
  obtain ⟨ha, hb⟩ := angle_near hO out.size hs hn i hi
  generalize FloatFun.ofSize i * ((FloatFun.ofSize 2 * O.pi - FloatFun.ofSize 0) / FloatFun.ofSize (linDivisor out.size true)) +
    FloatFun.ofSize 0 = a at ha ⊢
  obtain ⟨θ, hθ⟩ : ∃ θ, θ = 2 * Real.pi * i / ((out.size : ℝ) - 1) := ⟨_, rfl⟩
  rw [show 4 * Real.pi * i / ((out.size : ℝ) - 1) = 2 * (2 * Real.pi * i / ((out.size : ℝ) - 1)) by ring,
    show 6 * Real.pi * i / ((out.size : ℝ) - 1) = 3 * (2 * Real.pi * i / ((out.size : ℝ) - 1)) by ring]
  rw [← hθ] at ha hb ⊢
  have ha2 := mult_near hs 2 (by norm_num) ha hb
  have ha3 := mult_near hs 3 (by norm_num) ha hb
  push_cast at ha2 ha3
  have q0 : |((35875 / 100000 : ℚ) : ℝ)| = 0.35875 := by push_cast; rw [abs_of_nonneg (by norm_num)]; norm_num
  have q1 : |((48829 / 100000 : ℚ) : ℝ)| = 0.48829 := by push_cast; rw [abs_of_nonneg (by norm_num)]; norm_num
  have q2 : |((14128 / 100000 : ℚ) : ℝ)| = 0.14128 := by push_cast; rw [abs_of_nonneg (by norm_num)]; norm_num
  have q3 : |((-1168 / 100000 : ℚ) : ℝ)| = 0.01168 := by push_cast; rw [abs_of_nonpos (by norm_num)]; norm_num
  have hl0 := hO.lit (35875 / 100000) (by norm_num [abs_div]) (by norm_num [abs_div])
  have t1 := term_near hO hs (48829 / 100000) (by norm_num [abs_div]) (by norm_num [abs_div]) ha (by linarith) (B := 0.48829 * uc + 47 * A.u) (by rw [q1]; linarith)
  have t2 := term_near hO hs (14128 / 100000) (by norm_num [abs_div]) (by norm_num [abs_div]) ha2 (by linarith) (B := 0.14128 * uc + 31 * A.u) (by rw [q2]; linarith)
  have t3 := term_near hO hs (-1168 / 100000) (by norm_num [abs_div]) (by norm_num [abs_div]) ha3 (by linarith) (B := 0.01168 * uc + 4 * A.u) (by rw [q3]; linarith)
  rw [q0] at hl0
  push_cast at hl0 t1 t2 t3
  have c1 := abs_le.1 (Real.abs_cos_le_one θ)
  have c2 := abs_le.1 (Real.abs_cos_le_one (2 * θ))
  have c3 := abs_le.1 (Real.abs_cos_le_one (3 * θ))
  have r1 := hl0.sub t1 (S := 1) (ea := 0.1) (eb := 0.1) (E := 0.48829 * uc + 50 * A.u) (by rw [abs_le]; constructor <;> linarith) (by linarith) (by linarith)
    (by linarith) (by linarith)
  have r2 := r1.add t2 (S := 2) (ea := 0.1) (eb := 0.1) (E := 0.63 * uc + 84 * A.u) (by rw [abs_le]; constructor <;> linarith) (by linarith) (by linarith)
    (by linarith) (by linarith)
  have r3 := r2.add t3 (S := 2) (ea := 0.1) (eb := 0.1) (E := uc + 100 * A.u) (by rw [abs_le]; constructor <;> linarith) (by linarith) (by linarith)
    (by linarith) (by linarith)
  rw [show (0.35875 : ℝ) - 0.48829 * Real.cos θ + 0.14128 * Real.cos (2 * θ) - 0.01168 * Real.cos (3 * θ) =
    35875 / 100000 - 48829 / 100000 * Real.cos θ + 14128 / 100000 * Real.cos (2 * θ) + -1168 / 100000 * Real.cos (3 * θ) by ring]
  exact r3

/-- **C93** triangular window in floating point, any length -/
theorem C93_triangular {O : WindowOps F} {uc : ℝ} (hO : O.Ok A uc) (e : Exec) (mem : List F) (out : Span) (hw : out.Within mem)
    (hs : Suits A out.size) (hn : 2 ≤ out.size) :
    ∃ (mem' : List F) (w : ℕ → F), triangularWindowF O e mem out = .ok mem' ∧ Writes mem mem' out w ∧ ∀ i, i < out.size →
      A.Near (w i) (1 - |2 * i / ((out.size : ℝ) - 1) - 1|) (40 * A.u) := by
  have : Inhabited F := ⟨0⟩
  obtain ⟨m1, e1, h1⟩ := linSpaceF_writes e hw (Writes.refl mem out hw) (FloatFun.ofSize 0) (FloatFun.ofSize 2) true
  obtain ⟨m2, e2, h2⟩ := compoundVS_writes e .sub (FloatFun.ofSize 1) hw h1
  obtain ⟨m3, e3, h3⟩ := functionInto_writes e O.abs hw h2
  obtain ⟨m4, e4, h4⟩ := compoundVS_writes e .mul (O.lit (-1)) hw h3
  obtain ⟨m5, e5, h5⟩ := compoundVS_writes e .add (FloatFun.ofSize 1) hw h4
  refine ⟨m5, _, ?_, h5, fun i hi => ?_⟩
  · unfold triangularWindowF
    rw [e1, Out.ok_bind, e2, Out.ok_bind, e3, Out.ok_bind, e4, Out.ok_bind, e5]
  have hu0 := A.u_nonneg
  have hu := hs.u
  have hhuge := hs.huge
  have ht := tiny_le hs
  have ht0 := A.tiny_nonneg
  have hn0 : (0 : ℝ) ≤ out.size := Nat.cast_nonneg _
  have hi0 : (0 : ℝ) ≤ i := Nat.cast_nonneg i
  have hnR : (2 : ℝ) ≤ out.size := by exact_mod_cast hn
  have hiR : (i : ℝ) ≤ out.size - 1 := by
    have : (i : ℝ) + 1 ≤ out.size := by exact_mod_cast hi
    linarith
  have hit : (3 * (i : ℝ) + 2) * A.tiny ≤ A.u / 10 := (mul_le_mul_of_nonneg_right (by linarith) ht0).trans hs.tiny
  have hz := sizeNear (A := A) 0 (by push_cast; linarith)
  have hz0 : A.val (FloatFun.ofSize 0 : F) = 0 := by
    have := hz.2
    simp only [Nat.cast_zero, mul_zero, sub_zero] at this
    exact abs_eq_zero.1 (le_antisymm this (abs_nonneg _))
  have h2N := sizeNear (A := A) 2 (by push_cast; linarith)
  have h1N := sizeNear (A := A) 1 (by push_cast; linarith)
  push_cast at h2N h1N
  obtain ⟨v, hv⟩ : ∃ v, v = A.val (FloatFun.ofSize 2 : F) := ⟨_, rfl⟩
  have hsv := abs_le.1 h2N.2
  rw [← hv] at hsv
  have hv0 : 0 ≤ v := by linarith
  have key := point_near out.size hs (FloatFun.ofSize 0) (FloatFun.ofSize 2) hz.1 h2N.1
    (by rw [hz0, ← hv, abs_of_nonneg hv0, abs_zero]; linarith) true i hi
  have hdiv : (linDivisor out.size true : ℝ) = out.size - 1 := by
    have : linDivisor out.size true = out.size - 1 := by unfold linDivisor; simp; omega
    rw [this, Nat.cast_sub (by omega)]
    simp
  rw [hz0, hdiv, ← hv, zero_add, sub_zero] at key
  have hd0 : (0 : ℝ) < (out.size : ℝ) - 1 := by linarith
  obtain ⟨ρ, hρ⟩ : ∃ ρ, ρ = (i : ℝ) / (out.size - 1) := ⟨_, rfl⟩
  have hρ0 : 0 ≤ ρ := by rw [hρ]; positivity
  have hρ1 : ρ ≤ 1 := by rw [hρ, div_le_one hd0]; exact hiR
  have e1 : (i : ℝ) * (v / (out.size - 1)) = v * ρ := by rw [hρ]; ring
  have e2 : 2 * (i : ℝ) / ((out.size : ℝ) - 1) = 2 * ρ := by rw [hρ]; ring
  have hvρ0 : 0 ≤ v * ρ := mul_nonneg hv0 hρ0
  have hvρ : v * ρ ≤ 2.01 := by nlinarith
  rw [e1, abs_of_nonneg hvρ0, abs_of_nonneg hv0, ← hρ] at key
  rw [e2]
  have hx : A.Near _ (2 * ρ) (23 * A.u) := (key.move (y := 2 * ρ) (E' := 2 * A.u) (by
      rw [show v * ρ - 2 * ρ = (v - 2) * ρ by ring, abs_mul, abs_of_nonneg hρ0]
      have : |v - 2| ≤ 2 * A.u := by rw [abs_le]; constructor <;> linarith
      calc |v - 2| * ρ ≤ 2 * A.u * 1 := mul_le_mul this hρ1 hρ0 (by linarith)
        _ = _ := mul_one _)).mono (by
      have g1 : A.u * (v * ρ) ≤ A.u * 2.01 := mul_le_mul_of_nonneg_left hvρ hu0
      have g2 : 9 * A.u * v * ρ = 9 * (A.u * (v * ρ)) := by ring
      rw [g2]
      linarith)
  have hx1 := hx.sub h1N (S := 1) (ea := 0.1) (eb := 0.1) (E := 26 * A.u) (by rw [abs_le]; constructor <;> linarith) (by linarith) (by linarith)
    (by linarith) (by linarith)
  have hx2 := ((hO.abs _ hx1.1).move (y := |2 * ρ - 1|) (E' := 26 * A.u) ((abs_abs_sub_abs_le_abs_sub _ _).trans hx1.2))
  have hl := hO.lit (-1) (by norm_num) (by norm_num)
  have q1 : |((-1 : ℚ) : ℝ)| = 1 := by push_cast; norm_num
  rw [q1] at hl
  have b1 : |2 * ρ - 1| ≤ 1 := by rw [abs_le]; constructor <;> linarith
  have b0 := abs_nonneg (2 * ρ - 1)
  have hx3 := hx2.mul hl (X := 1) (Y := 1) (ea := 0.1) (eb := 0.1) (E := 31 * A.u) (by rw [abs_abs]; exact b1) q1.le (by linarith) (by linarith) (by linarith)
    (by linarith)
  push_cast at hx3
  have hx4 := hx3.add h1N (S := 1) (ea := 0.1) (eb := 0.1) (E := 40 * A.u) (by rw [abs_le]; constructor <;> linarith) (by linarith) (by linarith)
    (by linarith) (by linarith)
  rw [show 1 - |2 * ρ - 1| = |2 * ρ - 1| * -1 + 1 by ring]
  exact hx4

/-- samples within `E` of a symmetric window are symmetric up to `2 E` -/
theorem near_symmetric (w : ℕ → F) (exact : ℕ → ℝ) (n : ℕ) (E : ℝ) (h : ∀ i, i < n → A.Near (w i) (exact i) E) (hp : Palindrome n exact) (i : ℕ) (hi : i < n) :
    |A.val (w i) - A.val (w (n - 1 - i))| ≤ 2 * E := by
  have h1 := abs_le.1 (h i hi).2
  have h2 := abs_le.1 (h (n - 1 - i) (by omega)).2
  rw [hp i hi] at h2
  rw [abs_le]; constructor <;> linarith

theorem mirror_angle {n i : ℕ} (hn : 2 ≤ n) (hi : i < n) (m : ℕ) :
    Real.cos (2 * m * Real.pi * ((n - 1 - i : ℕ) : ℝ) / ((n : ℝ) - 1)) = Real.cos (2 * m * Real.pi * i / ((n : ℝ) - 1)) := by
  have h1 : ((n - 1 - i : ℕ) : ℝ) = (n : ℝ) - 1 - i := by
    rw [Nat.cast_sub (by omega), Nat.cast_sub (by omega)]; norm_num
  have h2 : (n : ℝ) - 1 ≠ 0 := by
    have : (2 : ℝ) ≤ n := by exact_mod_cast hn
    linarith
  rw [h1, show 2 * (m : ℝ) * Real.pi * ((n : ℝ) - 1 - i) / ((n : ℝ) - 1) = m * (2 * Real.pi) - 2 * m * Real.pi * i / ((n : ℝ) - 1) by field_simp]
  rw [Real.cos_nat_mul_two_pi_sub]

/-- **C93**: the computed windows of two or more samples are symmetric up to rounding. -/
theorem C93_symmetric {O : WindowOps F} {uc : ℝ} (hO : O.Ok A uc) (e : Exec) (mem : List F) (out : Span) (hw : out.Within mem)
    (hs : Suits A out.size) (hn : 2 ≤ out.size) :
    (∃ mem' w, hammingWindowF O e mem out = .ok mem' ∧ Writes mem mem' out w ∧
      ∀ i, i < out.size → |A.val (w i) - A.val (w (out.size - 1 - i))| ≤ uc + 92 * A.u) ∧
    (∃ mem' w, blackmanWindowF O e mem out = .ok mem' ∧ Writes mem mem' out w ∧
      ∀ i, i < out.size → |A.val (w i) - A.val (w (out.size - 1 - i))| ≤ 2 * uc + 160 * A.u) ∧
    (∃ mem' w, blackmanHarrisWindowF O e mem out = .ok mem' ∧ Writes mem mem' out w ∧
      ∀ i, i < out.size → |A.val (w i) - A.val (w (out.size - 1 - i))| ≤ 2 * uc + 200 * A.u) ∧
    (∃ mem' w, triangularWindowF O e mem out = .ok mem' ∧ Writes mem mem' out w ∧
      ∀ i, i < out.size → |A.val (w i) - A.val (w (out.size - 1 - i))| ≤ 80 * A.u) := by
  have c1 := fun i (hi : i < out.size) => mirror_angle hn hi 1
  have c2 := fun i (hi : i < out.size) => mirror_angle hn hi 2
  have c3 := fun i (hi : i < out.size) => mirror_angle hn hi 3
  norm_num at c1 c2 c3
  refine ⟨?_, ?_, ?_, ?_⟩
  · obtain ⟨m, w, h1, h2, h3⟩ := C93_hamming hO e mem out hw hs hn
    refine ⟨m, w, h1, h2, fun i hi => (near_symmetric w _ _ _ h3 (fun i hi => ?_) i hi).trans (by linarith)⟩
    simp only [c1 i hi]
  · obtain ⟨m, w, h1, h2, h3⟩ := C93_blackman hO e mem out hw hs hn
    refine ⟨m, w, h1, h2, fun i hi => (near_symmetric w _ _ _ h3 (fun i hi => ?_) i hi).trans (by linarith)⟩
    simp only [c1 i hi, c2 i hi]
  · obtain ⟨m, w, h1, h2, h3⟩ := C93_blackmanHarris hO e mem out hw hs hn
    refine ⟨m, w, h1, h2, fun i hi => (near_symmetric w _ _ _ h3 (fun i hi => ?_) i hi).trans (by linarith)⟩
    simp only [c1 i hi, c2 i hi, c3 i hi]
  · obtain ⟨m, w, h1, h2, h3⟩ := C93_triangular hO e mem out hw hs hn
    refine ⟨m, w, h1, h2, fun i hi => (near_symmetric w _ _ _ h3 (fun i hi => ?_) i hi).trans (by linarith)⟩
    have g1 : ((out.size - 1 - i : ℕ) : ℝ) = (out.size : ℝ) - 1 - i := by
      rw [Nat.cast_sub (by omega), Nat.cast_sub (by omega)]; norm_num
    have g2 : (out.size : ℝ) - 1 ≠ 0 := by
      have : (2 : ℝ) ≤ out.size := by exact_mod_cast hn
      linarith
    show 1 - |2 * ((out.size - 1 - i : ℕ) : ℝ) / ((out.size : ℝ) - 1) - 1| = _
    rw [g1, show 2 * ((out.size : ℝ) - 1 - i) / ((out.size : ℝ) - 1) - 1 = -(2 * i / ((out.size : ℝ) - 1) - 1) by field_simp; ring, abs_neg]

/-! ### A concrete case: single precision with correctly rounded constants and functions -/

namespace FloatWindowsExample

noncomputable abbrev fl : FloatArithFun (Bin 24 (-149)) := Bin.arithFun 24 (-149) (by norm_num) (by norm_num)

noncomputable def ops : WindowOps (Bin 24 (-149)) where
  pi := Bin.pack 24 (-149) Real.pi
  lit q := Bin.pack 24 (-149) q
  cos a := Bin.pack 24 (-149) (Real.cos a.val)
  abs
    | .num x h => .num |x| (by
        obtain ⟨k, rfl⟩ := h
        exact ⟨|k|, by rw [abs_mul, Int.cast_abs, abs_of_pos (by positivity : (0 : ℝ) < 2 ^ (-149 : ℤ))]⟩)
    | .overflow => .overflow

theorem pack_near {x E : ℝ} (hx : |x| ≤ 4) (hE : (2 : ℝ) ^ (-(24 : ℤ)) * |x| + 2 ^ (-150 : ℤ) ≤ E) :
    fl.Near (Bin.pack 24 (-149) x) x E := by
  obtain ⟨h1, h2⟩ := Bin.pack_spec (p := 24) (emin := -149) (by norm_num) (x := x) (hx.trans (by norm_num)) (by norm_num)
  refine ⟨h1, ?_⟩
  change |(Bin.pack 24 (-149) x).val - x| ≤ _
  rw [h2]
  exact (binRound_err 24 (-149) x).1.trans hE

theorem ops_ok : ops.Ok fl (2 ^ (-(23 : ℤ))) where
  pi := pack_near (by rw [abs_of_pos Real.pi_pos]; linarith [Real.pi_le_four]) (by
    rw [abs_of_pos Real.pi_pos]
    change _ ≤ 2 * (2 : ℝ) ^ (-(24 : ℤ)) * _
    have := Real.pi_gt_three
    norm_num
    linarith)
  lit q h0 h1 := by
    have g0 : (1 : ℝ) / 1000 ≤ |(q : ℝ)| := by
      have := (Rat.cast_le (K := ℝ)).2 h0
      push_cast at this
      exact this
    have g1 : |(q : ℝ)| ≤ 1 := by exact_mod_cast h1
    refine pack_near (g1.trans (by norm_num)) ?_
    change _ ≤ 2 * (2 : ℝ) ^ (-(24 : ℤ)) * _
    norm_num
    linarith
  cos a _ := by
    have g1 := Real.abs_cos_le_one a.val
    refine pack_near (g1.trans (by norm_num)) ?_
    norm_num
    linarith
  abs a ha := by
    rcases a with ⟨x, hx⟩ | _
    · refine ⟨?_, ?_⟩
      · change |(|x|)| ≤ 2 ^ 128
        rw [abs_abs]; exact ha
      · change |(|x| - |x|)| ≤ 0
        simp
    · exact ha.elim
  cos_nonneg := by positivity
  cos_small := by norm_num

theorem suits (n : ℕ) (hn : n ≤ 2 ^ 100) : Suits fl n where
  u := by change (2 : ℝ) ^ (-(24 : ℤ)) ≤ _; norm_num
  huge := by
    change _ ≤ (2 : ℝ) ^ 126
    have : (n : ℝ) ≤ 1267650600228229401496703205376 := by exact_mod_cast hn
    norm_num
    linarith
  tiny := by
    change _ * (2 : ℝ) ^ ((-149 : ℤ) - 1) ≤ (2 : ℝ) ^ (-(24 : ℤ)) / 10
    have : (n : ℝ) ≤ 1267650600228229401496703205376 := by exact_mod_cast hn
    norm_num
    linarith

/-- a thousand samples of a Hamming window in single precision are within 3e-6 of the formula and their ends agree -/
example : ∃ mem' w, hammingWindowF ops ⟨true, true, 4⟩ (List.replicate 1000 0) ⟨0, 1000⟩ = .ok mem' ∧
    Writes (List.replicate 1000 0) mem' ⟨0, 1000⟩ w ∧ ∀ i, i < 1000 →
      fl.Near (w i) (0.54 - 0.46 * Real.cos (2 * Real.pi * i / (((1000 : ℕ) : ℝ) - 1))) (3e-6) := by
  obtain ⟨m, w, h1, h2, h3⟩ := C93_hamming ops_ok ⟨true, true, 4⟩ (List.replicate 1000 0) ⟨0, 1000⟩ (Nat.le_of_eq List.length_replicate.symm)
    (suits _ (by norm_num)) (by norm_num)
  refine ⟨m, w, h1, h2, fun i hi => ⟨(h3 i hi).1, (h3 i hi).2.trans ?_⟩⟩
  change (2 : ℝ) ^ (-(23 : ℤ)) / 2 + 46 * 2 ^ (-(24 : ℤ)) ≤ _
  norm_num

end FloatWindowsExample

end
end Verif
