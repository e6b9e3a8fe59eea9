import Verif.Lemmas.IirFilter
import Verif.Spec.FloatArith
import Mathlib.Tactic.Linarith
import Mathlib.Tactic.Positivity
import Mathlib.Tactic.Ring

/-! # Rounding errors of the recursive filters -/

set_option linter.unusedSimpArgs false
set_option linter.unusedVariables false
set_option linter.unusedSectionVars false

namespace Verif
namespace Rnd
open Finset

section
variable {F : Type} [Zero F] [Add F] [Sub F] [Mul F] [Fma F]

/-- the constant of a dot product with the coefficients `c` -/
noncomputable def dotQ : List ℝ → ℝ → ℝ
  | [], P => P
  | c :: cs, P => dotQ cs (2 * P + 4 * |c| + 2)

theorem le_dotQ : ∀ (cs : List ℝ) (P : ℝ), 0 ≤ P → P ≤ dotQ cs P
  | [], P, _ => le_refl _
  | c :: cs, P, h => by
    have h0 := abs_nonneg c
    have := le_dotQ cs (2 * P + 4 * |c| + 2) (by linarith)
    unfold dotQ
    linarith

/-- one step: product, then sum -/
theorem mac_rounded (A : FloatArith F) (hu : A.u ≤ 1) {acc p : F} {e c w R P : ℝ} (hP : 0 ≤ P) (hw : |w| ≤ R)
    (ha : A.finite acc) (hE : |A.val acc - e| ≤ P * (A.u * R + A.tiny)) (hV : |A.val acc| ≤ P * (R + A.tiny))
    (hp : A.finite p) (hpe : |A.val p - c * w| ≤ A.u * |c * w| + A.tiny)
    (hh : (2 * P + 4 * |c| + 2) * (R + A.tiny) ≤ A.huge) :
    A.finite (acc + p) ∧ |A.val (acc + p) - (e + c * w)| ≤ (2 * P + 4 * |c| + 2) * (A.u * R + A.tiny) ∧
      |A.val (acc + p)| ≤ (2 * P + 4 * |c| + 2) * (R + A.tiny) := by
  have hu0 := A.u_nonneg
  have ht0 := A.tiny_nonneg
  have hR : 0 ≤ R := (abs_nonneg w).trans hw
  have hc0 := abs_nonneg c
  have hcw : |c * w| ≤ |c| * R := by rw [abs_mul]; exact mul_le_mul_of_nonneg_left hw hc0
  have hcR : 0 ≤ |c| * R := by positivity
  have hucw : A.u * |c * w| ≤ |c| * (A.u * R) := by
    calc A.u * |c * w| ≤ A.u * (|c| * R) := mul_le_mul_of_nonneg_left hcw hu0
      _ = _ := by ring
  have huR : A.u * R ≤ R := by nlinarith
  have huR0 : 0 ≤ A.u * R := by positivity
  have hPR : 0 ≤ P * R := by positivity
  have hPt : 0 ≤ P * A.tiny := by positivity
  have hct : 0 ≤ |c| * A.tiny := by positivity
  have hcu : |c| * (A.u * R) ≤ |c| * R := mul_le_mul_of_nonneg_left huR hc0
  have hpv : |A.val p| ≤ 2 * (|c| * R) + A.tiny := by
    have : A.val p = (A.val p - c * w) + c * w := by ring
    rw [this]
    refine (abs_add_le _ _).trans ?_
    linarith
  have hsum : |A.val acc + A.val p| ≤ P * (R + A.tiny) + 2 * (|c| * R) + A.tiny := by
    refine (abs_add_le _ _).trans ?_
    linarith
  obtain ⟨f1, f2⟩ := A.add acc p ha hp (by refine hsum.trans (le_trans ?_ hh); nlinarith)
  have husum : A.u * |A.val acc + A.val p| ≤ P * (A.u * R + A.tiny) + 2 * (|c| * (A.u * R)) + A.tiny := by
    calc A.u * |A.val acc + A.val p| ≤ A.u * (P * (R + A.tiny) + 2 * (|c| * R) + A.tiny) := mul_le_mul_of_nonneg_left hsum hu0
      _ = P * (A.u * R) + A.u * (P * A.tiny) + 2 * (|c| * (A.u * R)) + A.u * A.tiny := by ring
      _ ≤ P * (A.u * R) + 1 * (P * A.tiny) + 2 * (|c| * (A.u * R)) + 1 * A.tiny := by gcongr
      _ = _ := by ring
  have hcuR : 0 ≤ |c| * (A.u * R) := by positivity
  refine ⟨f1, ?_, ?_⟩
  · have : A.val (acc + p) - (e + c * w) = (A.val (acc + p) - (A.val acc + A.val p)) + ((A.val acc - e) + (A.val p - c * w)) := by ring
    rw [this]
    refine (abs_add_le _ _).trans ?_
    have h3 := abs_add_le (A.val acc - e) (A.val p - c * w)
    nlinarith
  · have : A.val (acc + p) = (A.val (acc + p) - (A.val acc + A.val p)) + (A.val acc + A.val p) := by ring
    rw [this]
    refine (abs_add_le _ _).trans ?_
    have h4 : A.u * |A.val acc + A.val p| ≤ |A.val acc + A.val p| := by nlinarith [abs_nonneg (A.val acc + A.val p)]
    nlinarith

/-- accumulated products; `prod` multiplies in either order -/
theorem dot_rounded (A : FloatArith F) (hu : A.u ≤ 1) (prod : F → F → F)
    (hprod : ∀ w c, A.finite w → A.finite c → |A.val c * A.val w| ≤ A.huge →
      A.finite (prod w c) ∧ |A.val (prod w c) - A.val c * A.val w| ≤ A.u * |A.val c * A.val w| + A.tiny) (R : ℝ) :
    ∀ (ws cs : List F) (acc : F) (e P : ℝ), ws.length = cs.length → 0 ≤ P → (∀ w ∈ ws, A.finite w ∧ |A.val w| ≤ R) →
      (∀ c ∈ cs, A.finite c) → A.finite acc → |A.val acc - e| ≤ P * (A.u * R + A.tiny) → |A.val acc| ≤ P * (R + A.tiny) →
      dotQ (cs.map A.val) P * (R + A.tiny) ≤ A.huge →
      A.finite ((List.zipWith prod ws cs).foldl (fun a p => a + p) acc) ∧
      |A.val ((List.zipWith prod ws cs).foldl (fun a p => a + p) acc) -
        (List.zipWith (fun x y => x * y) (ws.map A.val) (cs.map A.val)).foldl (fun a p => a + p) e| ≤
        dotQ (cs.map A.val) P * (A.u * R + A.tiny) ∧
      |A.val ((List.zipWith prod ws cs).foldl (fun a p => a + p) acc)| ≤ dotQ (cs.map A.val) P * (R + A.tiny) := by
  intro ws
  induction ws with
  | nil =>
    intro cs acc e P hl hP hw hc ha hE hV hh
    have : cs = [] := List.length_eq_zero_iff.1 (by simpa using hl.symm)
    subst this
    simpa [dotQ] using ⟨ha, hE, hV⟩
  | cons w ws ih =>
    intro cs acc e P hl hP hw hc ha hE hV hh
    cases cs with
    | nil => simp at hl
    | cons c cs =>
      have hw1 := hw w (by simp)
      have hc1 := hc c (by simp)
      have hR : 0 ≤ R := (abs_nonneg _).trans hw1.2
      have ht0 := A.tiny_nonneg
      have hc0 := abs_nonneg (A.val c)
      have hP' : 0 ≤ 2 * P + 4 * |A.val c| + 2 := by linarith
      simp only [List.map_cons, dotQ] at hh
      have hh' : (2 * P + 4 * |A.val c| + 2) * (R + A.tiny) ≤ A.huge :=
        (mul_le_mul_of_nonneg_right (le_dotQ _ _ hP') (by linarith)).trans hh
      have hcw : |A.val c * A.val w| ≤ A.huge := by
        rw [abs_mul]
        refine le_trans ?_ hh'
        have h1 : |A.val c| * |A.val w| ≤ |A.val c| * R := mul_le_mul_of_nonneg_left hw1.2 hc0
        have h2 : 0 ≤ |A.val c| * A.tiny := by positivity
        have h3 : 0 ≤ P * (R + A.tiny) := by positivity
        have h4 : 0 ≤ |A.val c| * R := by positivity
        nlinarith
      obtain ⟨p1, p2⟩ := hprod w c hw1.1 hc1 hcw
      obtain ⟨m1, m2, m3⟩ := mac_rounded A hu hP hw1.2 ha hE hV p1 p2 hh'
      have key := ih cs (acc + prod w c) (e + A.val c * A.val w) _ (by simpa using hl) hP' (fun w' h' => hw w' (by simp [h']))
        (fun c' h' => hc c' (by simp [h'])) m1 m2 m3 hh
      simp only [List.map_cons, List.zipWith_cons_cons, List.foldl_cons, dotQ]
      rw [mul_comm (A.val w)]
      exact key

theorem mul_prod (A : FloatArith F) : ∀ w c, A.finite w → A.finite c → |A.val c * A.val w| ≤ A.huge →
      A.finite (w * c) ∧ |A.val (w * c) - A.val c * A.val w| ≤ A.u * |A.val c * A.val w| + A.tiny := by
  intro w c hw hc h
  have := A.mul w c hw hc (by rwa [mul_comm])
  rwa [mul_comm (A.val c)]

theorem mul_prod' (A : FloatArith F) : ∀ w c, A.finite w → A.finite c → |A.val c * A.val w| ≤ A.huge →
      A.finite (c * w) ∧ |A.val (c * w) - A.val c * A.val w| ≤ A.u * |A.val c * A.val w| + A.tiny :=
  fun w c hw hc h => A.mul c w hc hw h

theorem sig_map (A : FloatArith F) (l : List F) (i : ℕ) : sig (l.map A.val) i = A.val (sig l i) := by
  unfold sig
  by_cases h : i < l.length <;> simp [h, A.val_zero]

theorem sigI_map (A : FloatArith F) (l : List F) (i : ℤ) : sigI (l.map A.val) i = A.val (sigI l i) := by
  unfold sigI
  split
  · exact sig_map A l _
  · exact A.val_zero.symm

theorem hist_map (A : FloatArith F) (L : ℕ) (l : List F) : (hist L l).map A.val = hist L (l.map A.val) := by
  unfold hist reg
  rw [List.map_map]
  apply List.map_congr_left
  intro i _
  simp only [Function.comp, sigI_map, List.length_map]

theorem sigI_mem (A : FloatArith F) {l : List F} {R : ℝ} (hR : 0 ≤ R) (h : ∀ w ∈ l, A.finite w ∧ |A.val w| ≤ R) (i : ℤ) :
    A.finite (sigI l i) ∧ |A.val (sigI l i)| ≤ R := by
  have hz : A.finite (0 : F) ∧ |A.val (0 : F)| ≤ R := ⟨A.zero_finite, by rw [A.val_zero, abs_zero]; exact hR⟩
  unfold sigI
  split
  · unfold sig
    by_cases c : i.toNat < l.length
    · simp only [List.getD_eq_getElem?_getD, List.getElem?_eq_getElem c, Option.getD_some]
      exact h _ (List.getElem_mem _)
    · simp only [List.getD_eq_getElem?_getD, List.getElem?_eq_none (not_lt.1 c), Option.getD_none]
      exact hz
  · exact hz

theorem hist_mem (A : FloatArith F) {l : List F} {R : ℝ} (hR : 0 ≤ R) (h : ∀ w ∈ l, A.finite w ∧ |A.val w| ≤ R) (L : ℕ) :
    ∀ w ∈ hist L l, A.finite w ∧ |A.val w| ≤ R := by
  intro w hw
  unfold hist reg at hw
  obtain ⟨i, _, rfl⟩ := List.mem_map.1 hw
  exact sigI_mem A hR h _

/-- the tap sum of the specification -/
noncomputable def taps (c xs : List ℝ) (n : ℤ) : ℝ := ∑ k ∈ range c.length, sig c (c.length - 1 - k) * sigI xs (n - k)

theorem foldl_hist (c xs : List ℝ) :
    (List.zipWith (fun x y => x * y) (hist c.length xs) c).foldl (fun a p => a + p) 0 = taps c xs ((xs.length : ℤ) - 1) := by
  have h := innerProd_hist_left c xs
  unfold innerProd at h
  rw [if_pos (by simp)] at h
  exact Out.ok.inj h

/-- a dot product of coefficients with the recent samples, either order of the factors -/
theorem innerProd_left (A : FloatArith F) (hu : A.u ≤ 1) {R : ℝ} (hR : 0 ≤ R) (cs xs : List F) (hx : ∀ w ∈ xs, A.finite w ∧ |A.val w| ≤ R)
    (hc : ∀ c ∈ cs, A.finite c) (hh : dotQ (cs.map A.val) 0 * (R + A.tiny) ≤ A.huge) :
    ∃ v, innerProd (hist cs.length xs) cs = .ok v ∧ A.finite v ∧
      |A.val v - taps (cs.map A.val) (xs.map A.val) ((xs.length : ℤ) - 1)| ≤ dotQ (cs.map A.val) 0 * (A.u * R + A.tiny) ∧
      |A.val v| ≤ dotQ (cs.map A.val) 0 * (R + A.tiny) := by
  refine ⟨_, by unfold innerProd; rw [if_pos (by simp)], ?_⟩
  have := dot_rounded A hu (fun x y => x * y) (mul_prod A) R (hist cs.length xs) cs 0 0 0 (by simp) le_rfl (hist_mem A hR hx _) hc
    A.zero_finite (by simp [A.val_zero]) (by simp [A.val_zero]) hh
  have e := foldl_hist (cs.map A.val) (xs.map A.val)
  rw [List.length_map, List.length_map] at e
  rw [hist_map, e] at this
  exact this

theorem innerProd_right (A : FloatArith F) (hu : A.u ≤ 1) {R : ℝ} (hR : 0 ≤ R) (cs xs : List F) (hx : ∀ w ∈ xs, A.finite w ∧ |A.val w| ≤ R)
    (hc : ∀ c ∈ cs, A.finite c) (hh : dotQ (cs.map A.val) 0 * (R + A.tiny) ≤ A.huge) :
    ∃ v, innerProd cs (hist cs.length xs) = .ok v ∧ A.finite v ∧
      |A.val v - taps (cs.map A.val) (xs.map A.val) ((xs.length : ℤ) - 1)| ≤ dotQ (cs.map A.val) 0 * (A.u * R + A.tiny) ∧
      |A.val v| ≤ dotQ (cs.map A.val) 0 * (R + A.tiny) := by
  refine ⟨_, by unfold innerProd; rw [if_pos (by simp)], ?_⟩
  have := dot_rounded A hu (fun x y => y * x) (mul_prod' A) R (hist cs.length xs) cs 0 0 0 (by simp) le_rfl (hist_mem A hR hx _) hc
    A.zero_finite (by simp [A.val_zero]) (by simp [A.val_zero]) hh
  have e := foldl_hist (cs.map A.val) (xs.map A.val)
  rw [List.length_map, List.length_map] at e
  rw [hist_map, e] at this
  rw [List.zipWith_comm]
  exact this

theorem taps_bound (c xs : List ℝ) (X : ℝ) (hX : 0 ≤ X) (h : ∀ v ∈ xs, |v| ≤ X) (n : ℤ) :
    |taps c xs n| ≤ (∑ k ∈ range c.length, |sig c (c.length - 1 - k)|) * X := by
  unfold taps
  refine (abs_sum_le_sum_abs _ _).trans ?_
  rw [sum_mul]
  apply sum_le_sum
  intro k _
  rw [abs_mul]
  apply mul_le_mul_of_nonneg_left _ (abs_nonneg _)
  unfold sigI sig
  split
  · by_cases c : (n - (k : ℤ)).toNat < xs.length
    · simp only [List.getD_eq_getElem?_getD, List.getElem?_eq_getElem c, Option.getD_some]
      exact h _ (List.getElem_mem _)
    · simp only [List.getD_eq_getElem?_getD, List.getElem?_eq_none (not_lt.1 c), Option.getD_none]
      simpa using hX
  · simpa using hX

theorem taps_snoc (r : List ℝ) (lead : ℝ) (ys : List ℝ) (y : ℝ) :
    taps (r ++ [lead]) (ys ++ [y]) ys.length = lead * y + taps r ys ((ys.length : ℤ) - 1) := rec_sum_split r lead ys y

theorem taps_append_lt (c xs zs : List ℝ) {n : ℤ} (h : n < xs.length) : taps c (xs ++ zs) n = taps c xs n := by
  unfold taps
  apply sum_congr rfl
  intro k _
  rw [sigI_append_lt _ _ (by omega)]

theorem sigI_sub {x y : List ℝ} (h : x.length = y.length) (i : ℤ) :
    sigI (List.zipWith (fun a b => a - b) x y) i = sigI x i - sigI y i := by
  unfold sigI
  split
  · unfold sig
    rcases Nat.lt_or_ge i.toNat x.length with c | c
    · have c' : i.toNat < y.length := h ▸ c
      simp [List.getD_eq_getElem?_getD, c, c']
    · have c' : y.length ≤ i.toNat := h ▸ c
      simp [List.getD_eq_getElem?_getD, c, c']
  · simp

theorem taps_sub {x y : List ℝ} (h : x.length = y.length) (c : List ℝ) (n : ℤ) :
    taps c (List.zipWith (fun a b => a - b) x y) n = taps c x n - taps c y n := by
  unfold taps
  rw [← sum_sub_distrib]
  apply sum_congr rfl
  intro k _
  rw [sigI_sub h]
  ring

/-- a rounded difference of two rounded numbers -/
theorem sub_rounded (A : FloatArith F) (hu : A.u ≤ 1) {f r : F} {ef er R Q : ℝ} (hQ : 0 ≤ Q) (hR : 0 ≤ R)
    (hf : A.finite f) (hr : A.finite r) (hfe : |A.val f - ef| ≤ Q * (A.u * R + A.tiny)) (hre : |A.val r - er| ≤ Q * (A.u * R + A.tiny))
    (hfv : |A.val f| ≤ Q * (R + A.tiny)) (hrv : |A.val r| ≤ Q * (R + A.tiny)) (hh : 2 * Q * (R + A.tiny) ≤ A.huge) :
    A.finite (f - r) ∧ |A.val (f - r) - (ef - er)| ≤ 4 * Q * (A.u * R + A.tiny) ∧ |A.val (f - r)| ≤ 4 * Q * (R + A.tiny) := by
  have hu0 := A.u_nonneg
  have ht0 := A.tiny_nonneg
  have hs : |A.val f - A.val r| ≤ 2 * Q * (R + A.tiny) := by
    refine (abs_sub _ _).trans ?_
    linarith
  obtain ⟨f1, f2⟩ := A.sub f r hf hr (hs.trans hh)
  have hus : A.u * |A.val f - A.val r| ≤ 2 * Q * (A.u * R + A.tiny) := by
    calc A.u * |A.val f - A.val r| ≤ A.u * (2 * Q * (R + A.tiny)) := mul_le_mul_of_nonneg_left hs hu0
      _ = 2 * Q * (A.u * R + A.u * A.tiny) := by ring
      _ ≤ 2 * Q * (A.u * R + 1 * A.tiny) := by gcongr
      _ = _ := by ring
  have hus2 : A.u * |A.val f - A.val r| ≤ |A.val f - A.val r| := by nlinarith [abs_nonneg (A.val f - A.val r)]
  refine ⟨f1, ?_, ?_⟩
  · have : A.val (f - r) - (ef - er) = (A.val (f - r) - (A.val f - A.val r)) + ((A.val f - ef) - (A.val r - er)) := by ring
    rw [this]
    refine (abs_add_le _ _).trans ?_
    have := abs_sub (A.val f - ef) (A.val r - er)
    linarith
  · have : A.val (f - r) = (A.val (f - r) - (A.val f - A.val r)) + (A.val f - A.val r) := by ring
    rw [this]
    refine (abs_add_le _ _).trans ?_
    linarith

variable [Div F] [One F] [FloatFun F]

/-- the reciprocal of the leading coefficient -/
theorem inv_rounded (A : FloatArithFun F) (hu : A.u ≤ 1) (ht : A.tiny ≤ 1) (h1 : A.finite 1) (hv1 : A.val 1 = 1) {lead : F}
    (hl : A.finite lead) (hl0 : A.val lead ≠ 0) (hh : |1 / A.val lead| ≤ A.huge) :
    A.finite (1 / lead) ∧ |A.val (1 / lead) - 1 / A.val lead| ≤ A.u * |1 / A.val lead| + A.tiny ∧
      |A.val (1 / lead)| ≤ 2 * |1 / A.val lead| + 1 := by
  obtain ⟨f1, f2⟩ := A.div 1 lead h1 hl hl0 (by rw [hv1]; exact hh)
  rw [hv1] at f2
  refine ⟨f1, f2, ?_⟩
  have : A.val (1 / lead) = (A.val (1 / lead) - 1 / A.val lead) + 1 / A.val lead := by ring
  rw [this]
  refine (abs_add_le _ _).trans ?_
  have h3 : A.u * |1 / A.val lead| ≤ |1 / A.val lead| := by nlinarith [abs_nonneg (1 / A.val lead), A.u_nonneg]
  linarith

/-- a rounded product with the rounded reciprocal -/
theorem scale_rounded (A : FloatArith F) (hu : A.u ≤ 1) (ht : A.tiny ≤ 1) {d n : F} {e ν R Q : ℝ} (hQ : 0 ≤ Q) (hR : 0 ≤ R)
    (hd : A.finite d) (hn : A.finite n) (hde : |A.val d - e| ≤ Q * (A.u * R + A.tiny)) (hdv : |A.val d| ≤ Q * (R + A.tiny))
    (hne : |A.val n - ν| ≤ A.u * |ν| + A.tiny) (hnv : |A.val n| ≤ 2 * |ν| + 1)
    (hh : Q * (2 * |ν| + 1) * (R + A.tiny) ≤ A.huge) :
    A.finite (d * n) ∧ |A.val (d * n) - e * ν| ≤ (Q * (2 * |ν| + 1) + 1 + Q * (|ν| + 1) + |ν| * Q) * (A.u * R + A.tiny * (1 + R)) := by
  have hu0 := A.u_nonneg
  have ht0 := A.tiny_nonneg
  have hv0 := abs_nonneg ν
  have hRt : 0 ≤ R + A.tiny := by linarith
  have hp : |A.val d * A.val n| ≤ Q * (2 * |ν| + 1) * (R + A.tiny) := by
    rw [abs_mul]
    calc |A.val d| * |A.val n| ≤ (Q * (R + A.tiny)) * (2 * |ν| + 1) := by gcongr
      _ = _ := by ring
  obtain ⟨f1, f2⟩ := A.mul d n hd hn (hp.trans hh)
  refine ⟨f1, ?_⟩
  obtain ⟨η, hη⟩ : ∃ η, η = A.u * R + A.tiny * (1 + R) := ⟨_, rfl⟩
  rw [← hη]
  have huR : 0 ≤ A.u * R := by positivity
  have htR : 0 ≤ A.tiny * R := by positivity
  have hut : A.u * A.tiny ≤ A.tiny := by nlinarith
  have hη1 : A.u * R + A.tiny ≤ η := by rw [hη]; nlinarith
  have hη2 : A.tiny ≤ η := by linarith
  have hη3 : A.u * (R + A.tiny) ≤ η := by rw [mul_add]; linarith
  have hη4 : (R + A.tiny) * (A.u * |ν| + A.tiny) ≤ (|ν| + 1) * η := by
    have : A.tiny * A.tiny ≤ A.tiny := by nlinarith
    have h5 : |ν| * (A.u * (R + A.tiny)) ≤ |ν| * η := mul_le_mul_of_nonneg_left hη3 hv0
    have h6 : (R + A.tiny) * A.tiny ≤ η := by rw [hη]; nlinarith
    nlinarith
  have t1 : A.u * |A.val d * A.val n| + A.tiny ≤ (Q * (2 * |ν| + 1) + 1) * η := by
    have : A.u * |A.val d * A.val n| ≤ A.u * (Q * (2 * |ν| + 1) * (R + A.tiny)) := mul_le_mul_of_nonneg_left hp hu0
    have h7 : Q * (2 * |ν| + 1) * (A.u * (R + A.tiny)) ≤ Q * (2 * |ν| + 1) * η := mul_le_mul_of_nonneg_left hη3 (by positivity)
    linarith
  have t2 : |A.val d * (A.val n - ν)| ≤ Q * (|ν| + 1) * η := by
    rw [abs_mul]
    calc |A.val d| * |A.val n - ν| ≤ (Q * (R + A.tiny)) * (A.u * |ν| + A.tiny) := by gcongr
      _ = Q * ((R + A.tiny) * (A.u * |ν| + A.tiny)) := by ring
      _ ≤ Q * ((|ν| + 1) * η) := mul_le_mul_of_nonneg_left hη4 hQ
      _ = _ := by ring
  have t3 : |(A.val d - e) * ν| ≤ |ν| * Q * η := by
    rw [abs_mul]
    calc |A.val d - e| * |ν| ≤ (Q * (A.u * R + A.tiny)) * |ν| := by gcongr
      _ ≤ (Q * η) * |ν| := by gcongr
      _ = _ := by ring
  have : A.val (d * n) - e * ν = (A.val (d * n) - A.val d * A.val n) + (A.val d * (A.val n - ν) + (A.val d - e) * ν) := by ring
  rw [this]
  refine (abs_add_le _ _).trans ?_
  have := abs_add_le (A.val d * (A.val n - ν)) ((A.val d - e) * ν)
  linarith

/-- the residual of one step of direct form I -/
noncomputable def stepH (Q ν : ℝ) : ℝ := 4 * Q * (2 * |ν| + 1) + 1 + 4 * Q * (|ν| + 1) + |ν| * (4 * Q)

theorem dfi_rounded (A : FloatArithFun F) (hu : A.u ≤ 1) (ht : A.tiny ≤ 1) (h1 : A.finite 1) (hv1 : A.val 1 = 1)
    (num r : List F) (lead : F) (hnf : ∀ c ∈ num, A.finite c) (hrf : ∀ c ∈ r, A.finite c) (hlf : A.finite lead) (hl0 : A.val lead ≠ 0)
    (ord : ℕ) (hord : (TransferFn.mk num (r ++ [lead])).order ≤ ord) (X R Q η : ℝ) (hX : 0 ≤ X) (hXR : X ≤ R)
    (hQ0 : 0 ≤ Q) (hQb : dotQ (num.map A.val) 0 ≤ Q) (hQa : dotQ (r.map A.val) 0 ≤ Q) (hη : η = A.u * R + A.tiny * (1 + R))
    (hh1 : |1 / A.val lead| ≤ A.huge) (hh2 : 4 * Q * (2 * |1 / A.val lead| + 1) * (R + A.tiny) ≤ A.huge)
    (hboot : ∀ (xs ys : List ℝ), xs.length = ys.length → (∀ v ∈ xs, |v| ≤ X) →
      (∀ n : ℕ, n < xs.length → |taps (r.map A.val ++ [A.val lead]) ys n - taps (num.map A.val) xs n| ≤
        |A.val lead| * stepH Q (1 / A.val lead) * η) → ∀ w ∈ ys, |w| ≤ R)
    (zs : List F) (hz : ∀ z ∈ zs, A.finite z ∧ |A.val z| ≤ X) :
    ∃ ws s', DirectFormI.feed ⟨num, r ++ [lead]⟩ zs (DirectFormI.make ord) = .ok (ws, s') ∧ ws.length = zs.length ∧
      (∀ w ∈ ws, A.finite w ∧ |A.val w| ≤ R) ∧
      ∀ n : ℕ, n < zs.length → |taps (r.map A.val ++ [A.val lead]) (ws.map A.val) n - taps (num.map A.val) (zs.map A.val) n| ≤
        |A.val lead| * stepH Q (1 / A.val lead) * η := by
  have hnum : num.length ≤ ord + 1 := by
    unfold TransferFn.order polyOrder at hord
    simp only at hord
    split at hord <;> omega
  have hr : r.length ≤ ord := by
    unfold TransferFn.order polyOrder at hord
    simp at hord
    omega
  have hR : 0 ≤ R := hX.trans hXR
  have ht0 := A.tiny_nonneg
  have hQ1 : Q * (R + A.tiny) ≤ A.huge := by
    refine le_trans ?_ hh2
    have : 0 ≤ Q * (R + A.tiny) := by positivity
    have h2 : 0 ≤ |1 / A.val lead| * (Q * (R + A.tiny)) := by positivity
    nlinarith
  have hQ2 : 2 * Q * (R + A.tiny) ≤ A.huge := by
    refine le_trans ?_ hh2
    have : 0 ≤ Q * (R + A.tiny) := by positivity
    have h2 : 0 ≤ |1 / A.val lead| * (Q * (R + A.tiny)) := by positivity
    nlinarith
  obtain ⟨i1, i2, i3⟩ := inv_rounded A hu ht h1 hv1 hlf hl0 hh1
  have hmake : (DirectFormI.make ord : DirectFormI F) = ⟨hist ord [], hist (ord + 1) []⟩ := by
    simp [DirectFormI.make, resizeZ, hist_nil]
  rw [hmake]
  unfold DirectFormI.feed
  simp only [hist_length, DirectFormI.order]
  have hne : hist (ord + 1) ([] : List F) ≠ [] := by
    intro h; have := congrArg List.length h; simp at this
  have hus : usub (r ++ [lead]).length 1 = r.length := by rw [usub_eq (by simp)]; simp
  rw [cassert_true ⟨hne, hord⟩, Out.ok_bind, hus, cassert_true (by simp), Out.ok_bind]
  have htk : (r ++ [lead]).take r.length = r := by simp
  rw [htk, usub_eq (by omega), cassert_true (by omega), Out.ok_bind, usub_eq hr, cassert_true (by omega),
    Out.ok_bind]
  have hrd : rd (r ++ [lead]) (((r ++ [lead]).length : ℤ) - 1) = .ok lead := by
    have e : (((r ++ [lead]).length : ℕ) : ℤ) - 1 = (r.length : ℕ) := by simp
    rw [e, rd_ofNat (by simp)]
    simp
  rw [hrd, Out.ok_bind]
  obtain ⟨ws, s', g1, g2, g3, g4, g5, g6⟩ := feedAll_inv_mem
    (step := DirectFormI.step num r (1 / lead) (ord + 1 - num.length) (ord - r.length))
    (fun z => A.finite z ∧ |A.val z| ≤ X)
    (fun xs ys s => s = ⟨hist ord ys, hist (ord + 1) xs⟩ ∧ ys.length = xs.length ∧ (∀ x ∈ xs, A.finite x ∧ |A.val x| ≤ X) ∧
      (∀ y ∈ ys, A.finite y ∧ |A.val y| ≤ R) ∧
      ∀ n : ℕ, n < xs.length → |taps (r.map A.val ++ [A.val lead]) (ys.map A.val) n - taps (num.map A.val) (xs.map A.val) n| ≤
        |A.val lead| * stepH Q (1 / A.val lead) * η)
    (by
      rintro xs ys s x hx ⟨rfl, hlen, hxs, hys, hres⟩
      have hxs' : ∀ v ∈ xs ++ [x], A.finite v ∧ |A.val v| ≤ X := by
        intro v hv
        rcases List.mem_append.1 hv with h | h
        · exact hxs v h
        · rw [List.mem_singleton.1 h]; exact hx
      have hxsR : ∀ v ∈ xs ++ [x], A.finite v ∧ |A.val v| ≤ R := fun v hv => ⟨(hxs' v hv).1, (hxs' v hv).2.trans hXR⟩
      have hRt : 0 ≤ R + A.tiny := by linarith
      have huRt : 0 ≤ A.u * R + A.tiny := by have := A.u_nonneg; positivity
      obtain ⟨f, f0, f1, f2, f3⟩ := innerProd_left A.toFloatArith hu hR num (xs ++ [x]) hxsR hnf
        ((mul_le_mul_of_nonneg_right hQb hRt).trans hQ1)
      obtain ⟨q, q0, q1, q2, q3⟩ := innerProd_left A.toFloatArith hu hR r ys hys hrf
        ((mul_le_mul_of_nonneg_right hQa hRt).trans hQ1)
      obtain ⟨d1, d2, d3⟩ := sub_rounded A.toFloatArith hu hQ0 hR f1 q1 (f2.trans (mul_le_mul_of_nonneg_right hQb huRt))
        (q2.trans (mul_le_mul_of_nonneg_right hQa huRt)) (f3.trans (mul_le_mul_of_nonneg_right hQb hRt))
        (q3.trans (mul_le_mul_of_nonneg_right hQa hRt)) hQ2
      obtain ⟨o1, o2⟩ := scale_rounded A.toFloatArith hu ht (by positivity) hR d1 i1 d2 d3 i2 i3 hh2
      rw [← hη] at o2
      obtain ⟨out, hout⟩ : ∃ out, out = (f - q) * (1 / lead) := ⟨_, rfl⟩
      rw [← hout] at o1 o2
      have hres' : ∀ n : ℕ, n < (xs ++ [x]).length → |taps (r.map A.val ++ [A.val lead]) ((ys ++ [out]).map A.val) n -
          taps (num.map A.val) ((xs ++ [x]).map A.val) n| ≤ |A.val lead| * stepH Q (1 / A.val lead) * η := by
        intro n hn
        simp only [List.length_append, List.length_singleton] at hn
        rcases Nat.lt_succ_iff_lt_or_eq.1 hn with h | h
        · have := hres n h
          simp only [List.map_append]
          rw [taps_append_lt _ (ys.map A.val) _ (by simp; omega), taps_append_lt _ (xs.map A.val) _ (by simp; omega)]
          exact this
        · have e1 : taps (r.map A.val ++ [A.val lead]) ((ys ++ [out]).map A.val) n =
              A.val lead * A.val out + taps (r.map A.val) (ys.map A.val) ((ys.length : ℤ) - 1) := by
            have := taps_snoc (r.map A.val) (A.val lead) (ys.map A.val) (A.val out)
            rw [List.length_map] at this
            rw [h, ← hlen, ← this]
            simp
          have e2 : taps (num.map A.val) ((xs ++ [x]).map A.val) n =
              taps (num.map A.val) ((xs ++ [x]).map A.val) (((xs ++ [x]).length : ℤ) - 1) := by
            rw [h]; congr 1; simp
          rw [e1, e2]
          have e3 : A.val lead * A.val out + taps (r.map A.val) (ys.map A.val) ((ys.length : ℤ) - 1) -
              taps (num.map A.val) ((xs ++ [x]).map A.val) (((xs ++ [x]).length : ℤ) - 1) =
              A.val lead * (A.val out - (taps (num.map A.val) ((xs ++ [x]).map A.val) (((xs ++ [x]).length : ℤ) - 1) -
                taps (r.map A.val) (ys.map A.val) ((ys.length : ℤ) - 1)) * (1 / A.val lead)) := by
            field_simp
            ring
          rw [e3, abs_mul, mul_assoc]
          exact mul_le_mul_of_nonneg_left o2 (abs_nonneg _)
      have hlen' : (ys ++ [out]).length = (xs ++ [x]).length := by simp [hlen]
      have hb := hboot ((xs ++ [x]).map A.val) ((ys ++ [out]).map A.val) (by simp [hlen]) (by
          intro v hv
          obtain ⟨w, hw, rfl⟩ := List.mem_map.1 hv
          exact (hxs' w hw).2) (by simpa using hres')
      have hys' : ∀ y ∈ ys ++ [out], A.finite y ∧ |A.val y| ≤ R := by
        intro y hy
        refine ⟨?_, hb _ (List.mem_map_of_mem hy)⟩
        rcases List.mem_append.1 hy with h | h
        · exact (hys y h).1
        · rw [List.mem_singleton.1 h]; exact o1
      refine ⟨out, ⟨hist ord (ys ++ [out]), hist (ord + 1) (xs ++ [x])⟩, ?_, rfl, hlen', hxs', hys', hres'⟩
      unfold DirectFormI.step
      simp only
      rw [shiftIn_hist (by omega), Out.ok_bind, hist_drop _ _ hnum, f0, Out.ok_bind, hist_drop _ _ hr, q0, Out.ok_bind, ← hout]
      by_cases c : ord = 0
      · subst c
        rw [if_neg (by simp)]
        simp only [Out.pure_def, Out.ok_bind]
        congr 3
      · rw [if_pos (by simp; omega), shiftIn_hist (by omega)]
        rfl)
    zs [] [] ⟨hist ord [], hist (ord + 1) []⟩ hz ⟨rfl, rfl, by simp, by simp, by simp⟩
  simp only [List.nil_append] at g3 g4 g5 g6
  exact ⟨ws, s', g1, g3, g5, g6⟩

/-- one step of the recursive part of direct form II -/
theorem dfii_state (A : FloatArithFun F) (hu : A.u ≤ 1) (ht : A.tiny ≤ 1) {x n q : F} {eq R Q : ℝ} (hQ : 0 ≤ Q) (hR : 0 ≤ R)
    (hx : A.finite x) (hxR : |A.val x| ≤ R) (hn : A.finite n) (hne : |A.val n - 1| ≤ A.u + A.tiny) (hnv : |A.val n| ≤ 3)
    (hq : A.finite q) (hqe : |A.val q - eq| ≤ Q * (A.u * R + A.tiny)) (hqv : |A.val q| ≤ Q * (R + A.tiny))
    (hh : (6 + Q) * (R + A.tiny) ≤ A.huge) :
    A.finite (x * n - q) ∧ |A.val (x * n - q) - (A.val x - eq)| ≤ (10 + 2 * Q) * (A.u * R + A.tiny * (1 + R)) := by
  have hu0 := A.u_nonneg
  have ht0 := A.tiny_nonneg
  have hRt : 0 ≤ R + A.tiny := by linarith
  have hQRt : 0 ≤ Q * (R + A.tiny) := by positivity
  have hxn : |A.val x * A.val n| ≤ 3 * R := by
    rw [abs_mul]
    calc |A.val x| * |A.val n| ≤ R * 3 := by gcongr
      _ = _ := by ring
  obtain ⟨m1, m2⟩ := A.mul x n hx hn (by linarith)
  have huxn : A.u * |A.val x * A.val n| ≤ 3 * (A.u * R) := by
    calc A.u * |A.val x * A.val n| ≤ A.u * (3 * R) := mul_le_mul_of_nonneg_left hxn hu0
      _ = _ := by ring
  have huR0 : 0 ≤ A.u * R := by positivity
  have htR0 : 0 ≤ A.tiny * R := by positivity
  have huR : A.u * R ≤ R := by nlinarith
  have hxn1 : |A.val x * (A.val n - 1)| ≤ A.u * R + A.tiny * R := by
    rw [abs_mul]
    calc |A.val x| * |A.val n - 1| ≤ R * (A.u + A.tiny) := by gcongr
      _ = _ := by ring
  have pe : |A.val (x * n) - A.val x| ≤ 4 * (A.u * R) + A.tiny * (1 + R) := by
    have : A.val (x * n) - A.val x = (A.val (x * n) - A.val x * A.val n) + A.val x * (A.val n - 1) := by ring
    rw [this]
    refine (abs_add_le _ _).trans ?_
    linarith
  have pv : |A.val (x * n)| ≤ 6 * R + A.tiny := by
    have : A.val (x * n) = (A.val (x * n) - A.val x * A.val n) + A.val x * A.val n := by ring
    rw [this]
    refine (abs_add_le _ _).trans ?_
    linarith
  have hs : |A.val (x * n) - A.val q| ≤ (6 + Q) * (R + A.tiny) := by
    refine (abs_sub _ _).trans ?_
    linarith
  obtain ⟨s1, s2⟩ := A.sub (x * n) q m1 hq (hs.trans hh)
  refine ⟨s1, ?_⟩
  obtain ⟨η, hη⟩ : ∃ η, η = A.u * R + A.tiny * (1 + R) := ⟨_, rfl⟩
  rw [← hη]
  have hut : A.u * A.tiny ≤ A.tiny := by nlinarith
  have hη3 : A.u * (R + A.tiny) ≤ η := by rw [hη, mul_add]; linarith
  have hη1 : A.u * R + A.tiny ≤ η := by rw [hη]; linarith
  have t1 : A.u * |A.val (x * n) - A.val q| ≤ (6 + Q) * η := by
    calc A.u * |A.val (x * n) - A.val q| ≤ A.u * ((6 + Q) * (R + A.tiny)) := mul_le_mul_of_nonneg_left hs hu0
      _ = (6 + Q) * (A.u * (R + A.tiny)) := by ring
      _ ≤ _ := mul_le_mul_of_nonneg_left hη3 (by linarith)
  have t2 : |A.val (x * n) - A.val x| ≤ 4 * η := by rw [hη]; linarith
  have t3 : |A.val q - eq| ≤ Q * η := hqe.trans (mul_le_mul_of_nonneg_left hη1 hQ)
  have : A.val (x * n - q) - (A.val x - eq) = (A.val (x * n - q) - (A.val (x * n) - A.val q)) +
      ((A.val (x * n) - A.val x) - (A.val q - eq)) := by ring
  rw [this]
  refine (abs_add_le _ _).trans ?_
  have := abs_sub (A.val (x * n) - A.val x) (A.val q - eq)
  linarith

theorem taps_one (xs : List ℝ) (n : ℤ) : taps [1] xs n = sigI xs n := by simp [taps, sig]

theorem dfii_rounded (A : FloatArithFun F) (hu : A.u ≤ 1) (ht : A.tiny ≤ 1) (h1 : A.finite 1) (hv1 : A.val 1 = 1)
    (num r : List F) (lead : F) (hnf : ∀ c ∈ num, A.finite c) (hrf : ∀ c ∈ r, A.finite c) (hlf : A.finite lead) (hl1 : A.val lead = 1)
    (ord : ℕ) (hord : (TransferFn.mk num (r ++ [lead])).order ≤ ord) (X R Q η : ℝ) (hX : 0 ≤ X) (hXR : X ≤ R)
    (hQ0 : 0 ≤ Q) (hQb : dotQ (num.map A.val) 0 ≤ Q) (hQa : dotQ (r.map A.val) 0 ≤ Q) (hη : η = A.u * R + A.tiny * (1 + R))
    (hh1 : 1 ≤ A.huge) (hh2 : (6 + Q) * (R + A.tiny) ≤ A.huge)
    (hboot : ∀ (xs ys : List ℝ), xs.length = ys.length → (∀ v ∈ xs, |v| ≤ X) →
      (∀ n : ℕ, n < xs.length → |taps (r.map A.val ++ [1]) ys n - taps [1] xs n| ≤ (10 + 2 * Q) * η) → ∀ w ∈ ys, |w| ≤ R)
    (zs : List F) (hz : ∀ z ∈ zs, A.finite z ∧ |A.val z| ≤ X) :
    ∃ ws s' W, DirectFormII.feed ⟨num, r ++ [lead]⟩ zs (DirectFormII.make ord) = .ok (ws, s') ∧ ws.length = zs.length ∧
      (∀ w ∈ ws, A.finite w) ∧ W.length = zs.length ∧
      (∀ n : ℕ, n < zs.length → |taps (r.map A.val ++ [1]) W n - taps [1] (zs.map A.val) n| ≤ (10 + 2 * Q) * η) ∧
      ∀ n : ℕ, n < zs.length → |sigI (ws.map A.val) n - taps (num.map A.val) W n| ≤ Q * η := by
  have hnum : num.length ≤ ord + 1 := by
    unfold TransferFn.order polyOrder at hord
    simp only at hord
    split at hord <;> omega
  have hr : r.length ≤ ord + 1 := by
    unfold TransferFn.order polyOrder at hord
    simp at hord
    omega
  have hR : 0 ≤ R := hX.trans hXR
  have ht0 := A.tiny_nonneg
  have hu0 := A.u_nonneg
  have hRt : 0 ≤ R + A.tiny := by linarith
  have huRt : 0 ≤ A.u * R + A.tiny := by positivity
  have hη1 : A.u * R + A.tiny ≤ η := by
    have : 0 ≤ A.tiny * R := by positivity
    rw [hη]; linarith
  have hQ1 : Q * (R + A.tiny) ≤ A.huge := by linarith
  obtain ⟨i1, i2, i3⟩ := inv_rounded A hu ht h1 hv1 hlf (by rw [hl1]; exact one_ne_zero) (by rw [hl1]; simpa using hh1)
  have hn2 : |A.val (1 / lead) - 1| ≤ A.u + A.tiny := by simpa [hl1] using i2
  have hn3 : |A.val (1 / lead)| ≤ 3 := by
    have : |A.val (1 / lead)| ≤ 2 * |(1 : ℝ)| + 1 := by simpa [hl1] using i3
    rw [abs_one] at this
    linarith
  have hmake : (DirectFormII.make ord : DirectFormII F) = ⟨hist (ord + 1) []⟩ := by
    simp [DirectFormII.make, resizeZ, hist_nil]
  rw [hmake]
  unfold DirectFormII.feed
  have hne : hist (ord + 1) ([] : List F) ≠ [] := by
    intro h; have := congrArg List.length h; simp at this
  have hus : usub (r ++ [lead]).length 1 = r.length := by rw [usub_eq (by simp)]; simp
  simp only [DirectFormII.order, hist_length]
  rw [cassert_true ⟨hne, by rw [if_pos hne]; simpa using hord⟩, Out.ok_bind, hus, cassert_true (by simp),
    Out.ok_bind]
  have htk : (r ++ [lead]).take r.length = r := by simp
  rw [htk, usub_eq (by omega), cassert_true (by omega), Out.ok_bind, usub_eq hr, cassert_true (by omega),
    Out.ok_bind]
  have hrd : rd (r ++ [lead]) (((r ++ [lead]).length : ℤ) - 1) = .ok lead := by
    have e : (((r ++ [lead]).length : ℕ) : ℤ) - 1 = (r.length : ℕ) := by simp
    rw [e, rd_ofNat (by simp)]
    simp
  rw [hrd, Out.ok_bind]
  obtain ⟨ws, s', g1, w, g2, g3, g4, g5, g6, g7, g8, g9⟩ := feedAll_inv_mem
    (step := DirectFormII.step num r (1 / lead) (ord + 1 - num.length) (ord + 1 - r.length))
    (fun z => A.finite z ∧ |A.val z| ≤ X)
    (fun xs ys s => ∃ w : List F, s = ⟨hist (ord + 1) w⟩ ∧ ys.length = xs.length ∧ w.length = xs.length ∧
      (∀ x ∈ xs, A.finite x ∧ |A.val x| ≤ X) ∧ (∀ y ∈ ys, A.finite y) ∧ (∀ y ∈ w, A.finite y ∧ |A.val y| ≤ R) ∧
      (∀ n : ℕ, n < xs.length → |taps (r.map A.val ++ [1]) (w.map A.val) n - taps [1] (xs.map A.val) n| ≤ (10 + 2 * Q) * η) ∧
      ∀ n : ℕ, n < xs.length → |sigI (ys.map A.val) n - taps (num.map A.val) (w.map A.val) n| ≤ Q * η)
    (by
      rintro xs ys s x hx ⟨w, rfl, hlen, hwlen, hxs, hys, hw, hres, hout⟩
      have hxs' : ∀ v ∈ xs ++ [x], A.finite v ∧ |A.val v| ≤ X := by
        intro v hv
        rcases List.mem_append.1 hv with h | h
        · exact hxs v h
        · rw [List.mem_singleton.1 h]; exact hx
      obtain ⟨q, q0, q1, q2, q3⟩ := innerProd_right A.toFloatArith hu hR r w hw hrf
        ((mul_le_mul_of_nonneg_right hQa hRt).trans hQ1)
      obtain ⟨v1, v2⟩ := dfii_state A hu ht hQ0 hR hx.1 (hx.2.trans hXR) i1 hn2 hn3 q1 (q2.trans (mul_le_mul_of_nonneg_right hQa huRt))
        (q3.trans (mul_le_mul_of_nonneg_right hQa hRt)) hh2
      rw [← hη] at v2
      obtain ⟨v, hv⟩ : ∃ v, v = x * (1 / lead) - q := ⟨_, rfl⟩
      rw [← hv] at v1 v2
      have hres' : ∀ n : ℕ, n < (xs ++ [x]).length → |taps (r.map A.val ++ [1]) ((w ++ [v]).map A.val) n -
          taps [1] ((xs ++ [x]).map A.val) n| ≤ (10 + 2 * Q) * η := by
        intro n hn
        simp only [List.length_append, List.length_singleton] at hn
        rcases Nat.lt_succ_iff_lt_or_eq.1 hn with h | h
        · have := hres n h
          simp only [List.map_append]
          rw [taps_append_lt _ (w.map A.val) _ (by simp; omega), taps_append_lt _ (xs.map A.val) _ (by simp; omega)]
          exact this
        · have e1 : taps (r.map A.val ++ [1]) ((w ++ [v]).map A.val) n =
              1 * A.val v + taps (r.map A.val) (w.map A.val) ((w.length : ℤ) - 1) := by
            have := taps_snoc (r.map A.val) 1 (w.map A.val) (A.val v)
            rw [List.length_map] at this
            rw [h, ← hwlen, ← this]
            simp
          have e2 : taps [1] ((xs ++ [x]).map A.val) n = A.val x := by
            rw [taps_one, sigI_map A.toFloatArith, h, sigI_append_last]
          rw [e1, e2]
          have e3 : 1 * A.val v + taps (r.map A.val) (w.map A.val) ((w.length : ℤ) - 1) - A.val x =
            A.val v - (A.val x - taps (r.map A.val) (w.map A.val) ((w.length : ℤ) - 1)) := by ring
          rw [e3]
          exact v2
      have hb := hboot ((xs ++ [x]).map A.val) ((w ++ [v]).map A.val) (by simp [hwlen]) (by
          intro v hv
          obtain ⟨w, hw, rfl⟩ := List.mem_map.1 hv
          exact (hxs' w hw).2) (by simpa using hres')
      have hw' : ∀ y ∈ w ++ [v], A.finite y ∧ |A.val y| ≤ R := by
        intro y hy
        refine ⟨?_, hb _ (List.mem_map_of_mem hy)⟩
        rcases List.mem_append.1 hy with h | h
        · exact (hw y h).1
        · rw [List.mem_singleton.1 h]; exact v1
      obtain ⟨o, o0, o1, o2, o3⟩ := innerProd_right A.toFloatArith hu hR num (w ++ [v]) hw' hnf
        ((mul_le_mul_of_nonneg_right hQb hRt).trans hQ1)
      refine ⟨o, ⟨hist (ord + 1) (w ++ [v])⟩, ?_, w ++ [v], rfl, by simp [hlen], by simp [hwlen], hxs', ?_, hw', hres', ?_⟩
      · unfold DirectFormII.step
        simp only
        rw [hist_drop _ _ hr, q0, Out.ok_bind, ← hv, shiftIn_hist (by omega), Out.ok_bind, hist_drop _ _ hnum, o0, Out.ok_bind]
        rfl
      · intro y hy
        rcases List.mem_append.1 hy with h | h
        · exact hys y h
        · rw [List.mem_singleton.1 h]; exact o1
      · intro n hn
        simp only [List.length_append, List.length_singleton] at hn
        rcases Nat.lt_succ_iff_lt_or_eq.1 hn with h | h
        · have := hout n h
          simp only [List.map_append]
          rw [taps_append_lt _ (w.map A.val) _ (by simp; omega), sigI_append_lt (ys.map A.val) _ (by simp; omega)]
          exact this
        · have e1 : sigI ((ys ++ [o]).map A.val) n = A.val o := by
            rw [sigI_map A.toFloatArith, h, ← hlen, sigI_append_last]
          have e2 : (((w ++ [v]).length : ℕ) : ℤ) - 1 = n := by simp [hwlen, h]
          rw [e2] at o2
          rw [e1]
          exact o2.trans ((mul_le_mul_of_nonneg_right hQb huRt).trans (mul_le_mul_of_nonneg_left hη1 hQ0)))
    zs [] [] ⟨hist (ord + 1) []⟩ hz ⟨[], rfl, rfl, rfl, by simp, by simp, by simp, by simp, by simp⟩
  simp only [List.nil_append] at g3 g4 g5 g6 g8 g9
  exact ⟨ws, s', w.map A.val, g1, g3, g6, by simpa using g4, g8, g9⟩

theorem taps_neg (c xs : List ℝ) {n : ℤ} (h : n < 0) : taps c xs n = 0 := by
  unfold taps
  apply sum_eq_zero
  intro k _
  rw [sigI_neg (by omega), mul_zero]

/-- an approximate nonrecursive part after an approximate recursive part -/
theorem compose_rounded (a b x W Y : List ℝ) (N : ℕ) (ε δ : ℝ) (hε : 0 ≤ ε) (hδ : 0 ≤ δ)
    (h1 : ∀ n : ℕ, n < N → |taps a W n - taps [1] x n| ≤ ε) (h2 : ∀ n : ℕ, n < N → |sigI Y n - taps b W n| ≤ δ) :
    ∀ n : ℕ, n < N → |taps a Y n - taps b x n| ≤
      (∑ k ∈ range b.length, |sig b (b.length - 1 - k)|) * ε + (∑ k ∈ range a.length, |sig a (a.length - 1 - k)|) * δ := by
  intro n hn
  have h1' : ∀ m : ℤ, m < N → |taps a W m - sigI x m| ≤ ε := by
    intro m hm
    by_cases c : 0 ≤ m
    · obtain ⟨m', rfl⟩ := Int.eq_ofNat_of_zero_le c
      have := h1 m' (by omega)
      rwa [taps_one] at this
    · rw [taps_neg _ _ (by omega), sigI_neg (by omega)]; simpa using hε
  have h2' : ∀ m : ℤ, m < N → |sigI Y m - taps b W m| ≤ δ := by
    intro m hm
    by_cases c : 0 ≤ m
    · obtain ⟨m', rfl⟩ := Int.eq_ofNat_of_zero_le c
      exact h2 m' (by omega)
    · rw [taps_neg _ _ (by omega), sigI_neg (by omega)]; simpa using hδ
  have e1 : taps a Y n = (∑ k ∈ range a.length, sig a (a.length - 1 - k) * taps b W ((n : ℤ) - k)) +
      ∑ k ∈ range a.length, sig a (a.length - 1 - k) * (sigI Y ((n : ℤ) - k) - taps b W ((n : ℤ) - k)) := by
    rw [← sum_add_distrib]
    apply sum_congr rfl
    intro k _
    ring
  have e2 : (∑ k ∈ range a.length, sig a (a.length - 1 - k) * taps b W ((n : ℤ) - k)) =
      ∑ j ∈ range b.length, sig b (b.length - 1 - j) * taps a W ((n : ℤ) - j) := by
    unfold taps
    simp only [mul_sum]
    rw [sum_comm]
    apply sum_congr rfl
    intro j _
    apply sum_congr rfl
    intro k _
    rw [show (n : ℤ) - k - j = (n : ℤ) - j - k by ring]
    ring
  have e3 : taps a Y n - taps b x n = (∑ j ∈ range b.length, sig b (b.length - 1 - j) * (taps a W ((n : ℤ) - j) - sigI x ((n : ℤ) - j))) +
      ∑ k ∈ range a.length, sig a (a.length - 1 - k) * (sigI Y ((n : ℤ) - k) - taps b W ((n : ℤ) - k)) := by
    rw [e1, e2]
    unfold taps
    simp only [mul_sub, sum_sub_distrib]
    ring
  rw [e3]
  refine (abs_add_le _ _).trans (add_le_add ?_ ?_)
  · refine (abs_sum_le_sum_abs _ _).trans ?_
    rw [sum_mul]
    apply sum_le_sum
    intro k _
    rw [abs_mul]
    exact mul_le_mul_of_nonneg_left (h1' _ (by omega)) (abs_nonneg _)
  · refine (abs_sum_le_sum_abs _ _).trans ?_
    rw [sum_mul]
    apply sum_le_sum
    intro k _
    rw [abs_mul]
    exact mul_le_mul_of_nonneg_left (h2' _ (by omega)) (abs_nonneg _)

end
end Rnd
end Verif
