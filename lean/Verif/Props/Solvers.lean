import Verif.Model.Solvers
import Verif.Lemmas.Measure
import Mathlib.Topology.Order.IntermediateValue
import Mathlib.Topology.Instances.Real.Lemmas
import Mathlib.Data.Finset.Card
import Mathlib.Tactic.FieldSimp
import Mathlib.Tactic.LinearCombination
import Mathlib.Analysis.Real.Sqrt
import Mathlib.Analysis.SpecificLimits.Basic
import Mathlib.Algebra.Order.Archimedean.Real.Basic

/-!
# C58: bisection and Newton-Raphson
-/

set_option linter.unusedSimpArgs false
set_option linter.unusedVariables false
set_option linter.unusedSectionVars false

namespace Verif

variable {K : Type} [Field K] [LinearOrder K] [IsStrictOrderedRing K]

/-- a midpoint that lies between its arguments, whatever the rounding -/
def BisectArith.Between (A : BisectArith K) : Prop := ∀ a b, min a b ≤ A.mid a b ∧ A.mid a b ≤ max a b

theorem exactArith_between (top : K) : (exactArith top).Between := by
  intro a b
  simp only [exactArith]
  rcases le_total a b with h | h
  · rw [min_eq_left h, max_eq_right h]; constructor <;> linarith
  · rw [min_eq_right h, max_eq_left h]; constructor <;> linarith

/-- the interval searched at some turn: inside the original one, with a sign change if the original one has a sign change -/
structure Brackets (func : K → K) (a b a' b' : K) : Prop where
  inside : (min a b ≤ a' ∧ a' ≤ max a b) ∧ (min a b ≤ b' ∧ b' ≤ max a b)
  signChange : func a * func b ≤ 0 → func a' * func b' ≤ 0

theorem bisectStep_brackets {A : BisectArith K} (hA : A.Between) (func : K → K) {a b : K} (s : BisectState K) (h : Brackets func a b s.a s.b)
    (hc : s.c = A.mid s.a s.b) :
    Brackets func a b (bisectStep A func s).a (bisectStep A func s).b ∧
      (bisectStep A func s).c = A.mid (bisectStep A func s).a (bisectStep A func s).b := by
  refine ⟨?_, rfl⟩
  have hm := hA s.a s.b
  rw [← hc] at hm
  have hci : min a b ≤ s.c ∧ s.c ≤ max a b :=
    ⟨(le_min h.inside.1.1 h.inside.2.1).trans hm.1, hm.2.trans (max_le h.inside.1.2 h.inside.2.2)⟩
  simp only [bisectStep]
  by_cases hs : func s.a * func s.c ≤ 0
  · simp only [if_pos hs]
    exact ⟨⟨h.inside.1, hci⟩, fun _ => hs⟩
  · simp only [if_neg hs]
    refine ⟨⟨hci, h.inside.2⟩, fun h0 => ?_⟩
    have h1 := h.signChange h0
    have hpos : 0 < func s.a * func s.c := not_le.mp hs
    rcases pos_and_pos_or_neg_and_neg_of_mul_pos hpos with ⟨p, q⟩ | ⟨p, q⟩
    · have : func s.b ≤ 0 := by
        by_contra hb; exact absurd h1 (not_le.mpr (mul_pos p (not_le.mp hb)))
      exact mul_nonpos_of_nonneg_of_nonpos q.le this
    · have : 0 ≤ func s.b := by
        by_contra hb; exact absurd h1 (not_le.mpr (mul_pos_of_neg_of_neg p (not_le.mp hb)))
      exact mul_nonpos_of_nonpos_of_nonneg q.le this

/-- Whatever the function, the tolerance and the rounding of the midpoint (as long as it stays between its arguments): what `Bisect`
returns is the midpoint of an interval inside the one given, and a sign change between the ends given is a sign change between the ends of
that interval. -/
theorem C58_bracket {A : BisectArith K} (hA : A.Between) (fuel : ℕ) (func : K → K) (a b tolerance r : K)
    (h : bisect A fuel func a b tolerance = .ok r) :
    (min a b ≤ r ∧ r ≤ max a b) ∧ ∃ a' b', r = A.mid a' b' ∧ Brackets func a b a' b' := by
  simp only [bisect, Out.bind_eq_ok, Out.pure_def, Out.ok.injEq] at h
  obtain ⟨s, hs, rfl⟩ := h
  have h0 : Brackets func a b a b :=
    ⟨⟨⟨min_le_left _ _, le_max_left _ _⟩, ⟨min_le_right _ _, le_max_right _ _⟩⟩, id⟩
  have key : ∀ (n : ℕ) (s s' : BisectState K), Brackets func a b s.a s.b → s.c = A.mid s.a s.b →
      whileN n (bisectCond tolerance) (fun s => .ok (bisectStep A func s)) s = .ok s' →
      Brackets func a b s'.a s'.b ∧ s'.c = A.mid s'.a s'.b := by
    intro n
    induction n with
    | zero => intro s s' _ _ h; simp [whileN] at h
    | succ n ih =>
      intro s s' h1 h2 h3
      unfold whileN at h3
      split at h3
      · obtain ⟨g1, g2⟩ := bisectStep_brackets hA func s h1 h2
        exact ih _ _ g1 g2 h3
      · simp at h3; subst h3; exact ⟨h1, h2⟩
  obtain ⟨g1, g2⟩ := bisectStep_brackets hA func ⟨a, b, A.mid a b, A.top, A.top⟩ h0 rfl
  obtain ⟨k1, k2⟩ := key fuel _ _ g1 g2 hs
  have hm := hA s.a s.b
  rw [← k2] at hm
  exact ⟨⟨(le_min k1.inside.1.1 k1.inside.2.1).trans hm.1, hm.2.trans (max_le k1.inside.1.2 k1.inside.2.2)⟩, s.a, s.b, k2, k1⟩

/-- On a type with finitely many values (as every floating point type is) `Bisect` returns, whatever the function: the error must shrink at
every turn. -/
theorem C58_terminates (A : BisectArith K) (func : K → K) (a b tolerance : K) (values : Finset K) (hv : ∀ a b, A.dist a b ∈ values) :
    ∃ r, bisect A (values.card + 1) func a b tolerance = .ok r := by
  have key := whileN_measure (cond := bisectCond tolerance) (body := fun s => .ok (bisectStep A func s))
    (fun s : BisectState K => s.err ∈ values) (fun s => if s.err < s.errPrev then (values.filter (· < s.err)).card + 1 else 0) (by
      intro s hs hc
      simp only [bisectCond, Bool.and_eq_true, decide_eq_true_eq] at hc
      refine ⟨bisectStep A func s, rfl, hv _ _, ?_⟩
      rw [if_pos hc.2]
      have he : (bisectStep A func s).errPrev = s.err := rfl
      rw [he]
      split
      · rename_i hlt
        apply Nat.succ_lt_succ
        apply Finset.card_lt_card
        rw [Finset.ssubset_iff_of_subset]
        · exact ⟨(bisectStep A func s).err, by simp [hlt]; exact hv _ _, by simp⟩
        · intro v hv'
          simp only [Finset.mem_filter] at hv' ⊢
          exact ⟨hv'.1, hv'.2.trans hlt⟩
      · omega) (values.card + 1) (bisectStep A func ⟨a, b, A.mid a b, A.top, A.top⟩) (by
      split
      · apply Nat.succ_lt_succ
        apply Finset.card_lt_card
        rw [Finset.ssubset_iff_of_subset (Finset.filter_subset _ _)]
        exact ⟨(bisectStep A func ⟨a, b, A.mid a b, A.top, A.top⟩).err, hv _ _, by simp⟩
      · omega) (hv _ _)
  obtain ⟨s, hs, _⟩ := key
  exact ⟨s.c, by simp only [bisect, bisectLoop, hs, Out.ok_bind, Out.pure_def]⟩

/-- the arithmetic of a decimal machine with two digits after the point meets the hypotheses of C58_bracket and C58_terminates on its
values: rounding down to multiples of 1/100, distances above 10 saturated -/
example : (⟨fun a b => max (min a b) (⌊(a + b) / 2 * 100⌋ / 100), fun a b => min 1 (max 0 (⌊|b - a| * 4⌋ / 4)), 1⟩ : BisectArith ℚ).Between ∧
    ∃ values : Finset ℚ, ∀ a b : ℚ, min 1 (max 0 ((⌊|b - a| * 4⌋ : ℚ) / 4)) ∈ values := by
  refine ⟨fun a b => ⟨le_max_left _ _, max_le min_le_max ?_⟩, {0, 1/4, 1/2, 3/4, 1}, fun a b => ?_⟩
  · have h1 : (⌊(a + b) / 2 * 100⌋ : ℚ) ≤ (a + b) / 2 * 100 := Int.floor_le _
    have h2 := le_max_left a b
    have h3 := le_max_right a b
    linarith
  · have h0 : (0 : ℤ) ≤ ⌊|b - a| * 4⌋ := Int.floor_nonneg.mpr (by positivity)
    obtain ⟨m, hm⟩ : ∃ m : ℤ, m = ⌊|b - a| * 4⌋ := ⟨_, rfl⟩
    rw [← hm] at h0 ⊢
    have hq : (0 : ℚ) ≤ (m : ℚ) / 4 := by positivity
    rw [max_eq_right hq]
    by_cases h4 : 4 ≤ m
    · have : (1 : ℚ) ≤ (m : ℚ) / 4 := by
        rw [le_div_iff₀ (by norm_num)]; exact_mod_cast (by linarith : (1 * 4 : ℤ) ≤ m)
      rw [min_eq_left this]; simp
    · have hm4 : m = 0 ∨ m = 1 ∨ m = 2 ∨ m = 3 := by omega
      rcases hm4 with e | e | e | e <;> subst e <;> norm_num

/-- a state in which the three points and the error agree, without rounding -/
structure ExactState (s : BisectState K) : Prop where
  c : s.c = (s.a + s.b) / 2
  err : s.err = |s.b - s.a|

theorem bisectStep_err (top : K) (func : K → K) {s : BisectState K} (h : s.c = (s.a + s.b) / 2) :
    (bisectStep (exactArith top) func s).err = |s.b - s.a| / 2 := by
  have e : |s.b - s.a| / 2 = |(s.b - s.a) / 2| := by rw [abs_div, abs_of_pos (by norm_num : (0 : K) < 2)]
  rw [e]
  simp only [bisectStep, exactArith, h]
  split <;> (congr 1; ring)

theorem bisectStep_halves (top : K) (func : K → K) {s : BisectState K} (h : ExactState s) :
    ExactState (bisectStep (exactArith top) func s) ∧ (bisectStep (exactArith top) func s).err = s.err / 2 ∧
      (bisectStep (exactArith top) func s).errPrev = s.err :=
  ⟨⟨rfl, rfl⟩, by rw [bisectStep_err top func h.c, h.err], rfl⟩

theorem whileN_exact (top : K) (func : K → K) (tolerance : K) :
    ∀ (n : ℕ) (s : BisectState K), ExactState s → s.err < s.errPrev ∨ s.err ≤ tolerance → 0 < tolerance → s.err ≤ tolerance * 2 ^ n →
      ∃ s', whileN (n + 1) (bisectCond tolerance) (fun s => .ok (bisectStep (exactArith top) func s)) s = .ok s' ∧ ExactState s' ∧
        s'.err ≤ tolerance
  | 0, s, h, _, _, hn => by
    simp at hn
    have : bisectCond tolerance s = false := by simp [bisectCond, hn]
    exact ⟨s, by simp [whileN, this], h, hn⟩
  | n + 1, s, h, hlt, ht, hn => by
    by_cases hle : s.err ≤ tolerance
    · have : bisectCond tolerance s = false := by simp [bisectCond, hle]
      exact ⟨s, by rw [whileN]; simp [this], h, hle⟩
    · obtain ⟨g1, g2, g3⟩ := bisectStep_halves top func h
      have hlt' : s.err < s.errPrev := hlt.resolve_right hle
      have hc : bisectCond tolerance s = true := by simp [bisectCond, hlt', not_le.mp hle]
      have hpos : 0 < s.err := ht.trans (not_le.mp hle)
      obtain ⟨s', e1, e2⟩ := whileN_exact top func tolerance n _ g1 (Or.inl (by rw [g2, g3]; linarith)) ht
        (by rw [g2]; rw [pow_succ] at hn; linarith)
      exact ⟨s', by rw [whileN]; simp [hc]; exact e1, e2⟩

theorem C58_root_core (top : ℝ) (func : ℝ → ℝ) (a b tolerance : ℝ) (n : ℕ) (ht : 0 < tolerance) (htop : |b - a| / 2 < top)
    (hn : |b - a| / 2 ≤ tolerance * 2 ^ n) :
    ∃ s, bisectLoop (exactArith top) (n + 1) func a b tolerance = .ok s ∧ ExactState s ∧ s.err ≤ tolerance := by
  have h0 : ExactState (bisectStep (exactArith top) func ⟨a, b, (exactArith top).mid a b, (exactArith top).top, (exactArith top).top⟩) := ⟨rfl, rfl⟩
  have herr : (bisectStep (exactArith top) func ⟨a, b, (exactArith top).mid a b, (exactArith top).top, (exactArith top).top⟩).err = |b - a| / 2 :=
    bisectStep_err top func rfl
  exact whileN_exact top func tolerance n _ h0 (Or.inl (by rw [herr]; exact htop)) ht (by rw [herr]; exact hn)

/-- Without rounding and with a positive tolerance: for a continuous function with a sign change between the ends, `Bisect` returns, after
about log2(|b - a| / tolerance) turns, a point of the interval that is within half the tolerance of a root. -/
theorem C58_root (top : ℝ) (func : ℝ → ℝ) (a b tolerance : ℝ) (n : ℕ) (ht : 0 < tolerance) (htop : |b - a| / 2 < top)
    (hn : |b - a| / 2 ≤ tolerance * 2 ^ n) (hcont : ContinuousOn func (Set.uIcc a b)) (hsign : func a * func b ≤ 0) :
    ∃ r, bisect (exactArith top) (n + 1) func a b tolerance = .ok r ∧ r ∈ Set.uIcc a b ∧
      ∃ z ∈ Set.uIcc a b, func z = 0 ∧ |r - z| ≤ tolerance / 2 := by
  obtain ⟨s, hs, hex, herr⟩ := C58_root_core top func a b tolerance n ht htop hn
  have hok : bisect (exactArith top) (n + 1) func a b tolerance = .ok s.c := by simp only [bisect, hs, Out.ok_bind, Out.pure_def]
  refine ⟨s.c, hok, ?_⟩
  have h0 : Brackets func a b a b :=
    ⟨⟨⟨min_le_left _ _, le_max_left _ _⟩, ⟨min_le_right _ _, le_max_right _ _⟩⟩, id⟩
  have key : ∀ (n : ℕ) (s s' : BisectState ℝ), Brackets func a b s.a s.b → s.c = (exactArith top).mid s.a s.b →
      whileN n (bisectCond tolerance) (fun s => .ok (bisectStep (exactArith top) func s)) s = .ok s' →
      Brackets func a b s'.a s'.b ∧ s'.c = (exactArith top).mid s'.a s'.b := by
    intro n
    induction n with
    | zero => intro s s' _ _ h; simp [whileN] at h
    | succ n ih =>
      intro s s' h1 h2 h3
      unfold whileN at h3
      split at h3
      · obtain ⟨g1, g2⟩ := bisectStep_brackets (exactArith_between top) func s h1 h2
        exact ih _ _ g1 g2 h3
      · simp at h3; subst h3; exact ⟨h1, h2⟩
  obtain ⟨g1, g2⟩ := bisectStep_brackets (exactArith_between top) func ⟨a, b, (exactArith top).mid a b, top, top⟩ h0 rfl
  obtain ⟨k1, k2⟩ := key (n + 1) _ _ g1 g2 hs
  have hsub : Set.uIcc s.a s.b ⊆ Set.uIcc a b := Set.uIcc_subset_uIcc k1.inside.1 k1.inside.2
  have hz : (0 : ℝ) ∈ Set.uIcc (func s.a) (func s.b) := by
    have := k1.signChange hsign
    rcases le_total (func s.a) 0 with h | h
    · rcases le_total 0 (func s.b) with h' | h'
      · exact Set.mem_uIcc.mpr (Or.inl ⟨h, h'⟩)
      · rcases eq_or_lt_of_le h with e | e
        · exact Set.mem_uIcc.mpr (Or.inr ⟨h', e ▸ le_rfl⟩)
        · have : func s.b = 0 := by
            by_contra hne
            exact absurd this (not_le.mpr (mul_pos_of_neg_of_neg e (lt_of_le_of_ne h' hne)))
          exact Set.mem_uIcc.mpr (Or.inl ⟨h, this ▸ le_rfl⟩)
    · rcases le_total (func s.b) 0 with h' | h'
      · exact Set.mem_uIcc.mpr (Or.inr ⟨h', h⟩)
      · rcases eq_or_lt_of_le h with e | e
        · exact Set.mem_uIcc.mpr (Or.inl ⟨e ▸ le_rfl, h'⟩)
        · have : func s.b = 0 := by
            by_contra hne
            exact absurd this (not_le.mpr (mul_pos e (lt_of_le_of_ne h' (Ne.symm hne))))
          exact Set.mem_uIcc.mpr (Or.inr ⟨this ▸ le_rfl, h⟩)
  obtain ⟨z, hz1, hz2⟩ := intermediate_value_uIcc (hcont.mono hsub) hz
  have hm : s.c = (s.a + s.b) / 2 := k2
  have hin : s.c ∈ Set.uIcc s.a s.b := by
    have := exactArith_between top s.a s.b
    rw [← k2] at this
    exact this
  refine ⟨hsub hin, z, hsub hz1, hz2, ?_⟩
  rw [hex.err] at herr
  rcases Set.mem_uIcc.mp hz1 with ⟨q1, q2⟩ | ⟨q1, q2⟩ <;> rw [abs_le] at herr ⊢ <;> rw [hm] <;> constructor <;> linarith [herr.1, herr.2]

/-- the hypotheses are met, e.g. for the square root of two -/
example : ∃ r, bisect (exactArith 100) 11 (fun x : ℝ => x ^ 2 - 2) 0 2 (1 / 1000) = .ok r ∧ |r - Real.sqrt 2| ≤ 1 / 2000 := by
  obtain ⟨r, h1, h2, z, h3, h4, h5⟩ := C58_root 100 (fun x : ℝ => x ^ 2 - 2) 0 2 (1 / 1000) 10 (by norm_num) (by norm_num) (by norm_num)
    (by fun_prop) (by norm_num)
  refine ⟨r, h1, ?_⟩
  have hz : Real.sqrt 2 = z := by
    rw [Set.uIcc_of_le (by norm_num)] at h3
    rw [show (2 : ℝ) = z ^ 2 by linarith, Real.sqrt_sq h3.1]
  rw [hz]; linarith

/-- Without rounding and with the default tolerance, zero, `Bisect` never returns (unless the interval is empty): that it stops is due to
the rounding only. -/
theorem C58_exact_never_ends (top : ℝ) (func : ℝ → ℝ) (a b : ℝ) (hab : a ≠ b) (htop : |b - a| / 2 < top) (fuel : ℕ) :
    bisect (exactArith top) fuel func a b 0 = .ub := by
  have key : ∀ (n : ℕ) (s : BisectState ℝ), ExactState s → 0 < s.err → s.err < s.errPrev →
      whileN n (bisectCond 0) (fun s => .ok (bisectStep (exactArith top) func s)) s = .ub := by
    intro n
    induction n with
    | zero => intro s _ _ _; rfl
    | succ n ih =>
      intro s h1 h2 h3
      have hc : bisectCond 0 s = true := by simp [bisectCond, h2, h3]
      obtain ⟨g1, g2, g3⟩ := bisectStep_halves top func h1
      rw [whileN]
      simp only [hc, if_true, Out.ok_bind]
      exact ih _ g1 (by rw [g2]; linarith) (by rw [g2, g3]; linarith)
  have herr : (bisectStep (exactArith top) func ⟨a, b, (exactArith top).mid a b, (exactArith top).top, (exactArith top).top⟩).err = |b - a| / 2 :=
    bisectStep_err top func rfl
  have hpos : 0 < |b - a| := abs_pos.mpr (sub_ne_zero.mpr (Ne.symm hab))
  have := key fuel (bisectStep (exactArith top) func ⟨a, b, (exactArith top).mid a b, (exactArith top).top, (exactArith top).top⟩) ⟨rfl, rfl⟩
    (by rw [herr]; linarith) (by rw [herr]; exact htop)
  show (do let s ← bisectLoop (exactArith top) fuel func a b 0; pure s.c) = .ub
  unfold bisectLoop
  rw [this]; rfl

/-- A root at which the derivative does not vanish is a fixed point of `NewtonRaphson`. -/
theorem C58_newton_fixes (top : K) (fuel : ℕ) (func der : K → K) (x tolerance : K) (hf : func x = 0) (hd : der x ≠ 0) (ht : 0 ≤ tolerance) :
    solveNewton top (fuel + 1) func der x tolerance = .ok x := by
  simp [solveNewton, newtonTurn, hd, hf, whileN, ht, not_lt.mpr ht]

/-- For an affine function `NewtonRaphson` returns the root, from any starting point, in two turns. -/
theorem C58_newton_affine (top : K) (fuel : ℕ) (slope offset x0 tolerance : K) (hs : slope ≠ 0) (ht : 0 ≤ tolerance) :
    solveNewton top (fuel + 2) (fun x => slope * x + offset) (fun _ => slope) x0 tolerance = .ok (-offset / slope) := by
  have e : ∀ x : K, x - (slope * x + offset) / slope = -offset / slope := by intro x; field_simp; ring
  simp only [solveNewton, newtonTurn, hs, if_false, e, Out.ok_bind, whileN, sub_self, abs_zero, not_lt.mpr ht, decide_false,
    Bool.false_and, Bool.false_eq_true, Out.pure_def]
  split <;> rfl

/-- What `NewtonRaphson` returns is the Newton step of some point `x`; and that step was no longer than the tolerance, or no shorter than
the step before (which led to `x` from `w`), or not below the largest number.  In particular, with tolerance zero, if the last step did
not move then the result is a root. -/
theorem C58_newton_result (top : K) (fuel : ℕ) (func der : K → K) (x0 tolerance r : K)
    (h : solveNewton top fuel func der x0 tolerance = .ok r) :
    ∃ x, der x ≠ 0 ∧ r = x - func x / der x ∧ (r = x → func r = 0) ∧
      (|r - x| ≤ tolerance ∨ top ≤ |r - x| ∨ ∃ w, der w ≠ 0 ∧ x = w - func w / der w ∧ |x - w| ≤ |r - x|) := by
  have step : ∀ s s' : NewtonState K, newtonTurn func der s = .ok s' →
      der s'.x0 ≠ 0 ∧ s'.x1 = s'.x0 - func s'.x0 / der s'.x0 ∧ s'.err = |s'.x1 - s'.x0| ∧ s'.x0 = s.x1 ∧ s'.errPrev = s.err := by
    intro s s' hs
    unfold newtonTurn at hs
    split at hs
    · simp at hs
    · rename_i hd
      simp only [Out.ok.injEq] at hs
      subst hs
      exact ⟨hd, rfl, rfl, rfl, rfl⟩
  have key : ∀ (n : ℕ) (s s' : NewtonState K), (der s.x0 ≠ 0 ∧ s.x1 = s.x0 - func s.x0 / der s.x0 ∧ s.err = |s.x1 - s.x0| ∧
        (s.errPrev = top ∨ ∃ w, der w ≠ 0 ∧ s.x0 = w - func w / der w ∧ s.errPrev = |s.x0 - w|)) →
      whileN n (fun s => decide (tolerance < s.err) && decide (s.err < s.errPrev)) (newtonTurn func der) s = .ok s' →
      (der s'.x0 ≠ 0 ∧ s'.x1 = s'.x0 - func s'.x0 / der s'.x0 ∧ s'.err = |s'.x1 - s'.x0| ∧
        (s'.errPrev = top ∨ ∃ w, der w ≠ 0 ∧ s'.x0 = w - func w / der w ∧ s'.errPrev = |s'.x0 - w|)) ∧
      (s'.err ≤ tolerance ∨ s'.errPrev ≤ s'.err) := by
    intro n
    induction n with
    | zero => intro s s' _ hw; simp [whileN] at hw
    | succ n ih =>
      intro s s' hi hw
      unfold whileN at hw
      split at hw
      · rw [Out.bind_eq_ok] at hw
        obtain ⟨s1, hs1, hw⟩ := hw
        obtain ⟨g1, g2, g3, g4, g5⟩ := step s s1 hs1
        refine ih s1 s' ⟨g1, g2, g3, Or.inr ⟨s.x0, hi.1, by rw [g4]; exact hi.2.1, ?_⟩⟩ hw
        rw [g5, g4]; exact hi.2.2.1
      · rename_i hc
        simp only [Out.ok.injEq] at hw
        subst hw
        refine ⟨hi, ?_⟩
        simp only [Bool.and_eq_true, decide_eq_true_eq, not_and, not_lt] at hc
        rcases le_or_gt s.err tolerance with h' | h'
        · exact Or.inl h'
        · exact Or.inr (hc h')
  simp only [solveNewton, Out.bind_eq_ok, Out.pure_def, Out.ok.injEq] at h
  obtain ⟨s1, h1, s, hw, rfl⟩ := h
  obtain ⟨g1, g2, g3, g4, g5⟩ := step _ _ h1
  obtain ⟨⟨k1, k2, k3, k4⟩, k5⟩ := key fuel s1 s ⟨g1, g2, g3, Or.inl g5⟩ hw
  refine ⟨s.x0, k1, k2, fun e => ?_, ?_⟩
  · rw [e] at k2 ⊢
    have : func s.x0 / der s.x0 = 0 := by linear_combination k2
    rcases div_eq_zero_iff.mp this with e' | e'
    · exact e'
    · exact absurd e' k1
  · rw [k3] at k5
    rcases k5 with h' | h'
    · exact Or.inl h'
    · rcases k4 with e | ⟨w, w1, w2, w3⟩
      · exact Or.inr (Or.inl (by rw [← e]; exact h'))
      · exact Or.inr (Or.inr ⟨w, w1, w2, by rw [← w3]; exact h'⟩)

example : solveNewton (1000 : ℚ) 6 (fun x => x ^ 2 - 2) (fun x => 2 * x) 1 (1 / 100) = .ok (577 / 408) := by decide +kernel

/-- `Bisect` on an interval without negative numbers returns a number that is not negative (used by the band edge fit of C53). -/
theorem C58_nonneg {A : BisectArith K} (hA : A.Between) (values : Finset K) (hv : ∀ a b, A.dist a b ∈ values) (tolerance : K) :
    NonnegSearch (fun f a b => bisect A (values.card + 1) f a b tolerance) := by
  intro f a b ha hb
  obtain ⟨r, hr⟩ := C58_terminates A f a b tolerance values hv
  exact ⟨r, hr, (le_min ha hb).trans (C58_bracket hA _ f a b tolerance r hr).1.1⟩

end Verif
