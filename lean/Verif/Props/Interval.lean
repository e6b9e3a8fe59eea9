import Verif.Model.Interval
import Mathlib.Order.Interval.Set.LinearOrder
import Mathlib.Algebra.Order.Ring.Int
import Mathlib.Algebra.Order.Group.Unbundled.Basic
import Mathlib.Tactic.Order

/-!
# Properties C06, C07: intervals

Specification: the interval `{first, last}` denotes the half-open set `Set.Ico first last`.
The statements hold over every linearly ordered (group) type, so for signed integers and reals.
-/

namespace Verif
open Interval

/-- The set of points an interval stands for. -/
def Interval.pts {T : Type*} [LinearOrder T] (i : Interval T) : Set T := Set.Ico i.first i.last

/-- **C06** disjointness and intersection. -/
theorem C06_intersection {T : Type*} [LinearOrder T] [Zero T] (a b : Interval T) :
    (a.intersection b).pts = a.pts ∩ b.pts ∧
    (a.isDisjoint b = true ↔ a.pts ∩ b.pts = ∅) ∧
    (a.pts ∩ b.pts = ∅ → a.intersection b = ⟨0, 0⟩) ∧
    (a.intersection b).first ≤ (a.intersection b).last := by
  have key : a.pts ∩ b.pts = Set.Ico (max a.first b.first) (min a.last b.last) := by
    simp [pts, Set.Ico_inter_Ico]
  refine ⟨?_, ?_, ?_, ?_⟩
  · rw [key]
    simp only [intersection, pts]
    split <;> rename_i h
    · rfl
    · simp [Set.Ico_eq_empty h]
  · rw [key, Set.Ico_eq_empty_iff]
    simp only [isDisjoint, Bool.not_eq_true', decide_eq_false_iff_not]
  · rw [key, Set.Ico_eq_empty_iff]
    intro h
    simp only [intersection, if_neg h]
  · simp only [intersection]
    split <;> rename_i h
    · exact h.le
    · exact le_rfl

/-- **C06** hull: contains both operands, and for non-empty operands it is the least such
interval. -/
theorem C06_hull {T : Type*} [LinearOrder T] (a b : Interval T) :
    a.pts ⊆ (a.encompassingUnion b).pts ∧ b.pts ⊆ (a.encompassingUnion b).pts ∧
    (a.pts.Nonempty → b.pts.Nonempty → ∀ i : Interval T, a.pts ⊆ i.pts → b.pts ⊆ i.pts →
      (a.encompassingUnion b).pts ⊆ i.pts) := by
  refine ⟨?_, ?_, ?_⟩
  · exact Set.Ico_subset_Ico (min_le_left _ _) (le_max_left _ _)
  · exact Set.Ico_subset_Ico (min_le_right _ _) (le_max_right _ _)
  · intro ha hb i h1 h2
    have h1' := (Set.Ico_subset_Ico_iff (Set.nonempty_Ico.1 ha)).1 h1
    have h2' := (Set.Ico_subset_Ico_iff (Set.nonempty_Ico.1 hb)).1 h2
    exact Set.Ico_subset_Ico (le_min h1'.1 h2'.1) (max_le h1'.2 h2'.2)

/-- **C06** union: present exactly when the intervals share a point, and then it is the set union. -/
theorem C06_union {T : Type*} [LinearOrder T] (a b : Interval T) :
    ((a.union b).isSome ↔ (a.pts ∩ b.pts).Nonempty) ∧
    (∀ u, a.union b = some u → u.pts = a.pts ∪ b.pts) := by
  have hd : a.isDisjoint b = false ↔ max a.first b.first < min a.last b.last := by
    simp [isDisjoint]
  have hne : (a.pts ∩ b.pts).Nonempty ↔ max a.first b.first < min a.last b.last := by
    simp only [pts, Set.Ico_inter_Ico, Set.nonempty_Ico]
  constructor
  · rw [hne, ← hd]
    unfold union
    cases a.isDisjoint b <;> simp
  · intro u hu
    unfold union at hu
    cases hdis : a.isDisjoint b
    · rw [hdis] at hu
      simp only [Bool.not_false, if_true, Option.some.injEq] at hu
      subst hu
      have h := hd.1 hdis
      rw [lt_min_iff, max_lt_iff, max_lt_iff] at h
      obtain ⟨⟨h1, h2⟩, h3, h4⟩ := h
      exact (Set.Ico_union_Ico' h2.le h3.le).symm
    · rw [hdis] at hu
      simp at hu

/-- **C06** translation and size. -/
theorem C06_shift (a : Interval ℤ) (k x : ℤ) :
    (x ∈ (a.shift k).pts ↔ x - k ∈ a.pts) ∧ (x ∈ (a.unshift k).pts ↔ x + k ∈ a.pts) ∧
    (a.shift k).size = a.size ∧ (a.unshift k).size = a.size ∧
    (a.shift k).unshift k = a ∧ (a.first ≤ a.last → 0 ≤ a.size) := by
  simp only [pts, shift, unshift, size, Set.mem_Ico]
  refine ⟨by omega, by omega, by omega, by omega, ?_, by omega⟩
  cases a; simp

example : (Interval.mk (2 : ℤ) 7).intersection ⟨5, 9⟩ = ⟨5, 7⟩ ∧
    (Interval.mk (2 : ℤ) 7).union ⟨5, 9⟩ = some ⟨2, 9⟩ ∧
    (Interval.mk (2 : ℤ) 5).union ⟨5, 9⟩ = none := by decide

/-- **C07**: what the equality operator decides.  Full claim (`beq a b ↔ a = b`) is false, see
`C07_equality_wrong`; it holds when both intervals have the same non-zero end. -/
theorem C07_equality_partial (a b : Interval ℤ) (h : a.last = b.last) (h0 : a.last ≠ 0) :
    (a.beq b = true ↔ a = b) ∧ (a.bne b = true ↔ a ≠ b) := by
  cases a; cases b
  simp_all [beq, Interval.bne]

/-- The exact relation decided by `operator==`: starts agree and neither end is zero. -/
theorem C07_equality_exact (a b : Interval ℤ) :
    a.beq b = true ↔ a.first = b.first ∧ a.last ≠ 0 ∧ b.last ≠ 0 := by
  simp [beq, and_assoc]

/-- The code violates C07 in both directions: different intervals compare equal, and an interval can
differ from itself. -/
theorem C07_equality_wrong :
    (∃ a b : Interval ℤ, a ≠ b ∧ a.beq b = true) ∧ (∃ a : Interval ℤ, a.bne a = true) :=
  ⟨⟨⟨1, 2⟩, ⟨1, 3⟩, by decide, by decide⟩, ⟨⟨-1, 0⟩, by decide⟩⟩

example : (Interval.mk (1 : ℤ) 5).beq ⟨1, 5⟩ = true ∧ (Interval.mk (1 : ℤ) 5).beq ⟨2, 5⟩ = false := by
  decide

end Verif
