import Verif.Lemmas.OwnershipPolyn

/-!
# C87: copying, moving and assigning filters and polynomials

Whatever sequence of constructions, copies, moves, assignments, changes and destructions a program performs, objects behave like values: the
views held inside an object always show its own memory, no object sees another one's changes, nothing is freed twice or used after it was
freed, and nothing is leaked.
-/

namespace Verif
namespace Own

variable {α : Type}

/-- Every permitted history of polyphase filters runs without undefined behaviour, and afterwards every object shows its value. -/
theorem C87_polyphase_values (ops : List (Op α (List α × ℕ))) (S : ℕ → Slot (List α × ℕ)) (h : history ([], 1) polyUpd ops = some S) :
    ∃ s, ops.foldlM polyStep (St.init : St α PolyObj) = .ok s ∧ ∀ i, match S i with
      | .dead => s.objs i = none
      | .selfMoved => polySeen s i = .ok ([], 1)
      | .is v => polySeen s i = .ok v ∧ polyBuffer s i = .ok v.1 := by
  obtain ⟨s, e, hi⟩ := poly_history h
  refine ⟨s, e, fun i => ?_⟩
  have hr := hi.2 i
  cases hS : S i with
  | dead => exact hi.dead hS
  | selfMoved =>
    rw [hS] at hr
    obtain ⟨p, hp, hv, hn⟩ := hr
    simp [polySeen, get_some hp, hv, hn, Heap.read]
  | is v =>
    rw [hS] at hr
    obtain ⟨p, hp, hc, hv, hn⟩ := hr
    obtain ⟨w, hw, hrd⟩ := asView_ok hc
    have : w = p.view := by rw [hv] at hw; exact (Out.ok.inj hw).symm
    subst this
    simp [polySeen, polyBuffer, get_some hp, hn, hv, hrd]

/-- Every allocated block is owned by exactly one living object; in particular nothing remains allocated when all objects are gone. -/
theorem C87_polyphase_no_leak (ops : List (Op α (List α × ℕ))) (S : ℕ → Slot (List α × ℕ)) (h : history ([], 1) polyUpd ops = some S) :
    ∃ s, ops.foldlM polyStep (St.init : St α PolyObj) = .ok s ∧
      (∀ b, s.heap.blocks b ≠ none → ∃! i, ∃ p, s.objs i = some p ∧ p.buf = some b) ∧
      ((∀ i, S i = .dead) → ∀ b, s.heap.blocks b = none) := by
  obtain ⟨s, e, hi⟩ := poly_history h
  have own_iff : ∀ i b, own s i = some b ↔ ∃ p, s.objs i = some p ∧ p.buf = some b := by
    intro i b
    simp only [own, Option.bind_eq_some_iff]
  have hex : ∀ b, s.heap.blocks b ≠ none → ∃! i, ∃ p, s.objs i = some p ∧ p.buf = some b := by
    intro b hb
    obtain ⟨i, hib⟩ := hi.1.noleak b hb
    exact ⟨i, (own_iff i b).mp hib, fun j hj => hi.1.inj j i b ((own_iff j b).mpr hj) hib⟩
  refine ⟨s, e, hex, fun hd b => ?_⟩
  by_contra hb
  obtain ⟨i, ⟨p, hp, -⟩, -⟩ := hex b hb
  rw [hi.dead (hd i)] at hp
  cases hp

/-- What is seen of factored polynomials in a state that matches the values. -/
private theorem seen_of_inv {s : St α PolynObj} {S : ℕ → Slot (List α × List α)} (hi : NInv s S) : (∀ i, match S i with
      | .dead => s.objs i = none
      | .selfMoved => False
      | .is v => polynSeen s i = .ok v) ∧
      (∀ b, s.heap.blocks b ≠ none → ∃! i, ∃ p, s.objs i = some p ∧ p.mem = some b) ∧
      ((∀ i, S i = .dead) → ∀ b, s.heap.blocks b = none) := by
  have own_iff : ∀ i b, ownN s i = some b ↔ ∃ p, s.objs i = some p ∧ p.mem = some b := by
    intro i b
    simp only [ownN, Option.bind_eq_some_iff]
  have hex : ∀ b, s.heap.blocks b ≠ none → ∃! i, ∃ p, s.objs i = some p ∧ p.mem = some b := by
    intro b hb
    obtain ⟨i, hib⟩ := hi.1.noleak b hb
    exact ⟨i, (own_iff i b).mp hib, fun j hj => hi.1.inj j i b ((own_iff j b).mpr hj) hib⟩
  refine ⟨fun i => ?_, hex, fun hd b => ?_⟩
  · have hr := hi.2 i
    cases hS : S i with
    | dead => exact hi.dead hS
    | selfMoved => rw [hS] at hr; exact hr
    | is v =>
      rw [hS] at hr
      obtain ⟨p, hp, hc, hv1, hv2⟩ := hr
      obtain ⟨w1, hw1, r1, -⟩ := mkView_ok (l₁ := []) (l₂ := v.1) (l₃ := v.2) hc
      obtain ⟨w2, hw2, r2, -⟩ := mkView_ok (l₁ := v.1) (l₂ := v.2) (l₃ := []) (by simpa using hc)
      simp only [List.length_nil, hv1] at hw1
      rw [hv2] at hw2
      obtain rfl := Out.ok.inj hw1
      obtain rfl := Out.ok.inj hw2
      simp [polynSeen, get_some hp, r1, r2]
  · by_contra hb
    obtain ⟨i, ⟨p, hp, -⟩, -⟩ := hex b hb
    rw [hi.dead (hd i)] at hp
    cases hp

/-- The same for factored polynomials that are constructed, copied, moved, changed and destroyed, but not assigned to.  Missing: assignment,
see `C87_factored_assign_wrong`. -/
theorem C87_factored_partial (ops : List (Op α (List α × List α))) (S : ℕ → Slot (List α × List α)) (hc : ∀ op ∈ ops, op.constructs)
    (h : history ([], []) polynUpd ops = some S) :
    ∃ s, ops.foldlM polynStep (St.init : St α PolynObj) = .ok s ∧ (∀ i, match S i with
      | .dead => s.objs i = none
      | .selfMoved => False
      | .is v => polynSeen s i = .ok v) ∧
      (∀ b, s.heap.blocks b ≠ none → ∃! i, ∃ p, s.objs i = some p ∧ p.mem = some b) ∧
      ((∀ i, S i = .dead) → ∀ b, s.heap.blocks b = none) := by
  obtain ⟨s, e, hi⟩ := polyn_history (fun op ho => by
    have := hc op ho
    cases op <;> first | exact this.elim | exact True.intro) h
  exact ⟨s, by rw [polyn_constructs hc]; exact e, seen_of_inv hi⟩

/-- Assigning to a factored polynomial is undefined behaviour in every state a program can be in: both assignment operators promise a
reference and end without returning one. -/
theorem C87_factored_assign_wrong (ops : List (Op α (List α × List α))) (S : ℕ → Slot (List α × List α)) (hc : ∀ op ∈ ops, op.constructs)
    (h : history ([], []) polynUpd ops = some S) (i j : ℕ) (v w : List α × List α) (hi : S i = .is v) (hj : S j = .is w) (r : Bool) :
    (ops ++ [Op.assign r i j]).foldlM polynStep (St.init : St α PolynObj) = .ub ∧
    (i ≠ j → (ops ++ [Op.moveAssign r i j]).foldlM polynStep (St.init : St α PolynObj) = .ub) := by
  obtain ⟨s, e, hinv⟩ := polyn_history (fun op ho => by
    have := hc op ho
    cases op <;> first | exact this.elim | exact True.intro) h
  rw [foldlM_snoc, foldlM_snoc, polyn_constructs hc, e]
  constructor
  · obtain ⟨s', e', -⟩ := polynAssign_inv hinv r (i := i) (by rw [hi]; simp) hj
    change polynAssign s r i j = .ub
    simp [polynAssign, e']
  · intro hij
    obtain ⟨s', e', -⟩ := polynMoveAssign_inv hinv hij (by rw [hi]; simp) hj
    change polynMoveAssign s i j = .ub
    simp [polynMoveAssign, e']

/-- With the missing return statements added, assignment behaves like that of values too (an object is not moved into itself). -/
theorem C87_factored_repaired (ops : List (Op α (List α × List α))) (S : ℕ → Slot (List α × List α)) (hns : ∀ op ∈ ops, op.noSelfMove)
    (h : history ([], []) polynUpd ops = some S) :
    ∃ s, ops.foldlM polynStepRepaired (St.init : St α PolynObj) = .ok s ∧ (∀ i, match S i with
      | .dead => s.objs i = none
      | .selfMoved => False
      | .is v => polynSeen s i = .ok v) ∧
      (∀ b, s.heap.blocks b ≠ none → ∃! i, ∃ p, s.objs i = some p ∧ p.mem = some b) ∧
      ((∀ i, S i = .dead) → ∀ b, s.heap.blocks b = none) := by
  obtain ⟨s, e, hi⟩ := polyn_history hns h
  exact ⟨s, e, seen_of_inv hi⟩

/-! ### Concrete histories -/

/-- A filter is made, copied, changed, moved; then the copy is assigned to itself and over the moved one, and one is moved into itself. -/
def sampleOps : List (Op ℕ (List ℕ × ℕ)) :=
  [.make 0 ([1, 2, 3, 4, 5], 2), .copy 1 0, .write 0 false 4 9, .move 2 0, .assign true 1 1, .assign false 0 1, .write 1 false 0 7,
    .moveAssign true 1 2, .moveAssign true 2 2, .assign true 2 1, .destroy 0]

example : ((history ([], 1) polyUpd sampleOps).map fun S => (S 0, S 1, S 2)) =
    some (Slot.dead, Slot.is ([1, 2, 3, 4, 9], 2), Slot.is ([1, 2, 3, 4, 9], 2)) := by rfl

example : (do let s ← sampleOps.foldlM polyStep (St.init : St ℕ PolyObj); polySeen s 2) = .ok ([1, 2, 3, 4, 9], 2) := by rfl

def sampleOpsN : List (Op ℕ (List ℕ × List ℕ)) :=
  [.make 0 ([1, 2], [3, 4]), .copy 1 0, .write 0 true 1 9, .move 2 0, .destroy 0]

example : ∀ op ∈ sampleOpsN, op.constructs := by simp [sampleOpsN, Op.constructs]

example : ((history ([], []) polynUpd sampleOpsN).map fun S => (S 0, S 1, S 2)) =
    some (Slot.dead, Slot.is ([1, 2], [3, 4]), Slot.is ([1, 2], [3, 9])) := by rfl

example : (do let s ← sampleOpsN.foldlM polynStep (St.init : St ℕ PolynObj); polynSeen s 2) = .ok ([1, 2], [3, 9]) := by rfl

example : (sampleOpsN ++ [Op.assign true 1 2]).foldlM polynStep (St.init : St ℕ PolynObj) = .ub := by rfl

example : (do let s ← (sampleOpsN ++ [Op.assign true 1 2]).foldlM polynStepRepaired (St.init : St ℕ PolynObj); polynSeen s 1)
    = .ok ([1, 2], [3, 9]) := by rfl

end Own
end Verif
