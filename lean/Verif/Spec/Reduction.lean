/-!
# Specification of reductions

An `OpTree` is a fully parenthesised application of a binary operation to its leaves.
"The result is a parenthesisation of all elements, each exactly once" means: it is the value of a tree
whose leaves are a permutation of the elements.
-/

namespace Verif

inductive OpTree (β : Type u) where
  | leaf (b : β)
  | node (l r : OpTree β)

namespace OpTree

/-- Value of the expression under a binary operation. -/
def eval {β : Type u} (op : β → β → β) : OpTree β → β
  | leaf b => b
  | node l r => op (l.eval op) (r.eval op)

/-- Operands from left to right. -/
def leaves {β : Type u} : OpTree β → List β
  | leaf b => [b]
  | node l r => l.leaves ++ r.leaves

end OpTree

/-- The guarantee the C++ standard gives for `std::reduce(first, last, init, op)` (GENERALIZED_SUM):
some parenthesisation of some permutation of the init value and all elements. -/
def IsReduction {β : Type u} (red : (β → β → β) → β → List β → β) : Prop :=
  ∀ (op : β → β → β) (init : β) (l : List β),
    ∃ t : OpTree β, t.leaves.Perm (init :: l) ∧ red op init l = t.eval op

end Verif
