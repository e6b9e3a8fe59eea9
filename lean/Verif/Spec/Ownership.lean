import Verif.Model.Ownership

/-!
# Specification: objects with value semantics

A program creates, copies, moves, assigns, changes and destroys objects in any order.  What it should see is described with values only: no
memory, no pointers.
-/

namespace Verif
namespace Own

/-- What a program does next.  Objects are named by numbers; `copy i j` constructs the new object `i` from `j`, `assign i j` assigns `j` to
the existing object `i`.  The Boolean arguments are the choices `std::vector` is free to make. -/
inductive Op (α V : Type) where
  | make (i : ℕ) (v : V)
  | copy (i j : ℕ)
  | move (i j : ℕ)
  | assign (reuse : Bool) (i j : ℕ)
  | moveAssign (keep : Bool) (i j : ℕ)
  | destroy (i : ℕ)
  | write (i : ℕ) (upper : Bool) (k : ℕ) (x : α)

/-- What is known of an object: there is none, it was moved into itself, or it has a value. -/
inductive Slot (V : Type) where
  | dead
  | selfMoved
  | is (v : V)

/-- The effect of a step on the values; `none` means that the program must not do this.  `moved` is the value left behind by a move and `upd`
the change of one element. -/
def Op.spec {α V : Type} (moved : V) (upd : V → Bool → ℕ → α → Option V) (S : ℕ → Slot V) : Op α V → Option (ℕ → Slot V)
  | .make i v => match S i with
    | .dead => some (Function.update S i (.is v))
    | _ => none
  | .copy i j => match S i, S j with
    | .dead, .is v => some (Function.update S i (.is v))
    | _, _ => none
  | .move i j => match S i, S j with
    | .dead, .is v => some (Function.update (Function.update S i (.is v)) j (.is moved))
    | _, _ => none
  | .assign _ i j => match S i, S j with
    | .dead, _ => none
    | _, .is v => some (Function.update S i (.is v))
    | _, _ => none
  | .moveAssign _ i j => match S i, S j with
    | .dead, _ => none
    | _, .is v => if i = j then some (Function.update S i .selfMoved)
      else some (Function.update (Function.update S i (.is v)) j (.is moved))
    | _, _ => none
  | .destroy i => match S i with
    | .dead => none
    | _ => some (Function.update S i .dead)
  | .write i upper k x => match S i with
    | .is v => (upd v upper k x).map fun v => Function.update S i (.is v)
    | _ => none

/-- A history from the program's start. -/
def history {α V : Type} (moved : V) (upd : V → Bool → ℕ → α → Option V) : List (Op α V) → Option (ℕ → Slot V) :=
  List.foldlM (Op.spec moved upd) (fun _ => .dead)

/-- A polyphase filter is a list of coefficients with a number of phases; a coefficient can be changed if there is one. -/
def polyUpd {α : Type} (v : List α × ℕ) (_ : Bool) (k : ℕ) (x : α) : Option (List α × ℕ) :=
  if k < v.1.length then some (v.1.set k x, v.2) else none

/-- A factored polynomial consists of the numbers of its real and of its complex roots. -/
def polynUpd {α : Type} (v : List α × List α) (upper : Bool) (k : ℕ) (x : α) : Option (List α × List α) :=
  if upper then (if k < v.2.length then some (v.1, v.2.set k x) else none)
  else (if k < v.1.length then some (v.1.set k x, v.2) else none)

/-- The program's step on polyphase filters, in memory. -/
def polyStep {α : Type} (s : St α PolyObj) : Op α (List α × ℕ) → Out (St α PolyObj)
  | .make i v => polyMake s i v.1 v.2
  | .copy i j => polyCopy s i j
  | .move i j => polyMove s i j
  | .assign r i j => polyAssign s r i j
  | .moveAssign k i j => polyMoveAssign s k i j
  | .destroy i => polyDestroy s i
  | .write i _ k x => polyWrite s i k x

/-- The program's step on factored polynomials, in memory. -/
def polynStep {α : Type} (s : St α PolynObj) : Op α (List α × List α) → Out (St α PolynObj)
  | .make i v => polynMake s i v.1 v.2
  | .copy i j => polynCopy s i j
  | .move i j => polynMove s i j
  | .assign r i j => polynAssign s r i j
  | .moveAssign _ i j => polynMoveAssign s i j
  | .destroy i => polynDestroy s i
  | .write i u k x => polynWrite s i u k x

/-- The same with assignment operators that return what they promise to. -/
def polynStepRepaired {α : Type} (s : St α PolynObj) : Op α (List α × List α) → Out (St α PolynObj)
  | .assign r i j => polynAssignBody s r i j
  | .moveAssign _ i j => polynMoveAssignBody s i j
  | op => polynStep s op

/-- No assignment. -/
def Op.constructs {α V : Type} : Op α V → Prop
  | .assign _ _ _ => False
  | .moveAssign _ _ _ => False
  | _ => True

/-- No object is moved into itself. -/
def Op.noSelfMove {α V : Type} : Op α V → Prop
  | .moveAssign _ i j => i ≠ j
  | _ => True

/-- What a user sees of a polyphase filter: `PolyphaseView`'s elements and phase count. -/
def polySeen {α : Type} (s : St α PolyObj) (i : ℕ) : Out (List α × ℕ) := do
  let o ← s.get i
  let l ← s.heap.read o.view
  pure (l, o.count)

/-- What `Buffer()` shows. -/
def polyBuffer {α : Type} (s : St α PolyObj) (i : ℕ) : Out (List α) := do
  let o ← s.get i
  let v ← asView s.heap o.buf
  s.heap.read v

/-- What a user sees of a factored polynomial: `real_roots()` and `complex_pairs()`. -/
def polynSeen {α : Type} (s : St α PolynObj) (i : ℕ) : Out (List α × List α) := do
  let o ← s.get i
  let r ← s.heap.read o.real
  let c ← s.heap.read o.cplx
  pure (r, c)

end Own
end Verif
