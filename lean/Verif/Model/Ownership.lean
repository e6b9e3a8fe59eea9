import Verif.Cpp
import Mathlib.Data.Nat.Notation
import Mathlib.Logic.Function.Basic

/-!
# Model of objects that own memory and keep views into it

include/dspbb/Filtering/Polyphase.hpp (`PolyphaseFilter`), include/dspbb/Math/Polynomials.hpp (`FactoredPolynomial`).

The heap consists of blocks; freeing a block that is not allocated and reading or writing through a pointer into such a block is undefined
behaviour.  Addresses are never reused, so a dangling pointer is always noticed.  `std::vector` (inside `BasicSignal`) may or may not keep its
block when it is assigned to: every theorem holds for both choices, made anew at every assignment.  Allocation does not fail.
-/

namespace Verif
namespace Own

/-- The allocated blocks and the next address to be handed out. -/
structure Heap (α : Type) where
  blocks : ℕ → Option (List α)
  next : ℕ

variable {α : Type}

/-- Every program starts with nothing allocated. -/
def Heap.empty : Heap α := ⟨fun _ => none, 0⟩

/-- operator new -/
def Heap.alloc (h : Heap α) (l : List α) : ℕ × Heap α := (h.next, ⟨Function.update h.blocks h.next (some l), h.next + 1⟩)

/-- operator delete; a block that is not allocated is undefined behaviour -/
def Heap.free (h : Heap α) (b : ℕ) : Out (Heap α) :=
  match h.blocks b with
  | none => .ub
  | some _ => .ok ⟨Function.update h.blocks b none, h.next⟩

/-! ### `std::vector` as used by `BasicSignal` (Primitives/Signal.hpp:45-46, 54-55, 107): a block, or none -/

/-- The elements. -/
def Heap.contents (h : Heap α) : Option ℕ → Out (List α)
  | none => .ok []
  | some b => match h.blocks b with
    | none => .ub
    | some l => .ok l

/-- Signal.hpp:107 (constructor) and 45 (copy constructor): a vector with these elements. -/
def vecNew (h : Heap α) (l : List α) : Option ℕ × Heap α :=
  if l = [] then (none, h) else let r := h.alloc l; (some r.1, r.2)

/-- destructor -/
def vecFree (h : Heap α) : Option ℕ → Out (Heap α)
  | none => .ok h
  | some b => h.free b

/-- Signal.hpp:54, assignment of another vector with elements `l`: the own block is kept (`reuse`) or exchanged. -/
def vecAssign (h : Heap α) (reuse : Bool) (dst : Option ℕ) (l : List α) : Out (Option ℕ × Heap α) :=
  match dst, reuse with
  | some b, true => match h.blocks b with
    | none => .ub
    | some _ => .ok (some b, ⟨Function.update h.blocks b (some l), h.next⟩)
  | _, _ => do
    let h ← vecFree h dst
    pure (vecNew h l)

/-! ### Views -/

/-- Primitives/SignalView.hpp:63-65: a pointer into a block with an extent; `none` is the null view. -/
structure PView where
  block : ℕ
  off : ℕ
  len : ℕ

/-- SignalView.hpp:92-97 `BasicSignalView(first, size)` with `first = data() + off`; null if the size is zero; a pointer into no block is
undefined behaviour. -/
def mkView (buf : Option ℕ) (off len : ℕ) : Out (Option PView) :=
  if len = 0 then .ok none else match buf with
    | none => .ub
    | some b => .ok (some ⟨b, off, len⟩)

/-- SignalView.hpp:68-71, 147-149 `AsView(signal)` -/
def asView (h : Heap α) (buf : Option ℕ) : Out (Option PView) := do
  let l ← h.contents buf
  mkView buf 0 l.length

/-- SignalView.hpp:112 `size` -/
def viewSize : Option PView → ℕ
  | none => 0
  | some v => v.len

/-- The elements seen through a view (SignalView.hpp:40-43, 106). -/
def Heap.read (h : Heap α) : Option PView → Out (List α)
  | none => .ok []
  | some v => match h.blocks v.block with
    | none => .ub
    | some l => if v.off + v.len ≤ l.length then .ok ((l.drop v.off).take v.len) else .ub

/-- Writing element `k` through a view (SignalView.hpp:106). -/
def Heap.write (h : Heap α) (v : Option PView) (k : ℕ) (x : α) : Out (Heap α) :=
  match v with
  | none => .ub
  | some v => if v.len ≤ k then .ub else match h.blocks v.block with
    | none => .ub
    | some l => if v.off + k < l.length then .ok ⟨Function.update h.blocks v.block (some (l.set (v.off + k) x)), h.next⟩ else .ub

/-! ### `PolyphaseFilter` -/

/-- Polyphase.hpp:47-49 and 86-87: the members of base class and class -/
structure PolyObj where
  buf : Option ℕ
  view : Option PView
  count : ℕ

/-- Polyphase.hpp:15, 48-49, 55: default constructed -/
def PolyObj.default : PolyObj := ⟨none, none, 1⟩

/-- Heap and live objects (by identity) of a program. -/
structure St (α O : Type) where
  heap : Heap α
  objs : ℕ → Option O

/-- The program's start. -/
def St.init {O : Type} : St α O := ⟨Heap.empty, fun _ => none⟩

/-- a live object; using a dead one is undefined behaviour -/
def St.get {O : Type} (s : St α O) (i : ℕ) : Out O := match s.objs i with
  | none => .ub
  | some o => .ok o

/-- store a member's new value -/
def St.set {O : Type} (s : St α O) (i : ℕ) (o : O) : St α O := ⟨s.heap, Function.update s.objs i (some o)⟩

/-- Polyphase.hpp:56-58 `PolyphaseFilter(hrFilterSize, numPhases)`; the elements are those written afterwards, see `polyWrite` -/
def polyMake (s : St α PolyObj) (i : ℕ) (l : List α) (numPhases : ℕ) : Out (St α PolyObj) := do
  let (b, h) := vecNew s.heap l
  let v ← asView h b
  pure ⟨h, Function.update s.objs i (some ⟨b, v, numPhases⟩)⟩

/-- Polyphase.hpp:59-61, copy constructor -/
def polyCopy (s : St α PolyObj) (i j : ℕ) : Out (St α PolyObj) := do
  let rhs ← s.get j
  let l ← s.heap.contents rhs.buf
  let (b, h) := vecNew s.heap l
  let v ← asView h b
  pure ⟨h, Function.update s.objs i (some ⟨b, v, rhs.count⟩)⟩

/-- Polyphase.hpp:62-65, move constructor: the buffer changes hands, the view is copied, `rhs` gets a default view -/
def polyMove (s : St α PolyObj) (i j : ℕ) : Out (St α PolyObj) := do
  let rhs ← s.get j
  let s := s.set i ⟨rhs.buf, none, 1⟩
  let s := s.set j ⟨none, rhs.view, rhs.count⟩
  let this ← s.get i
  let rhs ← s.get j
  let s := s.set i ⟨this.buf, rhs.view, rhs.count⟩
  let rhs ← s.get j
  pure (s.set j ⟨rhs.buf, none, 1⟩)

/-- Polyphase.hpp:66-70, copy assignment.  `i = j` is an assignment to itself, which `std::vector` ignores. -/
def polyAssign (s : St α PolyObj) (reuse : Bool) (i j : ℕ) : Out (St α PolyObj) := do
  let this ← s.get i
  let rhs ← s.get j
  let (b, h) ← if i = j then pure (this.buf, s.heap) else do
    let l ← s.heap.contents rhs.buf
    vecAssign s.heap reuse this.buf l
  let s : St α PolyObj := ⟨h, Function.update s.objs i (some ⟨b, this.view, this.count⟩)⟩
  let rhs ← s.get j
  let v ← asView s.heap b
  pure (s.set i ⟨b, v, rhs.count⟩)

/-- Polyphase.hpp:71-76, move assignment.  Moving a `std::vector` into itself leaves it as it is (`keep`) or empty. -/
def polyMoveAssign (s : St α PolyObj) (keep : Bool) (i j : ℕ) : Out (St α PolyObj) := do
  let this ← s.get i
  let rhs ← s.get j
  let s ← (if i = j then
      (if keep then pure s else do
        let h ← vecFree s.heap this.buf
        pure ⟨h, Function.update s.objs i (some ⟨none, this.view, this.count⟩)⟩)
    else do
      let h ← vecFree s.heap this.buf
      let s : St α PolyObj := ⟨h, Function.update s.objs i (some ⟨rhs.buf, this.view, this.count⟩)⟩
      pure (s.set j ⟨none, rhs.view, rhs.count⟩) : Out (St α PolyObj))
  let this ← s.get i
  let rhs ← s.get j
  let s := s.set i ⟨this.buf, rhs.view, rhs.count⟩
  let rhs ← s.get j
  pure (s.set j ⟨rhs.buf, none, 1⟩)

/-- Polyphase.hpp:77, destructor -/
def polyDestroy (s : St α PolyObj) (i : ℕ) : Out (St α PolyObj) := do
  let this ← s.get i
  let h ← vecFree s.heap this.buf
  pure ⟨h, Function.update s.objs i none⟩

/-- Polyphase.hpp:19-22, 79-81: an element of the filter is changed through the view -/
def polyWrite (s : St α PolyObj) (i k : ℕ) (x : α) : Out (St α PolyObj) := do
  let this ← s.get i
  let h ← s.heap.write this.view k x
  pure ⟨h, s.objs⟩

/-! ### `FactoredPolynomial` -/

/-- Polynomials.hpp:79-82.  Extents are counted in numbers: a complex root takes two. -/
structure PolynObj where
  mem : Option ℕ
  real : Option PView
  cplx : Option PView

/-- Polynomials.hpp:187-211: a polynomial whose buffer holds `real` and then `cplx` (what is stored is C26) -/
def polynMake (s : St α PolynObj) (i : ℕ) (real cplx : List α) : Out (St α PolynObj) := do
  let (b, h) := vecNew s.heap (real ++ cplx)
  let r ← mkView b 0 real.length
  let c ← mkView b real.length cplx.length
  pure ⟨h, Function.update s.objs i (some ⟨b, r, c⟩)⟩

/-- Polynomials.hpp:163-167, copy constructor -/
def polynCopy (s : St α PolynObj) (i j : ℕ) : Out (St α PolynObj) := do
  let rhs ← s.get j
  let l ← s.heap.contents rhs.mem
  let (b, h) := vecNew s.heap l
  let r ← mkView b 0 (viewSize rhs.real)
  let c ← mkView b (viewSize rhs.real) (viewSize rhs.cplx)
  pure ⟨h, Function.update s.objs i (some ⟨b, r, c⟩)⟩

/-- Polynomials.hpp:153-160, move constructor -/
def polynMove (s : St α PolynObj) (i j : ℕ) : Out (St α PolynObj) := do
  let rhs ← s.get j
  let b := rhs.mem
  let s := s.set j ⟨none, rhs.real, rhs.cplx⟩
  let rhs ← s.get j
  let r ← mkView b 0 (viewSize rhs.real)
  let c ← mkView b (viewSize rhs.real) (viewSize rhs.cplx)
  let s := s.set i ⟨b, r, c⟩
  let rhs ← s.get j
  pure (s.set j ⟨rhs.mem, none, none⟩)

/-- Polynomials.hpp:178-183, the statements of the copy assignment operator -/
def polynAssignBody (s : St α PolynObj) (reuse : Bool) (i j : ℕ) : Out (St α PolynObj) := do
  let this ← s.get i
  let rhs ← s.get j
  let (b, h) ← if i = j then pure (this.mem, s.heap) else do
    let l ← s.heap.contents rhs.mem
    vecAssign s.heap reuse this.mem l
  let s : St α PolynObj := ⟨h, Function.update s.objs i (some ⟨b, this.real, this.cplx⟩)⟩
  let rhs ← s.get j
  let r ← mkView b 0 (viewSize rhs.real)
  let s := s.set i ⟨b, r, this.cplx⟩
  let rhs ← s.get j
  let c ← mkView b (viewSize rhs.real) (viewSize rhs.cplx)
  pure (s.set i ⟨b, r, c⟩)

/-- Polynomials.hpp:178-183, copy assignment: the function returns a reference but has no return statement, which is undefined behaviour
when the end of its body is reached. -/
def polynAssign (s : St α PolynObj) (reuse : Bool) (i j : ℕ) : Out (St α PolynObj) := do
  let _ ← polynAssignBody s reuse i j
  .ub

/-- Polynomials.hpp:169-176, the statements of the move assignment operator (to another object) -/
def polynMoveAssignBody (s : St α PolynObj) (i j : ℕ) : Out (St α PolynObj) := do
  let this ← s.get i
  let rhs ← s.get j
  let h ← vecFree s.heap this.mem
  let b := rhs.mem
  let s : St α PolynObj := ⟨h, Function.update s.objs i (some ⟨b, this.real, this.cplx⟩)⟩
  let s := s.set j ⟨none, rhs.real, rhs.cplx⟩
  let rhs ← s.get j
  let r ← mkView b 0 (viewSize rhs.real)
  let c ← mkView b (viewSize rhs.real) (viewSize rhs.cplx)
  let s := s.set i ⟨b, r, c⟩
  let rhs ← s.get j
  pure (s.set j ⟨rhs.mem, none, none⟩)

/-- Polynomials.hpp:169-176, move assignment: no return statement either. -/
def polynMoveAssign (s : St α PolynObj) (i j : ℕ) : Out (St α PolynObj) := do
  let _ ← polynMoveAssignBody s i j
  .ub

/-- Polynomials.hpp:66-68, destructor -/
def polynDestroy (s : St α PolynObj) (i : ℕ) : Out (St α PolynObj) := do
  let this ← s.get i
  let h ← vecFree s.heap this.mem
  pure ⟨h, Function.update s.objs i none⟩

/-- Polynomials.hpp:273-281: a number is changed through `real_roots()` or `complex_pairs()` -/
def polynWrite (s : St α PolynObj) (i : ℕ) (cplx : Bool) (k : ℕ) (x : α) : Out (St α PolynObj) := do
  let this ← s.get i
  let h ← s.heap.write (if cplx then this.cplx else this.real) k x
  pure ⟨h, s.objs⟩

end Own
end Verif
