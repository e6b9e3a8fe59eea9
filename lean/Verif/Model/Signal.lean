import Verif.Cpp
import Verif.Model.Numeric

/-!
# Model of signals, views and signal arithmetic

include/dspbb/Primitives/Signal.hpp, SignalView.hpp, SignalArithmetic.hpp, Kernels/Functors.hpp:87-165.

`std::vector` is a list; its member functions are modelled with the preconditions of the C++ standard
(violating one is `ub`).  A program has several signal objects; an object is a position in a list of contents, so
that passing an object to its own member function can be told apart from passing another one.
Not modelled: allocation failure, `capacity`/`reserve`, the conversions between element types.
-/

namespace Verif

section
variable {α : Type}

/-! ### `std::vector` -/

/-- `v.insert(v.begin() + where, first, last)` for a range `t` outside of `v`. -/
def vecInsert (s : List α) (pos : Nat) (t : List α) : Out (List α) :=
  if pos ≤ s.length then .ok (s.take pos ++ t ++ s.drop pos) else .ub

/-- `v.erase(v.begin() + first, v.begin() + last)` -/
def vecErase (s : List α) (first last : Nat) : Out (List α) :=
  if first ≤ last ∧ last ≤ s.length then .ok (s.take first ++ s.drop last) else .ub

/-! ### `BasicSignal` -/

/-- The signal objects of a program. -/
abbrev Objects (α : Type) := List (List α)

/-- Signal.hpp:118-119 `BasicSignal(count, data)`, `data` pointing at element `p` of `mem`. -/
def Sig.ofData (mem : List α) (p : Int) (count : Nat) : Out (List α) :=
  if 0 ≤ p then loadV count mem p.toNat else .ub

/-- Signal.hpp:168-176 `resize`; `resize(count)` value-initialises, i.e. `value` is zero. -/
def Sig.resize (h : Objects α) (obj count : Nat) (value : α) : Out (Objects α) := do
  let s ← rd h (obj : Int)
  wr h (obj : Int) (s.take count ++ List.replicate (count - s.length) value)

/-- Signal.hpp:178-181 `clear` -/
def Sig.clear (h : Objects α) (obj : Nat) : Out (Objects α) := do
  let _ ← rd h (obj : Int)
  wr h (obj : Int) []

/-- Signal.hpp:214-222 `insert(where, signal)`, as index or as iterator.  The range inserted into a vector must not
be a part of that vector ([sequence.reqmts]), so inserting a signal into itself is undefined. -/
def Sig.insert (h : Objects α) (obj pos other : Nat) : Out (Objects α) := do
  let s ← rd h (obj : Int)
  let t ← rd h (other : Int)
  if obj = other then .ub
  else do
    let r ← vecInsert s pos t
    wr h (obj : Int) r

/-- Signal.hpp:183-186 `append` -/
def Sig.append (h : Objects α) (obj other : Nat) : Out (Objects α) := do
  let s ← rd h (obj : Int)
  Sig.insert h obj s.length other

/-- Signal.hpp:188-191 `prepend` -/
def Sig.prepend (h : Objects α) (obj other : Nat) : Out (Objects α) := Sig.insert h obj 0 other

/-- Signal.hpp:193-196 `push_back` -/
def Sig.pushBack (h : Objects α) (obj : Nat) (x : α) : Out (Objects α) := do
  let s ← rd h (obj : Int)
  wr h (obj : Int) (s ++ [x])

/-- Signal.hpp:235-238 `erase(first, last)` -/
def Sig.erase (h : Objects α) (obj first last : Nat) : Out (Objects α) := do
  let s ← rd h (obj : Int)
  let r ← vecErase s first last
  wr h (obj : Int) r

/-- Signal.hpp:230-233 `erase(where)`; the end iterator may not be erased. -/
def Sig.erase1 (h : Objects α) (obj pos : Nat) : Out (Objects α) := do
  let s ← rd h (obj : Int)
  (if pos < s.length then Sig.erase h obj pos (pos + 1) else .ub)

/-- Signal.hpp:198-204 `extract_front`; the result is a new object, returned separately. -/
def Sig.extractFront (h : Objects α) (obj count : Nat) : Out (List α × Objects α) := do
  let s ← rd h (obj : Int)
  cassert (count ≤ s.length)
  let part ← Sig.ofData s 0 count
  let h ← Sig.erase h obj 0 count
  pure (part, h)

/-- Signal.hpp:206-212 `extract_back` -/
def Sig.extractBack (h : Objects α) (obj count : Nat) : Out (List α × Objects α) := do
  let s ← rd h (obj : Int)
  cassert (count ≤ s.length)
  let part ← Sig.ofData s (0 - (count : Int) + (s.length : Int)) count
  let h ← Sig.erase h obj (s.length - count) s.length
  pure (part, h)

/-! ### `BasicSignalView` -/

/-- A pointer into the array `mem`: null or a position, the position behind the end included. -/
abbrev Ptr := Option Nat

/-- `p + k` for an array of `n` elements: undefined outside of the array; null may only be moved by zero. -/
def Ptr.add (n : Nat) (p : Ptr) (k : Int) : Out Ptr :=
  match p with
  | none => if k = 0 then .ok none else .ub
  | some i => if 0 ≤ (i : Int) + k ∧ (i : Int) + k ≤ n then .ok (some ((i : Int) + k).toNat) else .ub

/-- `q - p` -/
def Ptr.diff (q p : Ptr) : Out Int :=
  match q, p with
  | none, none => .ok 0
  | some j, some i => .ok ((j : Int) - (i : Int))
  | _, _ => .ub

/-- `std::addressof(*p)`: dereferencing needs an element. -/
def Ptr.deref (n : Nat) (p : Ptr) : Out Ptr :=
  match p with
  | none => .ub
  | some i => if i < n then .ok (some i) else .ub

/-- SignalView.hpp:63-64 -/
structure View where
  first : Ptr
  last : Ptr
  deriving DecidableEq, Repr

/-- SignalView.hpp:21 -/
def View.default : View := ⟨none, none⟩

/-- SignalView.hpp:84-89 `BasicSignalView(first, last)` -/
def View.ofRange (n : Nat) (first last : Ptr) : Out View := do
  let f ← (if first ≠ last then Ptr.deref n first else pure none)
  let d ← Ptr.diff last first
  let l ← Ptr.add n f d
  pure ⟨f, l⟩

/-- SignalView.hpp:91-96 `BasicSignalView(first, size)` -/
def View.ofSize (n : Nat) (first : Ptr) (size : Nat) : Out View := do
  let f ← (if size ≠ 0 then Ptr.deref n first else pure none)
  let l ← Ptr.add n f size
  pure ⟨f, l⟩

/-- SignalView.hpp:67-76, view of a whole signal with contents `mem` -/
def View.ofSignal (mem : List α) : Out View := View.ofRange mem.length (some 0) (some mem.length)

/-- SignalView.hpp:112 `size`, converted to `size_t` -/
def View.size (v : View) : Out Nat := do
  let d ← Ptr.diff v.last v.first
  (if 0 ≤ d then pure d.toNat else pure (d % 2 ^ 64).toNat)

/-- SignalView.hpp:118 `empty` -/
def View.empty (v : View) : Bool := decide (v.first = v.last)

/-- SignalView.hpp:106 `operator[]`, read -/
def View.get (mem : List α) (v : View) (i : Nat) : Out α :=
  match v.first with
  | none => .ub
  | some p => rd mem ((p + i : Nat) : Int)

/-- SignalView.hpp:106 `operator[]`, write -/
def View.set (mem : List α) (v : View) (i : Nat) (x : α) : Out (List α) :=
  match v.first with
  | none => .ub
  | some p => wr mem ((p + i : Nat) : Int) x

/-- SignalView.hpp:99-100 `front` -/
def View.front (mem : List α) (v : View) : Out α :=
  match v.first with
  | none => .ub
  | some p => rd mem (p : Int)

/-- SignalView.hpp:102-103 `back` -/
def View.back (mem : List α) (v : View) : Out α :=
  match v.last with
  | none => .ub
  | some p => rd mem ((p : Int) - 1)

/-- SignalView.hpp:120-124 `first(n)` -/
def View.firstN (n : Nat) (v : View) (k : Nat) : Out View := do
  let s ← v.size
  cassert (k ≤ s)
  let q ← Ptr.add n v.first k
  View.ofRange n v.first q

/-- SignalView.hpp:126-130 `last(n)` -/
def View.lastN (n : Nat) (v : View) (k : Nat) : Out View := do
  let s ← v.size
  cassert (k ≤ s)
  let q ← Ptr.add n v.last (-(k : Int))
  View.ofRange n q v.last

/-- SignalView.hpp:132-136 `subsignal(offset)` -/
def View.subsignalFrom (n : Nat) (v : View) (offset : Nat) : Out View := do
  let s ← v.size
  cassert (offset ≤ s)
  let p ← Ptr.add n v.first offset
  View.ofRange n p v.last

/-- SignalView.hpp:138-143 `subsignal(offset, count)`; `offset + count` is computed modulo 2^64. -/
def View.subsignal (n : Nat) (v : View) (offset count : Nat) : Out View := do
  let s ← v.size
  cassert (offset ≤ s)
  cassert ((offset + count) % 2 ^ 64 ≤ s)
  let p ← Ptr.add n v.first offset
  let q ← Ptr.add n p count
  View.ofRange n p q

end

/-! ### arithmetic -/

/-- The four element-wise operations. -/
inductive ArithOp
  | mul | div | add | sub
  deriving DecidableEq, Repr

section
variable {K : Type} [Add K] [Sub K] [Mul K] [Div K] [Zero K]

/-- `std::multiplies`, `std::divides`, `std::plus`, `std::minus` as used at SignalArithmetic.hpp:42, 64, 86, 108 -/
def ArithOp.functor : ArithOp → K → K → K
  | .mul => fun x y => x * y
  | .div => fun x y => x / y
  | .add => fun x y => x + y
  | .sub => fun x y => x - y

/-- Functors.hpp:87-155 `multiplies_scalar_left`, `divides_scalar_left`, `plus_scalar_left`, `minus_scalar_left` -/
def ArithOp.scalarLeft : ArithOp → K → K → K
  | .mul, scalar => fun arg => scalar * arg
  | .div, scalar => fun arg => scalar / arg
  | .add, scalar => fun arg => scalar + arg
  | .sub, scalar => fun arg => scalar - arg

/-- Functors.hpp:97-165 `..._scalar_right` -/
def ArithOp.scalarRight : ArithOp → K → K → K
  | .mul, scalar => fun arg => arg * scalar
  | .div, scalar => fun arg => arg / scalar
  | .add, scalar => fun arg => arg + scalar
  | .sub, scalar => fun arg => arg - scalar

/-- A signal or view argument: where its elements start in memory, and how many there are. -/
structure Span where
  pos : Nat
  size : Nat
  deriving DecidableEq, Repr

/-- SignalArithmetic.hpp:17-24; `asserts`: whether assertions are compiled in. -/
def checkSizes3 (asserts : Bool) (r a b : Span) : Out Unit := do
  (if asserts then cassert (r.size = a.size) else pure ())
  (if asserts then cassert (r.size = b.size) else pure ())
  (if r.size ≠ a.size ∨ r.size ≠ b.size then .throws else pure ())

/-- SignalArithmetic.hpp:26-32 -/
def checkSizes2 (asserts : Bool) (r a : Span) : Out Unit := do
  (if asserts then cassert (r.size = a.size) else pure ())
  (if r.size ≠ a.size then .throws else pure ())

/-- SignalArithmetic.hpp:38-43, 60-65, 82-87, 104-109: `Multiply(r, a, b)` and the like for three signals, all in one
memory so that they may overlap. -/
def arithVV (asserts vec : Bool) (W : Nat) (op : ArithOp) (mem : List K) (r a b : Span) : Out (List K) := do
  checkSizes3 asserts r a b
  transform2 vec W op.functor mem a.pos a.size b.pos r.pos

/-- SignalArithmetic.hpp:45-50, 67-72, 89-94, 111-116: scalar on the left -/
def arithSV (asserts vec : Bool) (W : Nat) (op : ArithOp) (mem : List K) (r : Span) (a : K) (b : Span) : Out (List K) := do
  checkSizes2 asserts r b
  transform1 vec W (op.scalarLeft a) mem b.pos b.size r.pos

/-- SignalArithmetic.hpp:52-57, 74-79, 96-101, 118-123: scalar on the right -/
def arithVS (asserts vec : Bool) (W : Nat) (op : ArithOp) (mem : List K) (r a : Span) (b : K) : Out (List K) := do
  checkSizes2 asserts r a
  transform1 vec W (op.scalarRight b) mem a.pos a.size r.pos

/-- SignalArithmetic.hpp:135-169, `a * b` and the like: the result is a new object, here at the end of memory.
Returns the contents of the result. -/
def operatorVV (asserts vec : Bool) (W : Nat) (op : ArithOp) (mem : List K) (a b : Span) : Out (List K) := do
  let m ← arithVV asserts vec W op (mem ++ List.replicate a.size 0) ⟨mem.length, a.size⟩ a b
  pure (m.drop mem.length)

/-- SignalArithmetic.hpp:176-210 -/
def operatorVS (asserts vec : Bool) (W : Nat) (op : ArithOp) (mem : List K) (a : Span) (b : K) : Out (List K) := do
  let m ← arithVS asserts vec W op (mem ++ List.replicate a.size 0) ⟨mem.length, a.size⟩ a b
  pure (m.drop mem.length)

/-- SignalArithmetic.hpp:213-247 -/
def operatorSV (asserts vec : Bool) (W : Nat) (op : ArithOp) (mem : List K) (a : K) (b : Span) : Out (List K) := do
  let m ← arithSV asserts vec W op (mem ++ List.replicate b.size 0) ⟨mem.length, b.size⟩ a b
  pure (m.drop mem.length)

/-- SignalArithmetic.hpp:254-280, `a *= b` and the like -/
def compoundVV (asserts vec : Bool) (W : Nat) (op : ArithOp) (mem : List K) (a b : Span) : Out (List K) :=
  arithVV asserts vec W op mem a a b

/-- SignalArithmetic.hpp:287-313, `a *= scalar` and the like -/
def compoundVS (asserts vec : Bool) (W : Nat) (op : ArithOp) (mem : List K) (a : Span) (b : K) : Out (List K) :=
  arithVS asserts vec W op mem a a b

end
end Verif
