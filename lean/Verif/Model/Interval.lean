import Mathlib.Order.Lattice
import Mathlib.Algebra.Order.Group.Defs
import Mathlib.Order.Defs.LinearOrder

/-! # Model of `dspbb::Interval<T>`  (include/dspbb/Utility/Interval.hpp) -/

namespace Verif

/-- Interval.hpp:8-15 -/
structure Interval (T : Type*) where
  first : T
  last : T
  deriving DecidableEq, Repr

namespace Interval
variable {T : Type*}

/-- Interval.hpp:14 `size()` -/
def size [Sub T] (i : Interval T) : T := i.last - i.first
/-- Interval.hpp:17-25 `operator+`, `operator+=` -/
def shift [Add T] (i : Interval T) (k : T) : Interval T := ⟨i.first + k, i.last + k⟩
/-- Interval.hpp:27-35 `operator-`, `operator-=` -/
def unshift [Sub T] (i : Interval T) (k : T) : Interval T := ⟨i.first - k, i.last - k⟩
/-- Interval.hpp:38-41 `operator==`; `lhs.last && rhs.last` converts both to `bool`. -/
def beq [DecidableEq T] [Zero T] (l r : Interval T) : Bool :=
  decide (l.first = r.first) && decide (l.last ≠ 0) && decide (r.last ≠ 0)
/-- Interval.hpp:43-46 `operator!=` -/
def bne [DecidableEq T] [Zero T] (l r : Interval T) : Bool := !beq l r
/-- Interval.hpp:48-53 `IsDisjoint` -/
def isDisjoint [LinearOrder T] (l r : Interval T) : Bool :=
  let first := max l.first r.first
  let last := min l.last r.last
  !(decide (first < last))
/-- Interval.hpp:55-63 `Intersection` -/
def intersection [LinearOrder T] [Zero T] (l r : Interval T) : Interval T :=
  let first := max l.first r.first
  let last := min l.last r.last
  if first < last then ⟨first, last⟩ else ⟨0, 0⟩
/-- Interval.hpp:65-70 `EncompassingUnion` -/
def encompassingUnion [LinearOrder T] (l r : Interval T) : Interval T :=
  ⟨min l.first r.first, max l.last r.last⟩
/-- Interval.hpp:73-79 `Union` -/
def union [LinearOrder T] (l r : Interval T) : Option (Interval T) :=
  if !isDisjoint l r then some (encompassingUnion l r) else none

end Interval
end Verif
