import Verif.Cpp
import Mathlib.Algebra.Order.Field.Basic
import Mathlib.Algebra.Order.Group.Unbundled.Abs

/-!
# Model of Math/Solvers.hpp
-/

namespace Verif

variable {K : Type} [Field K] [LinearOrder K]

/-- The floating point operations of `Bisect` that may round: the midpoint `(a + b) / 2` and the distance `|b - a|`; `top` is
`std::numeric_limits<T>::max()`.  The sign of the product of two function values is that of the exact product (no underflow). -/
structure BisectArith (K : Type) where
  mid : K → K → K
  dist : K → K → K
  top : K

/-- the arithmetic without rounding -/
def exactArith (top : K) : BisectArith K := ⟨fun a b => (a + b) / 2, fun a b => |b - a|, top⟩

structure BisectState (K : Type) where
  a : K
  b : K
  c : K
  err : K
  errPrev : K

/-- Solvers.hpp:11-21, one turn -/
def bisectStep (A : BisectArith K) (func : K → K) (s : BisectState K) : BisectState K :=
  let fa := func s.a
  let fc := func s.c
  let b := if fa * fc ≤ 0 then s.c else s.b
  let a := if fa * fc ≤ 0 then s.a else s.c
  ⟨a, b, A.mid a b, A.dist a b, s.err⟩

/-- Solvers.hpp:22 -/
def bisectCond (tolerance : K) (s : BisectState K) : Bool := decide (tolerance < s.err) && decide (s.err < s.errPrev)

/-- Solvers.hpp:5-25 `Bisect`.  `do ... while`; at most `fuel` turns after the first one, a loop that goes on is reported as `ub`. -/
def bisectLoop (A : BisectArith K) (fuel : Nat) (func : K → K) (a b tolerance : K) : Out (BisectState K) :=
  whileN fuel (bisectCond tolerance) (fun s => .ok (bisectStep A func s)) (bisectStep A func ⟨a, b, A.mid a b, A.top, A.top⟩)

/-- Solvers.hpp:24 -/
def bisect (A : BisectArith K) (fuel : Nat) (func : K → K) (a b tolerance : K) : Out K := do
  let s ← bisectLoop A fuel func a b tolerance
  pure s.c

structure NewtonState (K : Type) where
  x0 : K
  x1 : K
  err : K
  errPrev : K

/-- Solvers.hpp:33-36, one turn.  A zero derivative gives infinity or NaN, which is outside the model: `ub`. -/
def newtonTurn (func der : K → K) (s : NewtonState K) : Out (NewtonState K) :=
  if der s.x1 = 0 then .ub
  else .ok ⟨s.x1, s.x1 - func s.x1 / der s.x1, |s.x1 - func s.x1 / der s.x1 - s.x1|, s.err⟩

/-- Solvers.hpp:27-39 `NewtonRaphson`, without rounding -/
def solveNewton (top : K) (fuel : Nat) (func der : K → K) (x0 tolerance : K) : Out K := do
  let s ← newtonTurn func der ⟨x0, x0, top, top⟩
  let s ← whileN fuel (fun s => decide (tolerance < s.err) && decide (s.err < s.errPrev)) (newtonTurn func der) s
  pure s.x1

end Verif
