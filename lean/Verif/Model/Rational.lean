import Verif.Cpp
import Mathlib.Algebra.Order.Ring.Int
import Mathlib.Algebra.Order.Group.Unbundled.Int

/-!
# Model of `dspbb::Rational<T>`  (include/dspbb/Math/Rational.hpp)

`T` is a signed integer type described by its range `[lo, hi]`.  Every intermediate value the C++
code computes is range checked; leaving the range is signed overflow, i.e. `Out.ub`.
`asserts` says whether `assert` is compiled in.
Not modelled: unsigned `T`, the implicit integer promotion of `T` narrower than `int`
(the checks below are then stricter than C++), the default constructor (which leaves the members
uninitialised).
-/

namespace Verif

/-- A signed integer type and build mode. -/
structure ICfg where
  lo : Int
  hi : Int
  asserts : Bool

/-- `std::int64_t`, assertions enabled. -/
def int64Debug : ICfg := ⟨-2 ^ 63, 2 ^ 63 - 1, true⟩
/-- `std::int64_t`, `NDEBUG`. -/
def int64Release : ICfg := ⟨-2 ^ 63, 2 ^ 63 - 1, false⟩

namespace ICfg
variable (c : ICfg)

/-- `x` is a value of the type. -/
def InR (x : Int) : Prop := c.lo ≤ x ∧ x ≤ c.hi
instance (x : Int) : Decidable (c.InR x) := by unfold InR; infer_instance

def chk (x : Int) : Out Int := if c.InR x then .ok x else .ub
def add (a b : Int) : Out Int := c.chk (a + b)
def sub (a b : Int) : Out Int := c.chk (a - b)
def mul (a b : Int) : Out Int := c.chk (a * b)
/-- C++ `/`: truncates toward zero, division by zero is UB. -/
def div (a b : Int) : Out Int := if b = 0 then .ub else c.chk (a.tdiv b)
/-- `std::gcd`: UB if an absolute value is not representable. -/
def gcd (a b : Int) : Out Int :=
  if c.InR |a| ∧ c.InR |b| then .ok (Int.gcd a b : Int) else .ub
/-- `std::lcm`: UB if an absolute value or the result is not representable. -/
def lcm (a b : Int) : Out Int :=
  if c.InR |a| ∧ c.InR |b| ∧ c.InR (Int.lcm a b : Int) then .ok (Int.lcm a b : Int) else .ub
/-- `assert`, if compiled in. -/
def assert (p : Prop) [Decidable p] : Out Unit := if c.asserts then cassert p else .ok ()

end ICfg

/-- `class Rational<T>`, members `num` and `den`.  Rational.hpp:10-48 -/
structure Rational where
  num : Int
  den : Int
  deriving DecidableEq, Repr

namespace Rational
variable (c : ICfg)

/-- Rational.hpp:109-111, `Rational(int_t value)`. -/
def ofInt (v : Int) : Rational := ⟨v, 1⟩

/-- Rational.hpp:113-116, `Rational(int_t numerator, int_t denominator)`. -/
def make (n d : Int) : Out Rational := do
  c.assert (0 < d)
  let g₁ ← c.gcd n d
  let num ← c.div n g₁
  c.assert (0 < d)
  let g₂ ← c.gcd n d
  let den ← c.div d g₂
  pure ⟨num, den⟩

/-- Rational.hpp:118-121, `Numerator()`. -/
def numerator (r : Rational) : Out Int := pure r.num

/-- Rational.hpp:123-127, `Denominator()`, asserts `den > 0`. -/
def denominator (r : Rational) : Out Int := do
  c.assert (0 < r.den)
  pure r.den

/-- Rational.hpp:52-55, `operator+(Rational, T)`. -/
def addInt (l : Rational) (k : Int) : Out Rational := do
  let d ← denominator c l
  let t ← c.mul d k
  let n ← c.add l.num t
  make c n d

/-- Rational.hpp:56-60, `operator-(Rational, T)`. -/
def subInt (l : Rational) (k : Int) : Out Rational := do
  let d ← denominator c l
  let t ← c.mul d k
  let n ← c.sub l.num t
  make c n d

/-- Rational.hpp:61-67, `operator*(Rational, T)`; note that `sign` is multiplied onto both
members although `rhs / simplification` already carries the sign. -/
def mulInt (l : Rational) (k : Int) : Out Rational := do
  let d ← denominator c l
  let g ← c.gcd k d
  let sign := if k < 0 then -1 else 1
  let a ← c.mul sign l.num
  let q ← c.div k g
  let n ← c.mul a q
  let sd ← c.mul sign d
  let d' ← c.div sd g
  make c n d'

/-- Rational.hpp:68-75, `operator/(Rational, T)`. -/
def divInt (l : Rational) (k : Int) : Out Rational := do
  c.assert (k ≠ 0)
  let g ← c.gcd k l.num
  let sign := if k < 0 then -1 else 1
  let a ← c.mul sign l.num
  let n ← c.div a g
  let d ← denominator c l
  let sd ← c.mul sign d
  let q ← c.div k g
  let d' ← c.mul sd q
  make c n d'

/-- Rational.hpp:78-85, `operator+(Rational, Rational)`. -/
def add (l r : Rational) : Out Rational := do
  let ld ← denominator c l
  let rd ← denominator c r
  let common ← c.lcm ld rd
  let lq ← c.div common ld
  let a ← c.mul l.num lq
  let rq ← c.div common rd
  let b ← c.mul r.num rq
  let n ← c.add a b
  let g ← c.gcd n common
  let n' ← c.div n g
  let d' ← c.div common g
  make c n' d'

/-- Rational.hpp:86-93, `operator-(Rational, Rational)`. -/
def sub (l r : Rational) : Out Rational := do
  let ld ← denominator c l
  let rd ← denominator c r
  let common ← c.lcm ld rd
  let lq ← c.div common ld
  let a ← c.mul l.num lq
  let rq ← c.div common rd
  let b ← c.mul r.num rq
  let n ← c.sub a b
  let g ← c.gcd n common
  let n' ← c.div n g
  let d' ← c.div common g
  make c n' d'

/-- Rational.hpp:94-100, `operator*(Rational, Rational)`. -/
def mul (l r : Rational) : Out Rational := do
  let rd ← denominator c r
  let ld ← denominator c l
  let s₁ ← c.gcd l.num rd
  let s₂ ← c.gcd r.num ld
  let a ← c.div l.num s₁
  let b ← c.div r.num s₂
  let n ← c.mul a b
  let e ← c.div rd s₁
  let f ← c.div ld s₂
  let d ← c.mul e f
  make c n d

/-- Rational.hpp:101-106, `operator/(Rational, Rational)`. -/
def div (l r : Rational) : Out Rational := do
  c.assert (r.num ≠ 0)
  let sign := if r.num < 0 then -1 else 1
  let d ← denominator c r
  let n' ← c.mul sign d
  let d' ← c.mul sign r.num
  let inv ← make c n' d'
  mul c l inv

/-- Rational.hpp:129-133, prefix `operator++`; the postfix form (141-146) changes the object in
the same way. -/
def inc (r : Rational) : Out Rational := do
  let n ← c.add r.num r.den
  pure ⟨n, r.den⟩

/-- Rational.hpp:135-139, prefix `operator--`; postfix 148-153. -/
def dec (r : Rational) : Out Rational := do
  let n ← c.sub r.num r.den
  pure ⟨n, r.den⟩

/-- Rational.hpp:205-208, `operator+(T, Rational)`. -/
def intAdd (k : Int) (r : Rational) : Out Rational := addInt c r k
/-- Rational.hpp:209-212, `operator-(T, Rational)`. -/
def intSub (k : Int) (r : Rational) : Out Rational := sub c (ofInt k) r
/-- Rational.hpp:213-216, `operator*(T, Rational)`. -/
def intMul (k : Int) (r : Rational) : Out Rational := mulInt c r k
/-- Rational.hpp:217-220, `operator/(T, Rational)`. -/
def intDiv (k : Int) (r : Rational) : Out Rational := div c (ofInt k) r

/-- Rational.hpp:223-229, `CommonNumerators`. -/
def commonNumerators (l r : Rational) : Out (Int × Int) := do
  let ld ← denominator c l
  let rd ← denominator c r
  let common ← c.lcm ld rd
  let lq ← c.div common ld
  let a ← c.mul l.num lq
  let rq ← c.div common rd
  let b ← c.mul r.num rq
  pure (a, b)

/-- Rational.hpp:233-237, `operator==`. -/
def eq (l r : Rational) : Out Bool := do
  let p ← commonNumerators c l r
  pure (decide (p.1 = p.2))
/-- Rational.hpp:238-241, `operator!=`. -/
def ne (l r : Rational) : Out Bool := do
  let b ← eq c l r
  pure (!b)
/-- Rational.hpp:242-246, `operator<`. -/
def lt (l r : Rational) : Out Bool := do
  let p ← commonNumerators c l r
  pure (decide (p.1 < p.2))
/-- Rational.hpp:247-251, `operator>`. -/
def gt (l r : Rational) : Out Bool := do
  let p ← commonNumerators c l r
  pure (decide (p.1 > p.2))
/-- Rational.hpp:252-255, `operator<=`. -/
def le (l r : Rational) : Out Bool := do
  let b ← gt c l r
  pure (!b)
/-- Rational.hpp:256-259, `operator>=`. -/
def ge (l r : Rational) : Out Bool := do
  let b ← lt c l r
  pure (!b)

/-- Rational.hpp:262-265, `operator==(Rational, S)` for an integer. -/
def eqInt (l : Rational) (k : Int) : Out Bool := eq c l (ofInt k)
/-- Rational.hpp:266-269, `operator!=(Rational, S)`. -/
def neInt (l : Rational) (k : Int) : Out Bool := do
  let b ← eqInt c l k
  pure (!b)
/-- Rational.hpp:270-273, `operator<(Rational, S)`. -/
def ltInt (l : Rational) (k : Int) : Out Bool := lt c l (ofInt k)
/-- Rational.hpp:274-277, `operator>(Rational, S)`. -/
def gtInt (l : Rational) (k : Int) : Out Bool := gt c l (ofInt k)
/-- Rational.hpp:278-281, `operator<=(Rational, S)`. -/
def leInt (l : Rational) (k : Int) : Out Bool := do
  let b ← gtInt c l k
  pure (!b)
/-- Rational.hpp:282-285, `operator>=(Rational, S)`. -/
def geInt (l : Rational) (k : Int) : Out Bool := do
  let b ← ltInt c l k
  pure (!b)

/-- Rational.hpp:288-291, `operator==(S, Rational)`. -/
def intEq (k : Int) (r : Rational) : Out Bool := eq c (ofInt k) r
/-- Rational.hpp:292-295, `operator!=(S, Rational)`. -/
def intNe (k : Int) (r : Rational) : Out Bool := do
  let b ← intEq c k r
  pure (!b)
/-- Rational.hpp:296-299, `operator<(S, Rational)`. -/
def intLt (k : Int) (r : Rational) : Out Bool := lt c (ofInt k) r
/-- Rational.hpp:300-303, `operator>(S, Rational)`. -/
def intGt (k : Int) (r : Rational) : Out Bool := gt c (ofInt k) r
/-- Rational.hpp:304-307, `operator<=(S, Rational)`. -/
def intLe (k : Int) (r : Rational) : Out Bool := do
  let b ← intGt c k r
  pure (!b)
/-- Rational.hpp:308-311, `operator>=(S, Rational)`. -/
def intGe (k : Int) (r : Rational) : Out Bool := do
  let b ← intLt c k r
  pure (!b)

/-- Rational.hpp:156-195, the compound assignments: each assigns the result of the binary operator (the integer forms 156-174, the
rational forms 178-195) to the object.  `op` is that operator applied to the operand. -/
def assign (op : Rational → Out Rational) (self : Rational) : Out Rational := do
  let r ← op self
  pure r

/-- Rational.hpp:198-202, conversion to a floating point type `F`: `cast` is `static_cast<F>(integer)`, `div` the division of `F`. -/
def toFloat {F : Type} (cast : Int → F) (div : F → F → F) (r : Rational) : F := div (cast r.num) (cast r.den)

/-- Rational.hpp:315-318, `ceil`. -/
def ceil (r : Rational) : Out Int := do
  let d ← denominator c r
  let s ← c.add r.num d
  let t ← c.sub s 1
  let d₂ ← denominator c r
  c.div t d₂

/-- Rational.hpp:320-323, `floor`. -/
def floor (r : Rational) : Out Int := do
  let d ← denominator c r
  c.div r.num d

/-- Rational.hpp:325-328, `frac`. -/
def frac (r : Rational) : Out Rational := do
  let f ← floor c r
  subInt c r f

end Rational
end Verif
