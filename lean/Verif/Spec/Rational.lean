import Mathlib.Data.Rat.Defs
import Mathlib.Algebra.Order.Field.Rat

/-!
# Specification: arithmetic expressions over rationals

`RExpr` is a client program: any nesting of the operations of the public interface.
`denote` is its mathematical meaning in ℚ (`none`: illegal use — non-positive denominator handed to
the constructor, or division by zero).
-/

namespace Verif

inductive RExpr where
  | lit (n d : ℤ)              -- Rational{n, d}
  | int (k : ℤ)                -- Rational{k}
  | add (a b : RExpr) | sub (a b : RExpr) | mul (a b : RExpr) | div (a b : RExpr)
  | addI (a : RExpr) (k : ℤ) | subI (a : RExpr) (k : ℤ)
  | mulI (a : RExpr) (k : ℤ) | divI (a : RExpr) (k : ℤ)
  | iadd (k : ℤ) (a : RExpr) | isub (k : ℤ) (a : RExpr)
  | imul (k : ℤ) (a : RExpr) | idiv (k : ℤ) (a : RExpr)
  | inc (a : RExpr) | dec (a : RExpr)

def RExpr.denote : RExpr → Option ℚ
  | lit n d => if 0 < d then some ((n : ℚ) / d) else none
  | int k => some k
  | add a b => do let x ← a.denote; let y ← b.denote; some (x + y)
  | sub a b => do let x ← a.denote; let y ← b.denote; some (x - y)
  | mul a b => do let x ← a.denote; let y ← b.denote; some (x * y)
  | div a b => do let x ← a.denote; let y ← b.denote; if y = 0 then none else some (x / y)
  | addI a k => do let x ← a.denote; some (x + k)
  | subI a k => do let x ← a.denote; some (x - k)
  | mulI a k => do let x ← a.denote; some (x * k)
  | divI a k => do let x ← a.denote; if k = 0 then none else some (x / k)
  | iadd k a => do let x ← a.denote; some (k + x)
  | isub k a => do let x ← a.denote; some (k - x)
  | imul k a => do let x ← a.denote; some (k * x)
  | idiv k a => do let x ← a.denote; if x = 0 then none else some (k / x)
  | inc a => do let x ← a.denote; some (x + 1)
  | dec a => do let x ← a.denote; some (x - 1)

/-- No sub-expression multiplies by a negative *integer*. -/
def RExpr.NoNegIntFactor : RExpr → Prop
  | lit _ _ | int _ => True
  | add a b | sub a b | mul a b | div a b => a.NoNegIntFactor ∧ b.NoNegIntFactor
  | addI a _ | subI a _ | divI a _ | iadd _ a | isub _ a | idiv _ a | inc a | dec a => a.NoNegIntFactor
  | mulI a k | imul k a => 0 ≤ k ∧ a.NoNegIntFactor

end Verif
