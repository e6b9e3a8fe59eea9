import Verif.Model.Numeric
import Verif.Spec.FloatArith

/-!
# The statistics functions over an arbitrary arithmetic  (include/dspbb/Math/Statistics.hpp)

Verif/Model/Statistics.lean models the same functions over exact real numbers.  Here the element type `F` has whatever
addition, subtraction, multiplication, division and square root it has - no algebraic law is assumed - so that it can
be a floating point type.  The compiler is assumed not to contract or reassociate the operations
(no `-ffast-math`, no `-ffp-contract`).
-/

namespace Verif

/-- How the reductions are executed: vectorised or not, register width, and the external reductions of a register and of
the tail. -/
structure KernOf (F : Type) where
  vec : Bool
  W : ℕ
  red₁ : Reducer F
  red₂ : Reducer F

variable {F : Type} [Zero F] [Add F] [Sub F] [Mul F] [Div F] [FloatFun F]

/-- Statistics.hpp:16-20 `Sum` -/
def sumIn (c : KernOf F) (x : List F) : Out F :=
  reduce c.vec c.W c.red₁ c.red₂ x 0 x.length 0 (plainOp (fun a b => a + b))

/-- Statistics.hpp:23-27 `Mean` -/
def meanIn (c : KernOf F) (x : List F) : Out F :=
  if x.length ≠ 0 then do
    let s ← sumIn c x
    pure (s / FloatFun.ofSize x.length)
  else pure 0

/-- Statistics.hpp:30-39 `SumSquare` -/
def sumSquareIn (c : KernOf F) (x : List F) : Out F :=
  transformReduce c.vec c.W c.red₁ c.red₂ (fun a => a * a) x 0 x.length 0 (plainOp (fun a b => a + b))

/-- Statistics.hpp:42-46 `MeanSquare` -/
def meanSquareIn (c : KernOf F) (x : List F) : Out F :=
  if x.length ≠ 0 then do
    let s ← sumSquareIn c x
    pure (s / FloatFun.ofSize x.length)
  else pure 0

/-- Statistics.hpp:49-52 `RootMeanSquare` -/
def rootMeanSquareIn (c : KernOf F) (x : List F) : Out F := do
  let m ← meanSquareIn c x
  pure (FloatFun.sqrt m)

/-- Statistics.hpp:54-57 `Norm` -/
def normIn (c : KernOf F) (x : List F) : Out F := do
  let m ← sumSquareIn c x
  pure (FloatFun.sqrt m)

/-- Statistics.hpp:77-101 `CentralMoment(signal, 2, mean)`, which is `Variance(signal, mean)` (152-155); the other orders
are modelled over the reals only -/
def varianceAboutIn (c : KernOf F) (x : List F) (mean : F) : Out F := do
  let s ← transformReduce c.vec c.W c.red₁ c.red₂ (fun a => let d := a - mean; d * d) x 0 x.length 0
    (plainOp (fun a b => a + b))
  pure (s / FloatFun.ofSize x.length)

/-- Statistics.hpp:132-135 `Variance(signal)` through `CentralMoment(signal, 2)` (103-108) -/
def varianceIn (c : KernOf F) (x : List F) : Out F := do
  let m ← meanIn c x
  varianceAboutIn c x m

/-- Statistics.hpp:127-130 `StandardDeviation(signal)` -/
def standardDeviationIn (c : KernOf F) (x : List F) : Out F := do
  let v ← varianceIn c x
  pure (FloatFun.sqrt v)

/-- Statistics.hpp:225-238 `Covariance(a, b, amean, bmean)` -/
def covarianceAboutIn (c : KernOf F) (a b : List F) (amean bmean : F) : Out F := do
  cassert (a.length = b.length)
  let s ← innerProduct c.vec c.W c.red₁ c.red₂ (fun x y => (x - amean) * (y - bmean)) a b 0 a.length 0 0
    (plainOp (fun acc x => acc + x))
  pure (s / FloatFun.ofSize a.length)

/-- Statistics.hpp:240-243 `Covariance(a, b)` -/
def covarianceIn (c : KernOf F) (a b : List F) : Out F := do
  let ma ← meanIn c a
  let mb ← meanIn c b
  covarianceAboutIn c a b ma mb

end Verif
