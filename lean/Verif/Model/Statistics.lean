import Verif.Model.Numeric
import Verif.Model.Floating
import Mathlib.Analysis.SpecialFunctions.Pow.Real

/-!
# Model of the statistics functions  (include/dspbb/Math/Statistics.hpp)

Samples are exact real numbers.  The reductions are the kernels of Verif/Model/Numeric.lean with whatever
vectorisation the machine offers (`Kern`).  Division is `fdiv`: dividing by zero gives no number.
-/

namespace Verif

/-- How the reductions are executed: vectorised or not, register width, and the external reductions of a register and of
the tail. -/
structure Kern where
  vec : Bool
  W : ℕ
  red₁ : Reducer ℝ
  red₂ : Reducer ℝ

/-- Statistics.hpp:16-20 `Sum` -/
noncomputable def statSum (c : Kern) (x : List ℝ) : Out ℝ :=
  reduce c.vec c.W c.red₁ c.red₂ x 0 x.length 0 (plainOp (fun a b => a + b))

/-- Statistics.hpp:23-27 `Mean` -/
noncomputable def statMean (c : Kern) (x : List ℝ) : Out ℝ :=
  if x ≠ [] then do
    let s ← statSum c x
    fdiv s (x.length : ℝ)
  else pure 0

/-- Statistics.hpp:30-39 `SumSquare` -/
noncomputable def statSumSquare (c : Kern) (x : List ℝ) : Out ℝ :=
  transformReduce c.vec c.W c.red₁ c.red₂ (fun a => a * a) x 0 x.length 0 (plainOp (fun a b => a + b))

/-- Statistics.hpp:42-46 `MeanSquare` -/
noncomputable def statMeanSquare (c : Kern) (x : List ℝ) : Out ℝ :=
  if x ≠ [] then do
    let s ← statSumSquare c x
    fdiv s (x.length : ℝ)
  else pure 0

/-- Statistics.hpp:49-52 `RootMeanSquare` -/
noncomputable def statRootMeanSquare (c : Kern) (x : List ℝ) : Out ℝ := do
  let m ← statMeanSquare c x
  pure (Real.sqrt m)

/-- Statistics.hpp:54-57 `Norm` -/
noncomputable def statNorm (c : Kern) (x : List ℝ) : Out ℝ := do
  let m ← statSumSquare c x
  pure (Real.sqrt m)

/-- Statistics.hpp:60-64 `Max` -/
noncomputable def statMax (c : Kern) (x : List ℝ) : Out ℝ := do
  cassert (x ≠ [])
  let first ← rd x 0
  reduce c.vec c.W c.red₁ c.red₂ x 0 x.length first (plainOp (fun a b => max a b))

/-- Statistics.hpp:67-71 `Min` -/
noncomputable def statMin (c : Kern) (x : List ℝ) : Out ℝ := do
  cassert (x ≠ [])
  let first ← rd x 0
  reduce c.vec c.W c.red₁ c.red₂ x 0 x.length first (plainOp (fun a b => min a b))

/-- Statistics.hpp:80-89: what is summed up for each sample -/
noncomputable def momentTerm (k : ℕ) (mean a : ℝ) : ℝ :=
  let d := a - mean
  if k = 2 then d * d
  else if k = 3 then d * d * d
  else if k = 4 then d * d * d * d
  else d * |d| ^ ((k : ℝ) - 1)

/-- Statistics.hpp:77-101 `CentralMoment(signal, k, mean)` -/
noncomputable def centralMomentAbout (c : Kern) (x : List ℝ) (k : ℕ) (mean : ℝ) : Out ℝ :=
  if k = 0 then pure 0
  else if k = 1 then pure 0
  else do
    let s ← transformReduce c.vec c.W c.red₁ c.red₂ (momentTerm k mean) x 0 x.length 0 (plainOp (fun a b => a + b))
    fdiv s (x.length : ℝ)

/-- Statistics.hpp:103-108 `CentralMoment(signal, k)` -/
noncomputable def centralMoment (c : Kern) (x : List ℝ) (k : ℕ) : Out ℝ := do
  let m ← statMean c x
  centralMomentAbout c x k m

/-- Statistics.hpp:110-114 `StandardizedMoment(signal, k, mean)` -/
noncomputable def standardizedMomentAbout (c : Kern) (x : List ℝ) (k : ℕ) (mean : ℝ) : Out ℝ := do
  let variance ← centralMomentAbout c x 2 mean
  let m ← centralMomentAbout c x k mean
  fdiv m (variance ^ ((k : ℝ) / 2))

/-- Statistics.hpp:116-119 `StandardizedMoment(signal, k)` -/
noncomputable def standardizedMoment (c : Kern) (x : List ℝ) (k : ℕ) : Out ℝ := do
  let m ← statMean c x
  standardizedMomentAbout c x k m

/-- Statistics.hpp:127-130 `StandardDeviation(signal)` -/
noncomputable def standardDeviation (c : Kern) (x : List ℝ) : Out ℝ := do
  let v ← centralMoment c x 2
  pure (Real.sqrt v)

/-- Statistics.hpp:132-135 `Variance(signal)` -/
noncomputable def variance (c : Kern) (x : List ℝ) : Out ℝ := centralMoment c x 2

/-- Statistics.hpp:137-140 `Skewness(signal)` -/
noncomputable def skewness (c : Kern) (x : List ℝ) : Out ℝ := standardizedMoment c x 3

/-- Statistics.hpp:142-145 `Kurtosis(signal)` -/
noncomputable def kurtosis (c : Kern) (x : List ℝ) : Out ℝ := standardizedMoment c x 4

/-- Statistics.hpp:147-150 `StandardDeviation(signal, mean)` -/
noncomputable def standardDeviationAbout (c : Kern) (x : List ℝ) (mean : ℝ) : Out ℝ := do
  let v ← centralMomentAbout c x 2 mean
  pure (Real.sqrt v)

/-- Statistics.hpp:175-181 `CorrectedVariance` -/
noncomputable def correctedVariance (c : Kern) (x : List ℝ) : Out ℝ := do
  cassert (2 ≤ x.length)
  let v ← centralMoment c x 2
  fdiv (v * (x.length : ℝ)) ((x.length : ℝ) - 1)

/-- Statistics.hpp:167-173 `CorrectedStandardDeviation` -/
noncomputable def correctedStandardDeviation (c : Kern) (x : List ℝ) : Out ℝ := do
  cassert (2 ≤ x.length)
  let v ← centralMoment c x 2
  let q ← fdiv (v * (x.length : ℝ)) ((x.length : ℝ) - 1)
  pure (Real.sqrt q)

/-- Statistics.hpp:183-197 `CorrectedSkewness` -/
noncomputable def correctedSkewness (c : Kern) (x : List ℝ) : Out ℝ := do
  let n : ℝ := x.length
  cassert (3 ≤ x.length)
  let smean ← statMean c x
  let m3 ← centralMomentAbout c x 3 smean
  let m2 ← centralMomentAbout c x 2 smean
  let q ← fdiv (n * n) ((n - 2) * (n - 1))
  let S := q * m3
  let q2 ← fdiv n (n - 1)
  let sigma2 := q2 * m2
  fdiv S (sigma2 ^ ((3 : ℝ) / 2))

/-- Statistics.hpp:199-217 `CorrectedKurtosis` -/
noncomputable def correctedKurtosis (c : Kern) (x : List ℝ) : Out ℝ := do
  let n : ℝ := x.length
  cassert (4 ≤ x.length)
  let smean ← statMean c x
  let m4 ← centralMomentAbout c x 4 smean
  let m2 ← centralMomentAbout c x 2 smean
  let q ← fdiv (n - 1) (n * n * n)
  let Kx := q * ((n * n - 3 * n + 3) * m4 + (6 * n - 9) * (m2 * m2))
  let q ← fdiv (n - 1) n
  let sigma2x := q * m2
  let q ← fdiv (n * n) ((n - 1) * (n - 1) * (n - 1) * (n * n - 3 * n + 3))
  let K := q * ((n * (n - 1) * (n - 1) + (6 * n - 9)) * Kx - n * (6 * n - 9) * sigma2x * sigma2x)
  let q ← fdiv n (n - 1)
  let sigma2 := q * m2
  fdiv K (sigma2 ^ ((4 : ℝ) / 2))

/-- Statistics.hpp:225-238 `Covariance(a, b, amean, bmean)` -/
noncomputable def covarianceAbout (c : Kern) (a b : List ℝ) (amean bmean : ℝ) : Out ℝ := do
  cassert (a.length = b.length)
  let s ← innerProduct c.vec c.W c.red₁ c.red₂ (fun x y => (x - amean) * (y - bmean)) a b 0 a.length 0 0
    (plainOp (fun acc x => acc + x))
  fdiv s (a.length : ℝ)

/-- Statistics.hpp:240-243 `Covariance(a, b)` -/
noncomputable def covariance (c : Kern) (a b : List ℝ) : Out ℝ := do
  let ma ← statMean c a
  let mb ← statMean c b
  covarianceAbout c a b ma mb

/-- Statistics.hpp:245-252 `CorrectedCovariance` -/
noncomputable def correctedCovariance (c : Kern) (a b : List ℝ) : Out ℝ := do
  cassert (a.length = b.length)
  cassert (2 ≤ a.length)
  let q ← fdiv (a.length : ℝ) ((a.length : ℝ) - 1)
  let v ← covariance c a b
  pure (q * v)

/-- Statistics.hpp:254-258 `Correlation` -/
noncomputable def correlation (c : Kern) (a b : List ℝ) : Out ℝ := do
  cassert (a.length = b.length)
  let v ← covariance c a b
  let sa ← standardDeviation c a
  let sb ← standardDeviation c b
  fdiv v (sa * sb)

end Verif
