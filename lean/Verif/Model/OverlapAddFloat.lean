import Verif.Model.PocketBlueFloat

/-!
# Model of the chunk pipeline of overlap-add over floating point numbers
(include/dspbb/Math/OverlapAdd.hpp, include/dspbb/Math/FFT.hpp)

`overlapAdd` itself (Model/OverlapAdd.lean) is written over any type with an addition and is used unchanged.  Compiler
contraction of `a * b + c` inside `std::complex` is not modelled.
-/

namespace Verif.PocketF

variable {F : Type} [Zero F] [Add F] [Sub F] [Mul F] [Neg F]

instance : Zero (Cx F) := ⟨⟨0, 0⟩⟩

/-- `std::complex` multiplication of finite numbers (OverlapAdd.hpp:159 `workingChunkFd * filterFd`,
SignalArithmetic.hpp:136-142): `(a c - b d, a d + b c)`, every operation rounded -/
instance : Mul (Cx F) := ⟨smul false⟩

/-- The data a transform of one length depends on: literal constants, `T(1)`, `1 / n2`, the twiddle tables, the cost
estimate and the contents of uninitialised memory (see `c2c`). -/
structure FftEnv (F : Type) where
  lits : Lits F
  one : F
  xn2 : F
  tw : ℕ → Cx F
  tw2 : ℕ → Cx F
  tmp : ℕ → Cx F
  cost : ℕ → ℝ
  junk : ℕ → Cx F

/-- FFT.hpp:44-52, 66-74, 93-100, 119-125: the complex transform into a new, zero-initialised signal -/
noncomputable def FftEnv.run (E : FftEnv F) (fwd : Bool) (fct : Option F) (x : List (Cx F)) : Out (List (Cx F)) :=
  c2c E.lits E.one E.xn2 E.tw E.tw2 E.tmp E.cost fwd fct x (List.replicate x.length 0) E.junk

/-- OverlapAdd.hpp:16-55, 144, 158-160 for two complex signals.  `fft fwd fct` is the complex transform with the factor
`fct` (`none` for 1), `inv` the value of `T(1) / T(size)` in `Ifft` (FFT.hpp:73; `none` if it is 1). -/
def olaPipelineComplex (fft : Bool → Option F → List (Cx F) → Out (List (Cx F))) (inv : Option F)
    (chunk filter : List (Cx F)) : Out (List (Cx F)) := do
  let filterFd ← fft true none filter
  let chunkFd ← fft true none chunk
  require (chunkFd.length = filterFd.length)
  fft false inv (List.zipWith (· * ·) chunkFd filterFd)

end Verif.PocketF
