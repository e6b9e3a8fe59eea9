import Verif.Model.PocketRealFloat
import Verif.Model.OverlapAddFloat
import Verif.Model.Convolution

/-!
# Model of the chunk pipeline of overlap-add for two real signals over floating point numbers
(include/dspbb/Math/OverlapAdd.hpp, include/dspbb/Math/FFT.hpp)

The chunk lengths are those for which pocketfft selects the plan `rfftp` with radices 2 to 5.
-/

namespace Verif.PocketF

variable {F : Type} [Zero F] [Add F] [Sub F] [Mul F] [Neg F]

/-- The data the real transforms of one length depend on: literal constants, the twiddle table and the contents of
uninitialised memory. -/
structure RFftEnv (F : Type) where
  lits : RLits F
  tw : ℕ → Cx F
  tmp : ℕ → F
  scratch : ℕ → F

/-- FFT.hpp:24-33, 85-91 `Fft(in, FFT_HALF)` into a new, zero-initialised spectrum.  (The mirroring of 35-42 does not happen:
the output has the full size only for two samples or fewer.) -/
def RFftEnv.fftHalf (E : RFftEnv F) (x : List F) : Out (List (Cx F)) :=
  r2cExec E.lits E.tw none x (Pocket.fresh E.tmp x.length) (Pocket.fresh E.scratch x.length)
    (List.replicate (x.length / 2 + 1) 0)

/-- FFT.hpp:55-64, 102-109 `Ifft(in, FFT_HALF, even)`; `inv` is `T(1.0 / double(size))`, `none` if it is 1. -/
def RFftEnv.ifftHalf (E : RFftEnv F) (inv : Option F) (X : List (Cx F)) (even : Bool) : Out (List F) := do
  let n := if even then usub (X.length * 2) 2 else usub (X.length * 2) 1
  cassert (X.length = n / 2 + 1 ∨ X.length = n)
  c2rExec E.lits E.tw inv X (Pocket.fresh E.tmp n) (Pocket.fresh E.scratch n) (List.replicate n 0)

/-- OverlapAdd.hpp:16-19, 34-38, 40-43, 144, 158-160 for two real signals: half spectra, multiplied bin by bin. -/
def olaPipelineReal (E : RFftEnv F) (inv : Option F) (chunk filter : List F) : Out (List F) := do
  let filterFd ← E.fftHalf filter
  let chunkFd ← E.fftHalf chunk
  require (chunkFd.length = filterFd.length)
  E.ifftHalf inv (List.zipWith (· * ·) chunkFd filterFd) (decide (chunk.length % 2 = 0))

end Verif.PocketF
