import Verif.Cpp
import Verif.Spec.Dft
import Verif.Model.Numeric
import Verif.Model.Convolution

/-!
# Model of the FFT front end  (include/dspbb/Math/FFT.hpp)

The bundled third-party transforms (`pocketfft r2c, c2c, c2r`) are represented here by exact arithmetic
formulas; that their code computes these is C76 and C78 (Model/PocketFFT, Model/PocketBlue, Model/PocketReal).
Everything dspbb itself does around them is modelled as written.
-/

namespace Verif
open Complex

/-- pocketfft `c2c(FORWARD, factor 1)`. -/
noncomputable def c2cForward (x : List ℂ) : List ℂ := (List.range x.length).map fun (k : ℕ) => dftAt x (k : ℤ)

/-- pocketfft `c2c(BACKWARD, factor 1/n)`. -/
noncomputable def c2cBackward (X : List ℂ) : List ℂ :=
  (List.range X.length).map fun (j : ℕ) =>
    (1 / (X.length : ℂ)) * ∑ k ∈ Finset.range X.length, sig X k * rootOfUnity X.length ((j : ℤ) * k)

/-- pocketfft `r2c(FORWARD, factor 1)`: the non-redundant first `n/2+1` bins. -/
noncomputable def r2c (x : List ℝ) : List ℂ :=
  (List.range (x.length / 2 + 1)).map fun (k : ℕ) => dftAt (x.map ofReal) (k : ℤ)

/-- pocketfft `c2r(BACKWARD, factor 1/n)` for output length `n`: reads the first `n/2+1` bins, takes the
missing ones to be the conjugates and ignores the imaginary parts of the bins that must be real. -/
noncomputable def c2r (n : ℕ) (X : List ℂ) : List ℝ :=
  (List.range n).map fun (j : ℕ) =>
    (1 / (n : ℝ)) * ((sig X 0).re
      + 2 * ∑ k ∈ Finset.range ((n - 1) / 2), (sig X (k + 1) * rootOfUnity n ((j : ℤ) * (k + 1 : ℕ))).re
      + if n % 2 = 0 then (sig X (n / 2)).re * (-1) ^ j else 0)

/-- FFT.hpp:23-42 `impl::Fft(SpectrumView<complex<T>> out, SignalView<const T> in)`.
`r2c` returns at once if there is no input (pocketfft 3336). -/
noncomputable def fftReal (out : List ℂ) (x : List ℝ) : Out (List ℂ) := do
  let halfSize := x.length / 2 + 1
  let fullSize := x.length
  cassert (out.length = halfSize ∨ out.length = fullSize)
  let out ← (if x.length = 0 then pure out else storeV out 0 (r2c x))
  if out.length = fullSize ∧ fullSize > 2 then
    let first := 1
    let last := (fullSize + 1) / 2
    let dest := fullSize / 2 + 1
    let src ← loadV (last - first) out first
    let out ← storeV out dest src.reverse
    let mirror ← loadV (out.length - dest) out dest
    storeV out dest (mirror.map (starRingEnd ℂ))
  else pure out

/-- FFT.hpp:77-83 `Fft(in, FFT_FULL)` -/
noncomputable def fftFull (x : List ℝ) : Out (List ℂ) := fftReal (List.replicate x.length 0) x

/-- FFT.hpp:85-91 `Fft(in, FFT_HALF)` -/
noncomputable def fftHalf (x : List ℝ) : Out (List ℂ) :=
  fftReal (List.replicate (x.length / 2 + 1) 0) x

/-- FFT.hpp:44-52, 93-100 complex `Fft(in)` -/
noncomputable def fftComplex (x : List ℂ) : Out (List ℂ) := pure (c2cForward x)

/-- FFT.hpp:66-74, 119-125 complex `Ifft(in)` -/
noncomputable def ifftComplex (X : List ℂ) : Out (List ℂ) := pure (c2cBackward X)

/-- FFT.hpp:54-64 `impl::Ifft(SignalView<T> out, in)`; only the size of `out` matters. -/
noncomputable def ifftReal (outSize : ℕ) (X : List ℂ) : Out (List ℝ) := do
  cassert (X.length = outSize / 2 + 1 ∨ X.length = outSize)
  pure (c2r outSize X)

/-- FFT.hpp:102-109 `Ifft(in, FFT_HALF, even)` -/
noncomputable def ifftHalf (X : List ℂ) (even : Bool) : Out (List ℝ) :=
  ifftReal (if even then usub (X.length * 2) 2 else usub (X.length * 2) 1) X

/-- FFT.hpp:111-117 `Ifft(in, FFT_FULL)` -/
noncomputable def ifftFull (X : List ℂ) : Out (List ℝ) := ifftReal X.length X

/-- OverlapAdd.hpp:16-55, 158-160 for two real signals: half spectra. -/
noncomputable def olaPipelineReal (chunk filter : List ℝ) : Out (List ℝ) := do
  let filterFd ← fftHalf filter
  let chunkFd ← fftHalf chunk
  require (chunkFd.length = filterFd.length)
  ifftHalf (List.zipWith (· * ·) chunkFd filterFd) (decide (chunk.length % 2 = 0))

/-- OverlapAdd.hpp:16-55, 158-160 for two complex signals. -/
noncomputable def olaPipelineComplex (chunk filter : List ℂ) : Out (List ℂ) := do
  let filterFd ← fftComplex filter
  let chunkFd ← fftComplex chunk
  require (chunkFd.length = filterFd.length)
  ifftComplex (List.zipWith (· * ·) chunkFd filterFd)

/-- OverlapAdd.hpp:16-55, 158-160 for a real chunk and a complex filter: the chunk is transformed with
`FFT_FULL` (34-38 swaps the two flags). -/
noncomputable def olaPipelineMixed (chunk : List ℝ) (filter : List ℂ) : Out (List ℂ) := do
  let filterFd ← fftComplex filter
  let chunkFd ← fftFull chunk
  require (chunkFd.length = filterFd.length)
  ifftComplex (List.zipWith (· * ·) chunkFd filterFd)

/-! ### utilities -/

/-- FFT.hpp:183-185 `FourierBin2Frequency` -/
noncomputable def fourierBin2Frequency (binIdx numBins sampleRate : ℕ) : ℝ :=
  (binIdx : ℝ) / numBins * sampleRate

/-- FFT.hpp:187-189 `FourierFrequency2Bin` -/
noncomputable def fourierFrequency2Bin (frequency : ℝ) (numBins sampleRate : ℕ) : ℕ :=
  ⌊frequency / sampleRate * numBins + 0.5⌋₊

/-- FFT.hpp:191-209 `impl::BasicShift`: `std::rotate` (output is the input object itself) and
`std::rotate_copy` (otherwise) both produce the elements from `shift` on followed by the first `shift`. -/
def basicShift {α : Type u} (outSize : ℕ) (x : List α) (shift : ℕ) : Out (List α) := do
  cassert (outSize = x.length)
  if shift ≤ x.length then pure (x.drop shift ++ x.take shift) else .ub

/-- FFT.hpp:211-222 `FftShift` -/
def fftShift {α : Type u} (x : List α) : Out (List α) := basicShift x.length x ((1 + x.length) / 2)

/-- FFT.hpp:224-235 `IfftShift` -/
def ifftShift {α : Type u} (x : List α) : Out (List α) := basicShift x.length x (x.length / 2)

end Verif
