import Verif.Model.SpacesFloat
import Verif.Model.FirDesign
import Verif.Model.RoundedStatistics

/-!
# Model of the windowed low pass over floating point numbers  (include/dspbb/Filtering/FIR/Windowed.hpp)

The statements of `kernelWindowedLowpass` (Model/FirDesign.lean) over any type `F` with arithmetic.  Each statement of the loop is a
single operation or a function call, so nothing can be contracted.  The type of the cutoff is the type of the taps.
-/

namespace Verif

variable {F : Type} [Zero F] [Add F] [Sub F] [Mul F] [Div F] [FloatFun F]

/-- Windowed.hpp:13-29 `KernelWindowedLowpass` with a window function; `T(k)` is `FloatFun.ofSize k`, `pi` is `pi_v<T>`, `sin` is
`std::sin`. -/
def kernelWindowedLowpassF (pi : F) (sin : F → F) (e : Exec) (c : KernOf F) (mem : List F) (coefficients : Span) (cutoffNorm : F)
    (windowFunc : List F → Span → Out (List F)) : Out (List F) := do
  cassert (coefficients.size % 2 = 1)
  let offset : F := FloatFun.ofSize (coefficients.size / 2)
  let scale := cutoffNorm * pi
  let size := coefficients.size
  let mem ← windowFunc mem coefficients
  let mem ← forN (size / 2) (fun i mem => do
    let x := (FloatFun.ofSize i - offset) * scale
    let sinc := sin x / x
    let a ← rd mem ((coefficients.pos + i : Nat) : Int)
    let mem ← wr mem ((coefficients.pos + i : Nat) : Int) (a * sinc)
    let b ← rd mem ((coefficients.pos + (size - i - 1) : Nat) : Int)
    wr mem ((coefficients.pos + (size - i - 1) : Nat) : Int) (b * sinc)) mem
  let s ← sumIn c (coefficients.contents mem)
  compoundVS e.asserts e.vec e.W .mul mem coefficients (FloatFun.ofSize 1 / s)

/-- Windowed.hpp:32-54 `KernelWindowedLowpass` with a given window -/
def kernelWindowedLowpassGivenF (pi : F) (sin : F → F) (e : Exec) (c : KernOf F) (mem : List F) (coefficients : Span) (cutoffNorm : F)
    (window : Span) : Out (List F) := do
  cassert (coefficients.size % 2 = 1)
  cassert (coefficients.size = window.size)
  let offset : F := FloatFun.ofSize (coefficients.size / 2)
  let scale := cutoffNorm * pi
  let size := coefficients.size
  let mem ← forN (size / 2) (fun i mem => do
    let x := (FloatFun.ofSize i - offset) * scale
    let sinc := sin x / x
    let mem ← wr mem ((coefficients.pos + i : Nat) : Int) sinc
    wr mem ((coefficients.pos + (size - i - 1) : Nat) : Int) sinc) mem
  let mem ← (if size % 2 = 1 then wr mem ((coefficients.pos + size / 2 : Nat) : Int) (FloatFun.ofSize 1) else pure mem)
  let mem ← compoundVV e.asserts e.vec e.W .mul mem coefficients window
  let s ← sumIn c (coefficients.contents mem)
  compoundVS e.asserts e.vec e.W .mul mem coefficients (FloatFun.ofSize 1 / s)

/-- BandTransforms.hpp:25-32 `ComplementaryResponse`; `mone` is `T(-1)` -/
def complementaryResponseF (mone : F) (e : Exec) (mem : List F) (complementary filter : Span) : Out (List F) := do
  cassert (filter.size % 2 = 1)
  let mem ← arithVS e.asserts e.vec e.W .mul mem complementary filter mone
  let x ← rd mem ((complementary.pos + complementary.size / 2 : Nat) : Int)
  wr mem ((complementary.pos + complementary.size / 2 : Nat) : Int) (x + FloatFun.ofSize 1)

/-- FIR.hpp:26-30, the windowed high pass -/
def designWindowedHighpassF (pi mone : F) (sin : F → F) (e : Exec) (c : KernOf F) (mem : List F) (out : Span) (cutoff : F)
    (window : List F → Span → Out (List F)) : Out (List F) := do
  let mem ← kernelWindowedLowpassF pi sin e c mem out cutoff window
  complementaryResponseF mone e mem out out

/-- BandTransforms.hpp:34-47 `ShiftResponse`; `cos` is `std::cos` -/
def shiftResponseF (pi : F) (cos : F → F) (e : Exec) (mem : List F) (moved filter : Span) (normalizedFrequency : F) : Out (List F) := do
  cassert (moved.size = filter.size)
  let offset : F := FloatFun.ofSize (filter.size / 2)
  let scale := pi * normalizedFrequency
  let size := filter.size
  let mem ← forN (size / 2) (fun i mem => do
    let x := (FloatFun.ofSize i - offset) * scale
    let c := cos x
    let a ← rd mem ((filter.pos + i : Nat) : Int)
    let mem ← wr mem ((moved.pos + i : Nat) : Int) (c * a)
    let b ← rd mem ((filter.pos + (size - i - 1) : Nat) : Int)
    wr mem ((moved.pos + (size - i - 1) : Nat) : Int) (c * b)) mem
  compoundVS e.asserts e.vec e.W .mul mem moved (FloatFun.ofSize 2)

/-- FIR.hpp:33-39, the windowed band pass -/
def designWindowedBandpassF (pi : F) (sin cos : F → F) (e : Exec) (c : KernOf F) (mem : List F) (out : Span) (lower upper : F)
    (window : List F → Span → Out (List F)) : Out (List F) := do
  let bandWidth := upper - lower
  let bandCenter := (upper + lower) / FloatFun.ofSize 2
  let mem ← kernelWindowedLowpassF pi sin e c mem out (bandWidth / FloatFun.ofSize 2) window
  shiftResponseF pi cos e mem out out bandCenter

/-- FIR.hpp:42-46, the windowed band stop -/
def designWindowedBandstopF (pi mone : F) (sin cos : F → F) (e : Exec) (c : KernOf F) (mem : List F) (out : Span) (lower upper : F)
    (window : List F → Span → Out (List F)) : Out (List F) := do
  let mem ← designWindowedBandpassF pi sin cos e c mem out lower upper window
  complementaryResponseF mone e mem out out

end Verif
