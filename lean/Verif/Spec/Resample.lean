import Verif.Spec.Convolution
import Mathlib.Algebra.Field.Basic
import Mathlib.Data.Rat.Floor

/-! # Specification of polyphase decomposition, zero stuffing and interpolation -/

namespace Verif
open Finset

/-- The taps of a filter whose index is `p` modulo `P`, in increasing order. -/
def tapsOfPhase {R : Type*} [Zero R] (h : List R) (P p : ℕ) : List R :=
  ((List.range h.length).filter (fun j => j % P = p)).map (sig h)

/-- `x` with `P - 1` zeros inserted after every sample. -/
def zeroStuffed {R : Type*} [Zero R] (x : List R) (P : ℕ) : List R :=
  (List.range (x.length * P)).map (fun i => if i % P = 0 then sig x (i / P) else 0)

/-- Sample `n` of the zero-stuffed signal filtered by `h`: `∑ i, x i * h (n - i P)`. -/
def upsampleAt {R : Type*} [Semiring R] (x h : List R) (P n : ℕ) : R :=
  ∑ i ∈ range x.length, sig x i * sigI h ((n : ℤ) - i * P)

/-- Linear interpolation of a sequence at a rational position. -/
def lerpAt {R : Type*} [Field R] (y : ℕ → R) (pos : ℚ) : R :=
  y ⌊pos⌋.toNat + (Int.fract pos : ℚ) * (y (⌊pos⌋.toNat + 1) - y ⌊pos⌋.toNat)

end Verif
