import Verif.Spec.Convolution

/-! # Specification of causal FIR filtering with history -/

namespace Verif

/-- Output of an FIR filter `h` for the input `x` when the preceding `h.length - 1` input samples were
`history` (oldest first): `y i = ∑ j, h j * z (i - j)`, where `z` is `history` followed by `x` with `x` starting
at time zero. -/
def firOutput {R : Type*} [Semiring R] (h history x : List R) : List R :=
  (List.range x.length).map fun i =>
    ∑ j ∈ Finset.range h.length, sig h j * sig (history ++ x) (h.length - 1 + i - j)

/-- The last `n` elements of a list. -/
def lastN {α : Type*} (n : ℕ) (l : List α) : List α := l.drop (l.length - n)

end Verif
