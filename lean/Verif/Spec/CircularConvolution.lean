import Verif.Spec.Convolution
import Verif.Cpp

/-! # Specification of circular convolution -/

namespace Verif

/-- `cc` computes circular convolution of equally long, non-empty signals: it returns normally, and sample
`k` of the result is `∑ i, a i * b ((k - i) mod n)`. -/
def IsCircularConvolution {R : Type} [Semiring R] (cc : List R → List R → Out (List R)) : Prop :=
  ∀ a b : List R, a ≠ [] → a.length = b.length → ∃ c, cc a b = .ok c ∧ c.length = a.length ∧
    ∀ k, k < a.length → sig c k =
      ∑ i ∈ Finset.range a.length, sig a i * sig b ((k + a.length - i) % a.length)

end Verif
