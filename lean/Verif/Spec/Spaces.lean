import Verif.Model.Signal

/-!
# Specification vocabulary of the generators
-/

namespace Verif

/-- Between `mem` and `mem'` exactly the elements of `out` were overwritten, with the values `g 0, g 1, …` -/
structure Writes {K : Type} (mem mem' : List K) (out : Span) (g : Nat → K) : Prop where
  length : mem'.length = mem.length
  written : ∀ i, i < out.size → mem'[out.pos + i]? = some (g i)
  rest : ∀ j, j < out.pos ∨ out.pos + out.size ≤ j → mem'[j]? = mem[j]?

/-- `out` is inside the memory. -/
def Span.Within {K : Type} (out : Span) (mem : List K) : Prop := out.pos + out.size ≤ mem.length

end Verif
