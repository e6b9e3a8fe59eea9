import Verif.Model.FirDesign
import Mathlib.Analysis.SpecialFunctions.Arcosh

/-!
# Model of the Dolph-Chebyshev window

include/dspbb/Filtering/Windowing.hpp:159-207, for real element types (the version for complex ones, 198-207, computes the real
window and copies it).
-/

namespace Verif
open Complex

/-- Windowing.hpp:160-172 `impl::ChebyshevPoly` -/
noncomputable def chebyshevPoly (n : ℕ) (x : ℝ) : ℝ :=
  let sign : ℝ := if n % 2 = 0 then 1 else -1
  open Classical in
  if x < -1 then sign * Real.cosh (n * Real.arcosh (-x))
  else if x ≤ 1 then Real.cos (n * Real.arccos x)
  else Real.cosh (n * Real.arcosh x)

/-- `std::acosh`: not a number below one -/
noncomputable def facosh (x : ℝ) : Out ℝ := open Classical in if 1 ≤ x then .ok (Real.arcosh x) else .ub

/-- Windowing.hpp:174-196 `DolphChebyshevWindow` -/
noncomputable def dolphChebyshevWindow (e : Exec) (c : Kern) (mem : List ℝ) (out : Span) (attenuation : ℝ) : Out (List ℝ) := do
  let M := usub out.size 1
  let q ← fdiv 1 (M : ℝ)
  let a ← fdiv 1 attenuation
  let h ← facosh a
  let beta := Real.cosh (q * h)
  let spectrumSize := out.size / 2 + 1
  let r ← fdiv ((spectrumSize - 1 : ℕ) : ℝ) (out.size : ℝ)
  let grid ← linSpaceNew e 0 (Real.pi * r) spectrumSize true
  let spectrum : List ℂ := grid.map fun (k : ℝ) =>
    let phase := exp (I * (k : ℂ) * ((M % 2 : ℕ) : ℂ))
    let amplitude := chebyshevPoly M (beta * Real.cos k)
    phase * (amplitude : ℂ)
  let x ← ifftReal out.size spectrum
  let mem ← storeV mem out.pos x
  let y ← fftShift (out.contents mem)
  let mem ← storeV mem out.pos y
  let normalization ← transformReduce c.vec c.W c.red₁ c.red₂ (fun v => |v|) (out.contents mem) 0 (out.contents mem).length 0
    (plainOp (fun a b => max a b))
  let s ← fdiv 1 normalization
  compoundVS e.asserts e.vec e.W .mul mem out s

end Verif
