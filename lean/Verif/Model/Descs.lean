import Verif.Cpp
import Mathlib.Data.EReal.Basic

/-!
# Model of the filter descriptions

include/dspbb/Filtering/FilterUtility.hpp, FIR/Descs.hpp, IIR/Descs.hpp.  The descriptions are modelled over any type of
parameters with comparisons (`FloatCmp`), in particular over `FloatVal`: extended reals and a NaN.
-/

namespace Verif

/-- the comparisons and constants the descriptions use -/
class FloatCmp (F : Type) where
  le : F → F → Bool
  zero : F
  one : F

/-- the values of a floating point type: not-a-number, or an extended real -/
inductive FloatVal where
  | nan
  | num (x : EReal)

/-- IEEE comparison: false if an operand is not a number -/
noncomputable def FloatVal.le : FloatVal → FloatVal → Bool
  | .num x, .num y => open Classical in decide (x ≤ y)
  | _, _ => false

noncomputable instance : FloatCmp FloatVal := ⟨FloatVal.le, .num 0, .num 1⟩

noncomputable instance : FloatCmp ℝ := ⟨fun x y => open Classical in decide (x ≤ y), 0, 1⟩

section
variable {F : Type} [FloatCmp F]
open FloatCmp

/-- FilterUtility.hpp:14-21 `ThrowIfNotNormalized` (the message is not modelled) -/
def throwIfNotNormalized (frequency : F) : Out Unit :=
  if !(le zero frequency && le frequency one) then .throws else .ok ()

/-- FilterUtility.hpp:25-36, the comparison chain: the current value and whether the chain was sorted so far -/
structure SortChain (F : Type) where
  current : F
  result : Bool

/-- FilterUtility.hpp:29-33 -/
def SortChain.lt (c : SortChain F) (rhs : F) : SortChain F := ⟨rhs, c.result && le c.current rhs⟩

/-- FilterUtility.hpp:23-45 `ThrowIfNotSorted`: a left fold over the arguments -/
def throwIfNotSorted (frequency : F) (frequencies : List F) : Out Unit :=
  if !(frequencies.foldl SortChain.lt ⟨frequency, true⟩).result then .throws else .ok ()

/-! ### FIR, window method: FIR/Descs.hpp:24-116 -/

/-- FIR/Descs.hpp:26-44 -/
structure SplitDescWindowed (F W : Type) where
  cutoff : F
  window : W

/-- FIR/Descs.hpp:31-35 -/
def SplitDescWindowed.setCutoff {W : Type} (d : SplitDescWindowed F W) (cutoffNew : F) : Out (SplitDescWindowed F W) := do
  throwIfNotNormalized cutoffNew
  pure ⟨cutoffNew, d.window⟩

/-- FIR/Descs.hpp:36-43 -/
def SplitDescWindowed.setWindow {W W' : Type} (d : SplitDescWindowed F W) (windowNew : W') : Out (SplitDescWindowed F W') :=
  pure ⟨d.cutoff, windowNew⟩

/-- FIR/Descs.hpp:53-74 -/
structure BandDescWindowed (F W : Type) where
  lower : F
  upper : F
  window : W

/-- FIR/Descs.hpp:59-65 -/
def BandDescWindowed.setBand {W : Type} (d : BandDescWindowed F W) (lowerNew upperNew : F) : Out (BandDescWindowed F W) := do
  throwIfNotNormalized lowerNew
  throwIfNotNormalized upperNew
  throwIfNotSorted lowerNew [upperNew]
  pure ⟨lowerNew, upperNew, d.window⟩

/-- FIR/Descs.hpp:66-73 -/
def BandDescWindowed.setWindow {W W' : Type} (d : BandDescWindowed F W) (windowNew : W') : Out (BandDescWindowed F W') :=
  pure ⟨d.lower, d.upper, windowNew⟩

/-! ### FIR, least squares: FIR/Descs.hpp:119-282 -/

/-- FIR/Descs.hpp:121-142 -/
structure SplitDescLS (F : Type) where
  cutoffBegin : F
  cutoffEnd : F
  weightLow : F
  weightTransition : F
  weightHigh : F
  grid : Nat

/-- FIR/Descs.hpp:130-135 -/
def SplitDescLS.setCutoff (d : SplitDescLS F) (cutoffBeginNew cutoffEndNew : F) : Out (SplitDescLS F) := do
  throwIfNotNormalized cutoffBeginNew
  throwIfNotNormalized cutoffEndNew
  throwIfNotSorted cutoffBeginNew [cutoffEndNew]
  pure ⟨cutoffBeginNew, cutoffEndNew, d.weightLow, d.weightTransition, d.weightHigh, d.grid⟩

/-- FIR/Descs.hpp:136-138 -/
def SplitDescLS.setWeight (d : SplitDescLS F) (newLow newTransition newHigh : F) : SplitDescLS F :=
  ⟨d.cutoffBegin, d.cutoffEnd, newLow, newTransition, newHigh, d.grid⟩

/-- FIR/Descs.hpp:139-141 -/
def SplitDescLS.setGrid (d : SplitDescLS F) (gridNew : Nat) : SplitDescLS F :=
  ⟨d.cutoffBegin, d.cutoffEnd, d.weightLow, d.weightTransition, d.weightHigh, gridNew⟩

/-- FIR/Descs.hpp:152-179 -/
structure BandDescLS (F : Type) where
  lowerBegin : F
  lowerEnd : F
  upperBegin : F
  upperEnd : F
  weightLow : F
  weightTransition1 : F
  weightMid : F
  weightTransition2 : F
  weightHigh : F
  grid : Nat

/-- FIR/Descs.hpp:165-172 -/
def BandDescLS.setBand (d : BandDescLS F) (lowerBeginNew lowerEndNew upperBeginNew upperEndNew : F) : Out (BandDescLS F) := do
  throwIfNotNormalized lowerBeginNew
  throwIfNotNormalized lowerEndNew
  throwIfNotNormalized upperBeginNew
  throwIfNotNormalized upperEndNew
  throwIfNotSorted lowerBeginNew [lowerEndNew, upperBeginNew, upperEndNew]
  pure ⟨lowerBeginNew, lowerEndNew, upperBeginNew, upperEndNew, d.weightLow, d.weightTransition1, d.weightMid, d.weightTransition2,
    d.weightHigh, d.grid⟩

/-- FIR/Descs.hpp:173-175 -/
def BandDescLS.setWeight (d : BandDescLS F) (low transition1 mid transition2 high : F) : BandDescLS F :=
  ⟨d.lowerBegin, d.lowerEnd, d.upperBegin, d.upperEnd, low, transition1, mid, transition2, high, d.grid⟩

/-- FIR/Descs.hpp:176-178 -/
def BandDescLS.setGrid (d : BandDescLS F) (gridNew : Nat) : BandDescLS F :=
  ⟨d.lowerBegin, d.lowerEnd, d.upperBegin, d.upperEnd, d.weightLow, d.weightTransition1, d.weightMid, d.weightTransition2,
    d.weightHigh, gridNew⟩

/-- FIR/Descs.hpp:190-205 -/
structure HilbertDescLS (F : Type) where
  transitionWidth : F
  transitionWeight : F
  grid : Nat

/-! ### IIR: IIR/Descs.hpp.  `R` is the type of the ripple parameters: none for Butterworth, one for Chebyshev, two for elliptic. -/

/-- IIR/Descs.hpp:16-25, 58-70, 146-158, 233-249 -/
structure SplitDescIir (F R : Type) where
  cutoff : F
  ripple : R

/-- IIR/Descs.hpp:20-24, 63-66, 151-154, 239-242 -/
def SplitDescIir.setCutoff {R : Type} (d : SplitDescIir F R) (cutoffNew : F) : Out (SplitDescIir F R) := do
  throwIfNotNormalized cutoffNew
  pure ⟨cutoffNew, d.ripple⟩

/-- IIR/Descs.hpp:67-69, 155-157, 243-248 -/
def SplitDescIir.setRipple {R : Type} (d : SplitDescIir F R) (rippleNew : R) : SplitDescIir F R := ⟨d.cutoff, rippleNew⟩

/-- IIR/Descs.hpp:27-39, 72-87, 160-175, 251-270 -/
structure BandDescIir (F R : Type) where
  lower : F
  upper : F
  ripple : R

/-- IIR/Descs.hpp:32-38, 78-83, 166-171, 258-263 -/
def BandDescIir.setBand {R : Type} (d : BandDescIir F R) (lowerNew upperNew : F) : Out (BandDescIir F R) := do
  throwIfNotNormalized lowerNew
  throwIfNotNormalized upperNew
  throwIfNotSorted lowerNew [upperNew]
  pure ⟨lowerNew, upperNew, d.ripple⟩

/-- IIR/Descs.hpp:84-86, 172-174, 264-269 -/
def BandDescIir.setRipple {R : Type} (d : BandDescIir F R) (rippleNew : R) : BandDescIir F R := ⟨d.lower, d.upper, rippleNew⟩

end

/-! ### default values -/

/-- FIR/Descs.hpp:28 -/
noncomputable def defaultSplitWindowed {W : Type} (w : W) : SplitDescWindowed ℝ W := ⟨0.5, w⟩
/-- FIR/Descs.hpp:55-56 -/
noncomputable def defaultBandWindowed {W : Type} (w : W) : BandDescWindowed ℝ W := ⟨0.25, 0.75, w⟩
/-- FIR/Descs.hpp:123-128 -/
noncomputable def defaultSplitLS : SplitDescLS ℝ := ⟨0.45, 0.55, 1, 0, 1, 0⟩
/-- FIR/Descs.hpp:154-163 -/
noncomputable def defaultBandLS : BandDescLS ℝ := ⟨0.2, 0.3, 0.7, 0.8, 1, 0, 1, 0, 1, 0⟩
/-- FIR/Descs.hpp:192-194 -/
noncomputable def defaultHilbertLS : HilbertDescLS ℝ := ⟨1, 1, 0⟩
/-- IIR/Descs.hpp:18, 60 and the like -/
noncomputable def defaultSplitIir {R : Type} (ripple : R) : SplitDescIir ℝ R := ⟨0.5, ripple⟩
/-- IIR/Descs.hpp:29-30 and the like -/
noncomputable def defaultBandIir {R : Type} (ripple : R) : BandDescIir ℝ R := ⟨0.25, 0.75, ripple⟩

end Verif
