import Verif.Cpp
import Mathlib.Algebra.Order.Field.Basic
import Mathlib.Algebra.Order.Group.Unbundled.Abs

/-!
# Model of Filtering/MeasureFilter.hpp:57-435

The samples of the response are elements of an ordered field: numbers, without rounding and without NaN.  Iterators are positions; a
reverse iterator is a position in the reversed list.
-/

namespace Verif

variable {K : Type} [Field K] [LinearOrder K]

/-- MeasureFilter.hpp:71-74 `Band` -/
structure Band where
  first : Nat
  pass : Bool
deriving DecidableEq, Repr

/-- `std::find_if` from a position to the end -/
def findIf (x : List K) (first : Nat) (p : K → Bool) : Nat := first + (x.drop first).findIdx p

/-- state of the loop of `ExtractFilterBands` -/
structure ExtractState where
  bands : List Band
  it : Nat
  index : Nat

/-- MeasureFilter.hpp:91-106, one turn of the loop -/
def extractStep (x : List K) (threshold upperThreshold lowerThreshold : K) (s : ExtractState) : Out ExtractState := do
  let v ← rd x s.it
  let pass := decide (threshold < v)
  let bands := s.bands ++ [⟨s.index, pass⟩]
  let triggerThreshold := if pass then upperThreshold else lowerThreshold
  let concludeThreshold := if pass then lowerThreshold else upperThreshold
  let trigger := findIf x s.it (fun bin => decide (triggerThreshold < bin) != pass)
  let conclude := findIf x s.it (fun bin => decide (concludeThreshold < bin) != pass)
  pure ⟨bands, conclude, (conclude + trigger) / 2⟩

/-- MeasureFilter.hpp:83-110 `ExtractFilterBands`.  `do ... while`: the first turn is unconditional. -/
def extractFilterBands (x : List K) (threshold noise : K) : Out (List Band) := do
  let upperThreshold := threshold + noise
  let lowerThreshold := threshold - noise
  let s ← extractStep x threshold upperThreshold lowerThreshold ⟨[], 0, 0⟩
  let s ← whileN (x.length + 1) (fun s => decide (s.it ≠ x.length)) (extractStep x threshold upperThreshold lowerThreshold) s
  pure s.bands

/-- `std::max` with a comparison -/
def cmax (compare : K → K → Bool) (a b : K) : K := if compare a b then b else a

/-- `std::less` -/
def less (a b : K) : Bool := decide (a < b)
/-- `std::greater` -/
def greater (a b : K) : Bool := decide (b < a)

/-- MeasureFilter.hpp:165-182: one turn of the outer loop; the position returned, if any -/
def extremumAt (x : List K) (base kernelSize : Nat) (compare : K → K → Bool) : Out (Option Nat) := do
  let v ← rd x base
  let strideEnd := min kernelSize (x.length - base)
  let s ← forN strideEnd (fun strideIdx (s : K × Option (K × Nat)) => do
    let w ← rd x ((base + strideIdx : Nat) : Int)
    let extremeValue := cmax compare s.1 w
    pure (extremeValue, if strideIdx = kernelSize / 2 then some (w, base + strideIdx) else s.2)) (v, none)
  match s.2 with
  | some (c, pos) => pure (if s.1 = c ∧ strideEnd = kernelSize then some pos else none)
  | none => pure none

/-- MeasureFilter.hpp:161-185 `FindFirstExtremum` on the range from `first` to the end -/
def findFirstExtremum (x : List K) (first kernelSize : Nat) (compare : K → K → Bool) : Out Nat := do
  let r ← forN (x.length - first) (fun i (r : Option Nat) =>
    match r with
    | some p => pure (some p)
    | none => extremumAt x (first + i) kernelSize compare) none
  pure (r.getD x.length)

/-- MeasureFilter.hpp:69 -/
abbrev kernelSize : Nat := 5

/-- MeasureFilter.hpp:188-205 `FindBandEdgesRipple` -/
def findBandEdgesRipple (band : List K) (findLeft findRight passBand : Bool) : Out (Option K × Option K) := do
  let compare : K → K → Bool := if passBand then less else greater
  let left ← (if findLeft then do
      let e ← findFirstExtremum band 0 kernelSize compare
      pure (if e ≠ band.length then some (e : K) else none)
    else pure none)
  let right ← (if findRight then do
      let e ← findFirstExtremum band.reverse 0 kernelSize compare
      pure (if e ≠ band.length then some ((band.length - e : Nat) : K) else none)
    else pure none)
  pure (left, right)

/-- MeasureFilter.hpp:212-218 and 220-226: the loop over the extrema of one kind; position and largest difference -/
def rippleLoop (band : List K) (target : K) (compare : K → K → Bool) (maxDifference : K) : Out K := do
  let s ← whileN (band.length + 1) (fun (s : Nat × K) => decide (s.1 ≠ band.length)) (fun s => do
    let it ← findFirstExtremum band s.1 kernelSize compare
    if it ≠ band.length then do
      let v ← rd band it
      pure (it, max s.2 |target - v|)
    else pure (it, s.2)) (0, maxDifference)
  pure s.2

/-- MeasureFilter.hpp:207-229 `MeasureBandRipple` -/
def measureBandRipple (band : List K) (passBand : Bool) : Out (Option K) := do
  let target : K := if passBand then 1 else 0
  let d ← rippleLoop band target less (-1)
  let d ← rippleLoop band target greater d
  pure (if 0 < d then some d else none)

/-- Position of the first largest (or, with `greater`, smallest) sample: `std::max_element`, `std::min_element` -/
def extremeElement (compare : K → K → Bool) : List K → Nat
  | [] => 0
  | v :: xs => (xs.foldl (fun (s : Nat × K × Nat) w => if compare s.2.1 w then (s.1 + 1, w, s.1 + 1) else (s.1 + 1, s.2)) (0, v, 0)).2.2

/-- MeasureFilter.hpp:130-146 `FitBand`.  `loss` is `FitLoss` (MeasureFilter.hpp:112-128; modelled by `fitLoss` in `Model/FitLoss.lean`, which C80 puts in place of the parameter),
`bisect` is `Bisect`. -/
def fitBand (loss : List K → Bool → Bool → K → K → K) (bisect : (K → K) → K → K → Out K) (band : List K) (pass left : Bool) (threshold : K) : Out K :=
  let size := band.length
  let maxIndex := extremeElement (if pass then less else greater) band
  let pLower : K := 1 / 2
  let pUpper : K := 66 / 100 * (if left then (maxIndex : K) else ((size - maxIndex : Nat) : K))
  bisect (loss band (!left) (!pass) threshold) pLower pUpper

/-- MeasureFilter.hpp:148-159 `FindBandEdgesFit` -/
def findBandEdgesFit (loss : List K → Bool → Bool → K → K → K) (bisect : (K → K) → K → K → Out K) (band : List K)
    (findLeft findRight passBand : Bool) (threshold : K) : Out (Option K × Option K) := do
  let paramToIndex : K := 3 / 2
  let paramLeft ← (if findLeft then some <$> fitBand loss bisect band passBand true threshold else pure none)
  let paramRight ← (if findRight then some <$> fitBand loss bisect band passBand false threshold else pure none)
  pure (paramLeft.map fun p => min (band.length : K) (paramToIndex * p),
    paramRight.map fun p => max 0 ((band.length : K) - paramToIndex * p))

/-- MeasureFilter.hpp:231-241 `MinOptional` -/
def minOptional (lhs rhs : Option K) : Option K :=
  match lhs, rhs with
  | some a, some b => if a < b then some a else some b
  | some a, none => some a
  | none, r => r

/-- MeasureFilter.hpp:231-245 `MaxOptional` -/
def maxOptional (lhs rhs : Option K) : Option K :=
  match lhs, rhs with
  | some a, some b => if b ≤ a then some a else some b
  | some a, none => some a
  | none, r => r

/-- MeasureFilter.hpp:76-81 -/
structure BandParameters (K : Type) where
  lowerEdge : K
  upperEdge : K
  ripple : K

/-- MeasureFilter.hpp:251-271, one band; a view from a larger to a smaller position is undefined behaviour -/
def parametrizeBand (loss : List K → Bool → Bool → K → K → K) (bisect : (K → K) → K → K → Out K) (x : List K) (threshold : K)
    (band : Band) (bandLastIndex : Nat) (findLeft findRight : Bool) : Out (BandParameters K) := do
  let _ ← (if band.first ≤ bandLastIndex ∧ bandLastIndex ≤ x.length then (.ok () : Out Unit) else .ub)
  let samples := (x.drop band.first).take (bandLastIndex - band.first)
  let fit ← findBandEdgesFit loss bisect samples findLeft findRight band.pass threshold
  let ripple ← findBandEdgesRipple samples findLeft findRight band.pass
  let r ← measureBandRipple samples band.pass
  let edgeLeft := minOptional fit.1 ripple.1
  let edgeRight := maxOptional fit.2 ripple.2
  pure ⟨((band.first : K) + edgeLeft.getD 0) / (x.length : K), ((band.first : K) + edgeRight.getD (samples.length : K)) / (x.length : K),
    r.getD 0⟩

/-- MeasureFilter.hpp:247-274 `ParametrizeFilterBands` -/
def parametrizeFilterBands (loss : List K → Bool → Bool → K → K → K) (bisect : (K → K) → K → K → Out K) (x : List K) (threshold : K) :
    List Band → Bool → Out (List (BandParameters K))
  | [], _ => pure []
  | [b], findLeft => do
    let p ← parametrizeBand loss bisect x threshold b x.length findLeft false
    pure [p]
  | b :: c :: bands, findLeft => do
    let p ← parametrizeBand loss bisect x threshold b c.first findLeft true
    let ps ← parametrizeFilterBands loss bisect x threshold (c :: bands) true
    pure (p :: ps)

/-- MeasureFilter.hpp:276-288 `HasBands` -/
def hasBands (bands : List Band) (desired : List Bool) : Bool :=
  if desired.length ≠ bands.length then false
  else (List.range desired.length).all fun i => decide ((desired[i]?) = (bands[i]?).map (·.pass))

/-- MeasureFilter.hpp:19-63 -/
inductive FilterParameters (K : Type)
  | none
  | lowpass (passbandEdge stopbandEdge passbandRipple stopbandAtten : K)
  | highpass (stopbandEdge passbandEdge stopbandAtten passbandRipple : K)
  | bandpass (lowerStopbandEdge passbandLowerEdge passbandUpperEdge upperStopbandEdge lowerStopbandAtten passbandRipple
      upperStopbandAtten : K)
  | bandstop (lowerPassbandEdge stopbandLowerEdge stopbandUpperEdge upperPassbandEdge lowerPassbandRipple stopbandAtten
      upperPassbandRipple : K)

/-- `parameters[i]` -/
def param (p : List (BandParameters K)) (i : Nat) : Out (BandParameters K) := rd p i

/-- MeasureFilter.hpp:290-299 -/
def extractLowpass (bands : List Band) (p : List (BandParameters K)) : Out (Option (FilterParameters K)) :=
  if hasBands bands [true, false] then do
    let p0 ← param p 0
    let p1 ← param p 1
    pure (some (.lowpass p0.upperEdge p1.lowerEdge p0.ripple p1.ripple))
  else pure none

/-- MeasureFilter.hpp:301-310 -/
def extractHighpass (bands : List Band) (p : List (BandParameters K)) : Out (Option (FilterParameters K)) :=
  if hasBands bands [false, true] then do
    let p0 ← param p 0
    let p1 ← param p 1
    pure (some (.highpass p0.upperEdge p1.lowerEdge p0.ripple p1.ripple))
  else pure none

/-- MeasureFilter.hpp:312-324 -/
def extractBandpass (bands : List Band) (p : List (BandParameters K)) : Out (Option (FilterParameters K)) :=
  if hasBands bands [false, true, false] then do
    let p0 ← param p 0
    let p1 ← param p 1
    let p2 ← param p 2
    pure (some (.bandpass p0.upperEdge p1.lowerEdge p1.upperEdge p2.lowerEdge p0.ripple p1.ripple p2.ripple))
  else pure none

/-- MeasureFilter.hpp:326-338 -/
def extractBandstop (bands : List Band) (p : List (BandParameters K)) : Out (Option (FilterParameters K)) :=
  if hasBands bands [true, false, true] then do
    let p0 ← param p 0
    let p1 ← param p 1
    let p2 ← param p 2
    pure (some (.bandstop p0.upperEdge p1.lowerEdge p1.upperEdge p2.lowerEdge p0.ripple p1.ripple p2.ripple))
  else pure none

/-- MeasureFilter.hpp:340-355 `ExtractFilterParameters` -/
def extractFilterParameters (bands : List Band) (p : List (BandParameters K)) : Out (FilterParameters K) := do
  let a ← extractLowpass bands p
  match a with
  | some q => pure q
  | none =>
    let a ← extractHighpass bands p
    match a with
    | some q => pure q
    | none =>
      let a ← extractBandpass bands p
      match a with
      | some q => pure q
      | none =>
        let a ← extractBandstop bands p
        match a with
        | some q => pure q
        | none => pure .none

/-- MeasureFilter.hpp:361-362 and the like: threshold 0.5 (:68), noise 0.0005 (:84) -/
def measureBands (loss : List K → Bool → Bool → K → K → K) (bisect : (K → K) → K → K → Out K) (x : List K) :
    Out (List Band × List (BandParameters K)) := do
  let bands ← extractFilterBands x (1 / 2) (5 / 10000)
  let params ← parametrizeFilterBands loss bisect x (1 / 2) bands false
  pure (bands, params)

/-- MeasureFilter.hpp:364-367 and the like -/
def orThrow {α : Type} : Option α → Out α
  | some a => .ok a
  | none => .throws

/-- MeasureFilter.hpp:359-368 `MeasureLowpassFilter` (and 412-415) -/
def measureLowpassFilter (loss : List K → Bool → Bool → K → K → K) (bisect : (K → K) → K → K → Out K) (x : List K) :
    Out (FilterParameters K) := do
  let s ← measureBands loss bisect x
  let a ← extractLowpass s.1 s.2
  orThrow a

/-- MeasureFilter.hpp:370-379 `MeasureHighpassFilter` (and 417-420) -/
def measureHighpassFilter (loss : List K → Bool → Bool → K → K → K) (bisect : (K → K) → K → K → Out K) (x : List K) :
    Out (FilterParameters K) := do
  let s ← measureBands loss bisect x
  let a ← extractHighpass s.1 s.2
  orThrow a

/-- MeasureFilter.hpp:381-390 `MeasureBandpassFilter` (and 422-425) -/
def measureBandpassFilter (loss : List K → Bool → Bool → K → K → K) (bisect : (K → K) → K → K → Out K) (x : List K) :
    Out (FilterParameters K) := do
  let s ← measureBands loss bisect x
  let a ← extractBandpass s.1 s.2
  orThrow a

/-- MeasureFilter.hpp:392-401 `MeasureBandstopFilter` (and 427-430) -/
def measureBandstopFilter (loss : List K → Bool → Bool → K → K → K) (bisect : (K → K) → K → K → Out K) (x : List K) :
    Out (FilterParameters K) := do
  let s ← measureBands loss bisect x
  let a ← extractBandstop s.1 s.2
  orThrow a

/-- MeasureFilter.hpp:403-409 `MeasureFilter` (and 432-435) -/
def measureFilter (loss : List K → Bool → Bool → K → K → K) (bisect : (K → K) → K → K → Out K) (x : List K) :
    Out (FilterParameters K) := do
  let s ← measureBands loss bisect x
  extractFilterParameters s.1 s.2

end Verif
