import Verif.Spec.Convolution
import Verif.Model.Measure

/-!
# Specification of band extraction and of local extrema

Only the record `Band` (start, pass flag) of the model is used here.
-/

namespace Verif

variable {K : Type} [Field K] [LinearOrder K]

/-- A Schmitt trigger reading `x` from left to right.  It is in one state per band; `s k` is the sample at which state `k` is entered.
A pass state is left at the first sample at or below `threshold - noise`, a stop state at the first one above `threshold + noise`.
The *start* reported for the next band is half-way (rounded down) between that sample and the first sample of the state that is not
clearly on the state's own side. -/
structure Segmentation (x : List K) (threshold noise : K) (bands : List Band) (s : ℕ → ℕ) : Prop where
  nonempty : bands ≠ []
  enterFirst : s 0 = 0
  enterLast : s bands.length = x.length
  advance : ∀ k, k < bands.length → s k < s (k + 1)
  flag : ∀ k b, bands[k]? = some b → (b.pass = true ↔ threshold < sig x (s k))
  stayPass : ∀ k b, bands[k]? = some b → b.pass = true → ∀ i, s k ≤ i → i < s (k + 1) → threshold - noise < sig x i
  stayStop : ∀ k b, bands[k]? = some b → b.pass = false → ∀ i, s k ≤ i → i < s (k + 1) → sig x i ≤ threshold + noise
  leavePass : ∀ k b, bands[k]? = some b → k + 1 < bands.length → b.pass = true → sig x (s (k + 1)) ≤ threshold - noise
  leaveStop : ∀ k b, bands[k]? = some b → k + 1 < bands.length → b.pass = false → threshold + noise < sig x (s (k + 1))
  startFirst : ∀ b, bands[0]? = some b → b.first = 0
  start : ∀ k b c, bands[k]? = some b → bands[k + 1]? = some c → ∃ t, s k ≤ t ∧ t ≤ s (k + 1) ∧
    c.first = (s (k + 1) + t) / 2 ∧
    (b.pass = true → sig x t ≤ threshold + noise ∧ ∀ i, s k ≤ i → i < t → threshold + noise < sig x i) ∧
    (b.pass = false → threshold - noise < sig x t ∧ ∀ i, s k ≤ i → i < t → sig x i ≤ threshold - noise)

/-- `c` is the centre of a five sample window inside `x` in which no sample is larger than the centre -/
def LocalMax (x : List K) (c : ℕ) : Prop :=
  2 ≤ c ∧ c + 2 < x.length ∧ ∀ j, c ≤ j + 2 → j ≤ c + 2 → sig x j ≤ sig x c

/-- `c` is the centre of a five sample window inside `x` in which no sample is smaller than the centre -/
def LocalMin (x : List K) (c : ℕ) : Prop :=
  2 ≤ c ∧ c + 2 < x.length ∧ ∀ j, c ≤ j + 2 → j ≤ c + 2 → sig x c ≤ sig x j

/-- `p` is the first position from `first + 2` on at which `P` holds, or the end -/
def FirstFrom (P : ℕ → Prop) (first n p : ℕ) : Prop :=
  (p < n → first + 2 ≤ p ∧ P p) ∧ p ≤ n ∧ ∀ c, first + 2 ≤ c → c < p → ¬ P c

/-- `r` is the ripple of a piece of response that should be constant `target`: the largest deviation from `target` at its local extrema,
0 if it has none -/
def IsRipple (y : List K) (target r : K) : Prop :=
  0 ≤ r ∧ (r = 0 ∨ ∃ c, (LocalMax y c ∨ LocalMin y c) ∧ r = |target - sig y c|) ∧
    ∀ c, LocalMax y c ∨ LocalMin y c → |target - sig y c| ≤ r

/-- the samples from `first` up to but not including `last` -/
def slice (x : List K) (first last : ℕ) : List K := (x.drop first).take (last - first)

/-- the flag pattern of a list of bands -/
def pattern (bands : List Band) : List Bool := bands.map Band.pass

end Verif
