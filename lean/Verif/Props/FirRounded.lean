import Verif.Props.RoundedConvolution
import Verif.Props.FirFilter

/-!
# C88: FIR filtering and polyphase interpolation in floating point

`A : FloatArith F` says that `F` is a floating point type (Verif/Spec/FloatArith.lean).  `firOutput` is the exact filter
(Verif/Spec/FirFilter.lean), applied to the exact values of the samples or to their magnitudes.
-/

set_option linter.unusedSimpArgs false
set_option linter.unusedSectionVars false

namespace Verif
open Finset

section
variable {F : Type} [Zero F] [Add F] [Sub F] [Mul F] [Fma F] (A : FloatArith F)

/-- What the filter makes of the magnitudes: the yardstick for rounding errors. -/
noncomputable def firMagnitude (h history x : List F) (j : ℕ) : ℝ :=
  sig (firOutput (h.map fun a => |A.val a|) (history.map fun a => |A.val a|) (x.map fun a => |A.val a|)) j

/-- The exact output sample. -/
noncomputable def firExact (h history x : List F) (j : ℕ) : ℝ :=
  sig (firOutput (h.map A.val) (history.map A.val) (x.map A.val)) j

private theorem shift_state (state signal : List F) :
    shiftFilterState state signal = lastN state.length (state ++ signal) := by
  unfold shiftFilterState lastN
  simp only
  by_cases h : signal.length < state.length
  · rw [if_pos h, min_eq_left h.le]
    have e1 : state.length - signal.length = (state.drop signal.length).length := by simp
    rw [e1, List.take_left]
    simp only [List.length_append, Nat.sub_self, List.drop_zero]
    rw [show state.length + signal.length - state.length = signal.length by omega,
      List.drop_append_of_le_length h.le]
  · rw [if_neg h, min_eq_right (by omega)]
    simp only [Nat.sub_self, List.take_zero, List.nil_append, List.length_append]
    rw [show state.length + signal.length - state.length = signal.length by omega]
    have : signal.length = state.length + (signal.length - state.length) := by omega
    conv_rhs => rw [this]
    rw [List.drop_append]
    simp

private theorem sig_app (a b : List F) (i : ℕ) :
    sig (a ++ b) i = if i < a.length then sig a i else sig b (i - a.length) := by
  unfold sig
  simp only [List.getD_eq_getElem?_getD, List.getElem?_append]
  split <;> rfl

private theorem conv_abs_le (u v : List F) (n : ℕ) :
    |convAt (u.map A.val) (v.map A.val) n| ≤ convAt (u.map fun a => |A.val a|) (v.map fun a => |A.val a|) n := by
  unfold convAt
  refine (abs_sum_le_sum_abs _ _).trans (sum_le_sum fun i _ => ?_)
  have hs : ∀ (l : List F) (k : ℕ), |sig (l.map A.val) k| = sig (l.map fun a => |A.val a|) k := by
    intro l k
    unfold sig
    simp only [List.getD_eq_getElem?_getD, List.getElem?_map]
    cases l[k]? <;> simp
  rw [abs_mul, hs, hs]

private theorem conv_mag_nonneg (u v : List F) (n : ℕ) :
    0 ≤ convAt (u.map fun a => |A.val a|) (v.map fun a => |A.val a|) n :=
  (abs_nonneg _).trans (conv_abs_le A u v n)

/-- **C88** one call of the stateful FIR filter: the state holds the samples themselves, and every output sample is off by at most a fixed
multiple of the unit roundoff, whatever the length of the filter. -/
theorem C88_feed (vec : Bool) (W : ℕ) (hW : 0 < W) (junk : List F) (hj : junk.length = if vec then W else 1)
    (out signal filter state : List F) (hf : filter ≠ []) (hs : state.length = filter.length - 1) (ho : out.length = signal.length)
    (hu : A.u ≤ 1 / 1000) (hlen : filter.length * A.u ≤ 2 / 5)
    (hff : ∀ a ∈ filter, A.finite a) (hfs : ∀ a ∈ state, A.finite a) (hfx : ∀ a ∈ signal, A.finite a)
    (hh : ∀ j, j < signal.length → 11 * (firMagnitude A filter state signal j + 3 * (filter.length * A.tiny)) ≤ A.huge) :
    ∃ y, firFeedConv vec W junk out signal filter state = .ok (y, lastN (filter.length - 1) (state ++ signal)) ∧
      y.length = signal.length ∧ ∀ j, j < signal.length → A.finite (sig y j) ∧
        |A.val (sig y j) - firExact A filter state signal j| ≤
          72 * A.u * firMagnitude A filter state signal j + 5 * (filter.length * A.tiny) := by
  have hu0 := A.u_nonneg
  have ht0 := A.tiny_nonneg
  have hl : 0 < filter.length := List.length_pos_iff.2 hf
  have hus : usub filter.length 1 = filter.length - 1 := by rw [usub, if_pos (by omega)]
  obtain ⟨n, hn⟩ : ∃ n, n = signal.length := ⟨_, rfl⟩
  obtain ⟨m, hm⟩ : ∃ m, m = min out.length state.length := ⟨_, rfl⟩
  -- exact parts
  have hE : ∀ j, j < signal.length → firExact A filter state signal j =
      convAt (state.map A.val) (filter.map A.val) (filter.length - 1 + j) + convAt (signal.map A.val) (filter.map A.val) j := by
    intro j hj
    unfold firExact
    rw [firOutput_sig _ _ _ (by simpa using hs) (by simpa using hf) j (by simpa using hj)]
    simp
  have hM : ∀ j, j < signal.length → firMagnitude A filter state signal j =
      convAt (state.map fun a => |A.val a|) (filter.map fun a => |A.val a|) (filter.length - 1 + j) +
        convAt (signal.map fun a => |A.val a|) (filter.map fun a => |A.val a|) j := by
    intro j hj
    unfold firMagnitude
    rw [firOutput_sig _ _ _ (by simpa using hs) (by simpa using hf) j (by simpa using hj)]
    simp
  have htiny : ∀ a b : ℕ, ((min a filter.length : ℕ) : ℝ) * A.tiny ≤ filter.length * A.tiny := by
    intro a _
    exact mul_le_mul_of_nonneg_right (by exact_mod_cast min_le_right _ _) ht0
  have hmin : ∀ a : ℕ, ((min a filter.length : ℕ) : ℝ) * A.u ≤ 2 / 5 := by
    intro a
    refine le_trans (mul_le_mul_of_nonneg_right ?_ hu0) hlen
    exact_mod_cast min_le_right _ _
  have hzero : ∀ (c k : ℕ), sig ((out.map fun _ => (0 : F)).take c) k = 0 := by
    intro c k
    unfold sig
    rw [List.getD_eq_getElem?_getD, List.getElem?_take]
    split
    · rw [List.getElem?_map]; cases out[k]? <;> rfl
    · rfl
  -- the part of the history
  obtain ⟨hd, e1, l1, b1⟩ := C74_convolution A vec W hW junk hj state filter ((out.map fun _ => (0 : F)).take m) (filter.length - 1) false
    (by
      simp only [List.length_take, List.length_map]
      unfold convLengthFull
      split <;> omega) hu (hmin _) hfs hff
    (by
      intro _ a ha
      have := List.mem_of_mem_take ha
      rw [List.mem_map] at this
      obtain ⟨_, _, rfl⟩ := this
      exact A.zero_finite)
    (by
      intro j hj'
      simp only [List.length_take, List.length_map] at hj'
      simp only [prevVal, Bool.false_eq_true, if_false, hzero, A.val_zero, abs_zero, zero_add]
      have h1 := hh j (by omega)
      rw [hM j (by omega)] at h1
      have h2 := conv_mag_nonneg A signal filter j
      have h3 := conv_mag_nonneg A state filter (filter.length - 1 + j)
      have h4 := htiny state.length 0
      have h5 : 0 ≤ (filter.length : ℝ) * A.tiny := by positivity
      linarith)
  have l1' : hd.length = m := by rw [l1]; simp; omega
  -- what is in the output afterwards
  obtain ⟨o2, ho2⟩ : ∃ o2, o2 = hd ++ (out.map fun _ => (0 : F)).drop m := ⟨_, rfl⟩
  have ho2l : o2.length = signal.length := by rw [ho2]; simp [l1']; omega
  have hprev : ∀ j, j < signal.length → A.finite (sig o2 j) ∧
      |A.val (sig o2 j) - convAt (state.map A.val) (filter.map A.val) (filter.length - 1 + j)| ≤
        35 * A.u * convAt (state.map fun a => |A.val a|) (filter.map fun a => |A.val a|) (filter.length - 1 + j) +
          2 * (filter.length * A.tiny) := by
    intro j hj'
    have h5 : 0 ≤ (filter.length : ℝ) * A.tiny := by positivity
    rw [ho2, sig_app]
    by_cases hjm : j < m
    · rw [if_pos (by omega)]
      obtain ⟨f, b⟩ := b1 j (by simp; omega)
      simp only [prevVal, Bool.false_eq_true, if_false, hzero, A.val_zero, abs_zero, zero_add] at b
      refine ⟨f, b.trans ?_⟩
      have h4 := htiny state.length 0
      linarith
    · rw [if_neg (by omega)]
      have hz : sig ((out.map fun _ => (0 : F)).drop m) (j - hd.length) = 0 := by
        unfold sig
        rw [List.getD_eq_getElem?_getD, List.getElem?_drop, List.getElem?_map]
        cases out[m + (j - hd.length)]? <;> rfl
      rw [hz]
      refine ⟨A.zero_finite, ?_⟩
      have hb : convAt (state.map A.val) (filter.map A.val) (filter.length - 1 + j) = 0 := by
        apply convAt_beyond
        simp only [List.length_map]
        unfold convLengthFull
        split <;> omega
      rw [hb, A.val_zero, sub_zero, abs_zero]
      have h3 := conv_mag_nonneg A state filter (filter.length - 1 + j)
      positivity
  have small : 35 * A.u ≤ 35 / 1000 := by linarith
  obtain ⟨y, e2, l2, b2⟩ := C74_convolution A vec W hW junk hj signal filter o2 0 false
    (by
      rw [ho2l]
      unfold convLengthFull
      split <;> omega) hu (hmin _) hfx hff
    (by
      intro _ a ha
      obtain ⟨k, hk, rfl⟩ := List.getElem_of_mem ha
      have := (hprev k (by omega)).1
      unfold sig at this
      rwa [List.getD_eq_getElem?_getD, List.getElem?_eq_getElem hk] at this)
    (by
      intro j hj'
      rw [ho2l] at hj'
      simp only [prevVal, Bool.false_eq_true, if_false, zero_add]
      have h1 := hh j hj'
      rw [hM j hj'] at h1
      have h2 := conv_mag_nonneg A signal filter j
      have h3 := conv_mag_nonneg A state filter (filter.length - 1 + j)
      have h4 := htiny signal.length 0
      have h5 : 0 ≤ (filter.length : ℝ) * A.tiny := by positivity
      have h6 := (hprev j hj').2
      have h7 := conv_abs_le A state filter (filter.length - 1 + j)
      have h8 := mul_le_mul_of_nonneg_right small h3
      have h9 := abs_sub_abs_le_abs_sub (A.val (sig o2 j)) (convAt (state.map A.val) (filter.map A.val) (filter.length - 1 + j))
      linarith)
  refine ⟨y, ?_, by rw [l2, ho2l], fun j hj' => ?_⟩
  · unfold firFeedConv firFeed
    rw [hus, cassert_true hs, Out.ok_bind, cassert_true ho, Out.ok_bind]
    simp only [List.length_map]
    rw [← hm, e1, Out.ok_bind, ← ho2, e2, Out.ok_bind, shift_state, hs, Out.pure_def]
  · obtain ⟨f, b⟩ := b2 j (by omega)
    refine ⟨f, ?_⟩
    simp only [prevVal, Bool.false_eq_true, if_false, zero_add] at b
    rw [hE j hj', hM j hj']
    have h2 := conv_mag_nonneg A signal filter j
    have h3 := conv_mag_nonneg A state filter (filter.length - 1 + j)
    have h4 := htiny signal.length 0
    have h5 : 0 ≤ (filter.length : ℝ) * A.tiny := by positivity
    have h6 := (hprev j hj').2
    have h7 := conv_abs_le A state filter (filter.length - 1 + j)
    have h9 := abs_sub_abs_le_abs_sub (A.val (sig o2 j)) (convAt (state.map A.val) (filter.map A.val) (filter.length - 1 + j))
    have tri := abs_sub_le (A.val (sig y j)) (A.val (sig o2 j) + convAt (signal.map A.val) (filter.map A.val) j)
      (convAt (state.map A.val) (filter.map A.val) (filter.length - 1 + j) + convAt (signal.map A.val) (filter.map A.val) j)
    rw [add_sub_add_right_eq_sub] at tri
    generalize convAt (signal.map fun a => |A.val a|) (filter.map fun a => |A.val a|) j = C2 at *
    generalize convAt (state.map fun a => |A.val a|) (filter.map fun a => |A.val a|) (filter.length - 1 + j) = C1 at *
    generalize (filter.length : ℝ) * A.tiny = T at *
    have hp : |A.val (sig o2 j)| ≤ C1 + 35 * A.u * C1 + 2 * T := by linarith
    have hq := mul_le_mul_of_nonneg_left hp (show 0 ≤ 35 * A.u by linarith)
    have k1 : 35 * A.u * (35 * A.u * C1) ≤ 35 / 1000 * (35 * A.u * C1) :=
      mul_le_mul_of_nonneg_right small (by positivity)
    have k2 : 35 * A.u * (2 * T) ≤ 35 / 1000 * (2 * T) := mul_le_mul_of_nonneg_right small (by positivity)
    have k3 : 0 ≤ A.u * C2 := by positivity
    have k4 : 0 ≤ A.u * C1 := by positivity
    linarith

private theorem map_lastN (f : F → ℝ) (n : ℕ) (l : List F) : (lastN n l).map f = lastN n (l.map f) := by
  unfold lastN
  simp [List.map_drop]

private theorem sig_appR (a b : List ℝ) (i : ℕ) :
    sig (a ++ b) i = if i < a.length then sig a i else sig b (i - a.length) := sig_append a b i

/-- **C88** streaming: however the signal is cut into blocks, and however long it is, every output sample is off by at most the same fixed
multiple of the unit roundoff: errors do not build up. -/
theorem C88_stream (vec : Bool) (W : ℕ) (hW : 0 < W) (junk : List F) (hj : junk.length = if vec then W else 1)
    (filter : List F) (hf : filter ≠ []) (hu : A.u ≤ 1 / 1000) (hlen : filter.length * A.u ≤ 2 / 5)
    (hff : ∀ a ∈ filter, A.finite a) : ∀ (blocks : List (List F)) (state : List F), state.length = filter.length - 1 →
    (∀ a ∈ state, A.finite a) → (∀ b ∈ blocks, ∀ a ∈ b, A.finite a) →
    (∀ j, j < blocks.flatten.length →
      11 * (firMagnitude A filter state blocks.flatten j + 3 * (filter.length * A.tiny)) ≤ A.huge) →
    ∃ y, firStream (fun out x s => firFeedConv vec W junk out x filter s) blocks state =
        .ok (y, lastN (filter.length - 1) (state ++ blocks.flatten)) ∧
      y.length = blocks.flatten.length ∧ ∀ j, j < blocks.flatten.length → A.finite (sig y j) ∧
        |A.val (sig y j) - firExact A filter state blocks.flatten j| ≤
          72 * A.u * firMagnitude A filter state blocks.flatten j + 5 * (filter.length * A.tiny)
  | [], state, hs, _, _, _ => by
    refine ⟨[], ?_, rfl, fun j hj => by simp at hj⟩
    simp [firStream, lastN, hs]
  | b :: bs, state, hs, hfs, hfx, hh => by
    have hsl : (lastN (filter.length - 1) (state ++ b)).length = filter.length - 1 := by
      simp [lastN]; omega
    -- the exact outputs of the concatenation
    have split : ∀ (f : F → ℝ) (j : ℕ), sig (firOutput (filter.map f) (state.map f) ((b :: bs).flatten.map f)) j =
        if j < b.length then sig (firOutput (filter.map f) (state.map f) (b.map f)) j
        else sig (firOutput (filter.map f) ((lastN (filter.length - 1) (state ++ b)).map f) (bs.flatten.map f)) (j - b.length) := by
      intro f j
      rw [List.flatten_cons, List.map_append, firOutput_append _ _ _ _ (by simpa using hs), sig_append]
      have hl : (firOutput (filter.map f) (state.map f) (b.map f)).length = b.length := by simp [firOutput]
      rw [hl, List.length_map, map_lastN, List.map_append]
    have hM : ∀ j, firMagnitude A filter state (b :: bs).flatten j = if j < b.length then firMagnitude A filter state b j
        else firMagnitude A filter (lastN (filter.length - 1) (state ++ b)) bs.flatten (j - b.length) :=
      fun j => split (fun a => |A.val a|) j
    have hE : ∀ j, firExact A filter state (b :: bs).flatten j = if j < b.length then firExact A filter state b j
        else firExact A filter (lastN (filter.length - 1) (state ++ b)) bs.flatten (j - b.length) :=
      fun j => split A.val j
    obtain ⟨y1, e1, l1, b1⟩ := C88_feed A vec W hW junk hj (List.replicate b.length 0) b filter state hf hs (by simp) hu hlen hff hfs
      (hfx b (by simp)) (fun j hjb => by
        have := hh j (by simp; omega)
        rwa [hM j, if_pos hjb] at this)
    obtain ⟨y2, e2, l2, b2⟩ := C88_stream vec W hW junk hj filter hf hu hlen hff bs (lastN (filter.length - 1) (state ++ b)) hsl
      (fun a ha => by
        have := List.mem_of_mem_drop ha
        rcases List.mem_append.1 this with h | h
        · exact hfs a h
        · exact hfx b (by simp) a h)
      (fun c hc => hfx c (by simp [hc])) (fun j hjb => by
        have := hh (b.length + j) (by simp only [List.flatten_cons, List.length_append]; omega)
        rwa [hM, if_neg (by omega), Nat.add_sub_cancel_left] at this)
    refine ⟨y1 ++ y2, ?_, by simp [l1, l2], fun j hjl => ?_⟩
    · unfold firStream
      rw [e1]
      simp only [Out.ok_bind]
      rw [e2]
      simp only [Out.ok_bind, Out.pure_def]
      congr 2
      have : filter.length - 1 ≤ (state ++ b).length := by simp; omega
      unfold lastN
      simp only [List.length_append, List.length_drop, List.flatten_cons]
      rw [← List.drop_append_of_le_length (by simp), List.drop_drop, List.append_assoc]
      congr 1
      omega
    · rw [sig_app, l1, hM, hE]
      by_cases hjb : j < b.length
      · rw [if_pos hjb, if_pos hjb, if_pos hjb]
        exact b1 j hjb
      · rw [if_neg hjb, if_neg hjb, if_neg hjb]
        refine b2 (j - b.length) ?_
        simp only [List.flatten_cons, List.length_append] at hjl
        omega

/-- **C88** so two ways to cut the same signal into blocks leave the same state, and their outputs differ by no more than rounding. -/
theorem C88_two_cuts (vec : Bool) (W : ℕ) (hW : 0 < W) (junk : List F) (hj : junk.length = if vec then W else 1)
    (filter : List F) (hf : filter ≠ []) (hu : A.u ≤ 1 / 1000) (hlen : filter.length * A.u ≤ 2 / 5)
    (hff : ∀ a ∈ filter, A.finite a) (cut₁ cut₂ : List (List F)) (hcut : cut₁.flatten = cut₂.flatten) (state : List F)
    (hs : state.length = filter.length - 1) (hfs : ∀ a ∈ state, A.finite a) (hfx : ∀ a ∈ cut₁.flatten, A.finite a)
    (hh : ∀ j, j < cut₁.flatten.length →
      11 * (firMagnitude A filter state cut₁.flatten j + 3 * (filter.length * A.tiny)) ≤ A.huge) :
    ∃ y₁ y₂ s, firStream (fun out x s => firFeedConv vec W junk out x filter s) cut₁ state = .ok (y₁, s) ∧
      firStream (fun out x s => firFeedConv vec W junk out x filter s) cut₂ state = .ok (y₂, s) ∧ y₁.length = y₂.length ∧
      ∀ j, j < y₁.length → |A.val (sig y₁ j) - A.val (sig y₂ j)| ≤
        2 * (72 * A.u * firMagnitude A filter state cut₁.flatten j + 5 * (filter.length * A.tiny)) := by
  obtain ⟨y₁, a1, a2, a3⟩ := C88_stream A vec W hW junk hj filter hf hu hlen hff cut₁ state hs hfs
    (fun b hb a ha => hfx a (List.mem_flatten_of_mem hb ha)) hh
  obtain ⟨y₂, b1, b2, b3⟩ := C88_stream A vec W hW junk hj filter hf hu hlen hff cut₂ state hs hfs
    (fun b hb a ha => hfx a (hcut ▸ List.mem_flatten_of_mem hb ha)) (hcut ▸ hh)
  rw [← hcut] at b1 b2 b3
  refine ⟨y₁, y₂, _, a1, b1, by rw [a2, b2], fun j hj' => ?_⟩
  have h1 := (a3 j (by omega)).2
  have h2 := (b3 j (by omega)).2
  rw [abs_sub_comm] at h2
  have := abs_sub_le (A.val (sig y₁ j)) (firExact A filter state cut₁.flatten j) (A.val (sig y₂ j))
  linarith

end

section example_float

/-- `3, 4, -5, 6` fed as two blocks and as one block through the filter `1, -2` in `float`: the outputs agree with the exact ones, and with
each other -/
example : ∃ y₁ y₂ s, firStream (fun out x s => firFeedConv true 8 (List.replicate 8 0) out x [Bin.int 1, Bin.int (-2)] s)
      [[Bin.int 3], [Bin.int 4, Bin.int (-5), Bin.int 6]] [Bin.int 7] = .ok (y₁, s) ∧
    firStream (fun out x s => firFeedConv true 8 (List.replicate 8 0) out x [Bin.int 1, Bin.int (-2)] s)
      [[Bin.int 3, Bin.int 4, Bin.int (-5), Bin.int 6]] [Bin.int 7] = .ok (y₂, s) ∧
    ∀ j, j < 4 → |(sig y₁ j).val - (sig y₂ j).val| ≤ 1 / 4000 := by
  obtain ⟨A, hA⟩ : ∃ A, A = Bin.arith 24 (-149) (by norm_num) (by norm_num) := ⟨_, rfl⟩
  have hu : A.u = 2 ^ (-(24 : ℤ)) := by rw [hA]; rfl
  have ht : A.tiny = 2 ^ (-150 : ℤ) := by rw [hA]; change (2 : ℝ) ^ ((-149 : ℤ) - 1) = _; norm_num
  have hh : A.huge = 2 ^ 126 := by rw [hA]; rfl
  have hv : ∀ k : ℤ, A.val (Bin.int k) = k := by intro k; rw [hA]; rfl
  have hfin : ∀ k : ℤ, |(k : ℝ)| ≤ 2 ^ 128 → A.finite (Bin.int k) := by
    intro k hk
    rw [hA]
    exact hk
  have hmag : ∀ j, j < 4 → firMagnitude A [Bin.int 1, Bin.int (-2)] [Bin.int 7] [Bin.int 3, Bin.int 4, Bin.int (-5), Bin.int 6] j ≤ 17 := by
    intro j hj
    unfold firMagnitude firOutput
    interval_cases j <;> simp [hv, sig, Finset.sum_range_succ] <;> norm_num [abs_of_pos, abs_of_neg]
  obtain ⟨y₁, y₂, s, h1, h2, h3, h4⟩ := C88_two_cuts A true 8 (by norm_num) (List.replicate 8 0) (by simp) [Bin.int 1, Bin.int (-2)]
    (by simp) (by rw [hu]; norm_num) (by rw [hu]; norm_num)
    (by
      intro a ha
      simp only [List.mem_cons, List.not_mem_nil, or_false] at ha
      rcases ha with rfl | rfl <;> exact hfin _ (by norm_num))
    [[Bin.int 3], [Bin.int 4, Bin.int (-5), Bin.int 6]] [[Bin.int 3, Bin.int 4, Bin.int (-5), Bin.int 6]] rfl [Bin.int 7] rfl
    (by
      intro a ha
      simp only [List.mem_cons, List.not_mem_nil, or_false] at ha
      rcases ha with rfl
      exact hfin _ (by norm_num))
    (by
      intro a ha
      simp only [List.flatten_cons, List.flatten_nil, List.cons_append, List.nil_append, List.append_nil, List.mem_cons, List.not_mem_nil, or_false] at ha
      rcases ha with rfl | rfl | rfl | rfl <;> exact hfin _ (by norm_num))
    (by
      intro j hj
      have := hmag j hj
      rw [hh, ht]
      refine le_trans (mul_le_mul_of_nonneg_left (add_le_add_left this _) (by norm_num)) ?_
      norm_num)
  refine ⟨y₁, y₂, s, h1, h2, fun j hj => ?_⟩
  have hl : y₁.length = 4 := by
    obtain ⟨y, e1, e2, -⟩ := C88_stream A true 8 (by norm_num) (List.replicate 8 0) (by simp) [Bin.int 1, Bin.int (-2)]
      (by simp) (by rw [hu]; norm_num) (by rw [hu]; norm_num)
      (by
        intro a ha
        simp only [List.mem_cons, List.not_mem_nil, or_false] at ha
        rcases ha with rfl | rfl <;> exact hfin _ (by norm_num))
      [[Bin.int 3], [Bin.int 4, Bin.int (-5), Bin.int 6]] [Bin.int 7] rfl
      (by
        intro a ha
        simp only [List.mem_cons, List.not_mem_nil, or_false] at ha
        rcases ha with rfl
        exact hfin _ (by norm_num))
      (by
        intro b hb a ha
        simp only [List.mem_cons, List.not_mem_nil, or_false] at hb
        rcases hb with rfl | rfl <;> simp only [List.mem_cons, List.not_mem_nil, or_false] at ha
        · rcases ha with rfl
          exact hfin _ (by norm_num)
        · rcases ha with rfl | rfl | rfl <;> exact hfin _ (by norm_num))
      (by
        intro j hj
        have := hmag j hj
        rw [hh, ht]
        refine le_trans (mul_le_mul_of_nonneg_left (add_le_add_left this _) (by norm_num)) ?_
        norm_num)
    rw [h1] at e1
    injection e1 with e1
    injection e1 with e1 _
    rw [e1, e2]
    rfl
  have h5 := h4 j (by omega)
  have h6 := hmag j hj
  have e : ∀ b : Bin 24 (-149), A.val b = b.val := by intro b; rw [hA]; rfl
  rw [e, e, hu, ht] at h5
  refine h5.trans ?_
  have h7 := mul_le_mul_of_nonneg_left h6 (show (0 : ℝ) ≤ 72 * 2 ^ (-(24 : ℤ)) by positivity)
  refine le_trans (mul_le_mul_of_nonneg_left (add_le_add_left h7 _) (by norm_num)) ?_
  norm_num

end example_float

end Verif
