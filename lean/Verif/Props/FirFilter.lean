import Verif.Model.FirFilter
import Verif.Spec.FirFilter
import Verif.Props.OverlapAdd

/-!
# Properties C17–C19: FIR filtering
-/

set_option linter.unusedSectionVars false
set_option linter.unusedSimpArgs false

namespace Verif
open Finset

section
variable {R : Type} [CommRing R]

/-- **C18**: the state after a call is the last samples of old state followed by input. -/
theorem C18_state (state signal : List R) :
    shiftFilterState state signal = lastN state.length (state ++ signal) := by
  unfold shiftFilterState lastN
  simp only
  by_cases h : signal.length < state.length
  · rw [if_pos h, min_eq_left h.le]
    have e1 : state.length - signal.length = (state.drop signal.length).length := by simp
    rw [e1, List.take_left]
    simp only [List.length_append, Nat.sub_self, List.drop_zero]
    rw [show state.length + signal.length - state.length = signal.length by omega,
      List.drop_append_of_le_length h.le]
  · rw [if_neg h, min_eq_right (by omega)]
    simp only [Nat.sub_self, List.take_zero, List.nil_append, List.length_append]
    rw [show state.length + signal.length - state.length = signal.length by omega]
    have : signal.length = state.length + (signal.length - state.length) := by omega
    conv_rhs => rw [this]
    rw [List.drop_append]
    simp

example : shiftFilterState [1, 2, 3, 4] [(9 : ℤ), 8] = [3, 4, 9, 8] := by decide
example : shiftFilterState [1, 2] [(9 : ℤ), 8, 7] = [8, 7] := by decide

theorem sig_append (a b : List R) (i : ℕ) :
    sig (a ++ b) i = if i < a.length then sig a i else sig b (i - a.length) := by
  unfold sig
  simp only [List.getD_eq_getElem?_getD, List.getElem?_append]
  split <;> rfl

/-- convolution split into the part of the history and the part of the new input -/
theorem firOutput_sig (h history x : List R) (hh : history.length = h.length - 1) (h0 : h ≠ []) (i : ℕ)
    (hi : i < x.length) :
    sig (firOutput h history x) i = convAt history h (h.length - 1 + i) + convAt x h i := by
  have hl : 0 < h.length := List.length_pos_iff.2 h0
  have e : firOutput h history x = reg x.length (fun i => ∑ j ∈ range h.length, sig h j *
    sig (history ++ x) (h.length - 1 + i - j)) := rfl
  rw [e, sig_reg, if_pos hi, convAt_comm history, convAt_comm x]
  unfold convAt
  have e1 : ∑ j ∈ range (h.length - 1 + i + 1), sig h j * sig history (h.length - 1 + i - j) =
      ∑ j ∈ range h.length, sig h j * sig history (h.length - 1 + i - j) := by
    symm
    apply sum_subset
    · intro j; simp; omega
    · intro j _ hj
      rw [sig_of_ge (by simpa using hj), zero_mul]
  have e2 : ∑ j ∈ range (i + 1), sig h j * sig x (i - j) =
      ∑ j ∈ range h.length, sig h j * (if j ≤ i then sig x (i - j) else 0) := by
    rw [← sum_filter_add_sum_filter_not (range h.length) (fun j => j ≤ i)]
    rw [sum_eq_zero (s := (range h.length).filter fun j => ¬ j ≤ i)
      (fun j hj => by rw [if_neg (mem_filter.1 hj).2, mul_zero]), add_zero]
    have : ∑ j ∈ (range h.length).filter (fun j => j ≤ i), sig h j * (if j ≤ i then sig x (i - j) else 0) =
        ∑ j ∈ (range h.length).filter (fun j => j ≤ i), sig h j * sig x (i - j) :=
      sum_congr rfl (fun j hj => by rw [if_pos (mem_filter.1 hj).2])
    rw [this]
    symm
    apply sum_subset
    · intro j hj
      have := mem_filter.1 hj
      exact mem_range.2 (by omega)
    · intro j hj hj'
      rw [mem_filter, not_and] at hj'
      rw [sig_of_ge, zero_mul]
      by_contra hc
      exact hj' (mem_range.2 (by omega)) (by have := mem_range.1 hj; omega)
  rw [e1, e2, ← sum_add_distrib]
  apply sum_congr rfl
  intro j hj
  have := mem_range.1 hj
  rw [← mul_add]
  congr 1
  rw [sig_append]
  by_cases c : j ≤ i
  · rw [if_neg (by omega), if_pos c, sig_of_ge (u := history) (by omega), zero_add]
    congr 1
    omega
  · rw [if_pos (by omega), if_neg c, add_zero]

/-- the two convolutions a stateful filter call performs -/
theorem firFeed_ok (conv : List R → List R → List R → ℕ → Bool → Out (List R))
    (out signal filter state : List R) (hf : filter ≠ []) (hs : state.length = filter.length - 1)
    (ho : out.length = signal.length)
    (h1 : ∀ o : List R, o.length = min out.length state.length →
      conv o state filter (filter.length - 1) false = .ok (convExpected true state filter o (filter.length - 1)))
    (h2 : ∀ o : List R, o.length = out.length →
      conv o signal filter 0 false = .ok (convExpected true signal filter o 0)) :
    firFeed conv out signal filter state =
      .ok (firOutput filter state signal, lastN (filter.length - 1) (state ++ signal)) := by
  have hl : 0 < filter.length := List.length_pos_iff.2 hf
  have hu : usub filter.length 1 = filter.length - 1 := by rw [usub, if_pos (by omega)]
  unfold firFeed
  rw [hu, cassert_true hs, Out.ok_bind, cassert_true ho, Out.ok_bind]
  simp only [List.length_map]
  have hst : shiftFilterState state signal = lastN (filter.length - 1) (state ++ signal) := by
    rw [C18_state, hs]
  rw [h1 _ (by simp), Out.ok_bind, h2 _ (by simp [convExpected]), Out.ok_bind, Out.pure_def, hst]
  congr 2
  apply list_ext_sig (by simp [convExpected, firOutput]; omega)
  intro i hi
  have hi' : i < signal.length := by simp [convExpected] at hi; omega
  rw [firOutput_sig filter state signal hs hf i hi']
  set H := convExpected true state filter ((out.map fun _ => (0 : R)).take (min out.length state.length))
    (filter.length - 1) with hH
  have hHl : H.length = min out.length state.length := by simp [hH, convExpected]
  have hzero : ∀ k, sig (out.map fun _ => (0 : R)) k = 0 := by
    intro k; unfold sig; rw [List.getD_eq_getElem?_getD, List.getElem?_map]; cases out[k]? <;> rfl
  have hHs : ∀ k, k < H.length → sig H k = convAt state filter (filter.length - 1 + k) := by
    intro k hk
    have : H = reg ((out.map fun _ => (0 : R)).take (min out.length state.length)).length (fun k =>
      (if (true : Bool) then sig ((out.map fun _ => (0 : R)).take (min out.length state.length)) k else 0)
        + convAt state filter (filter.length - 1 + k)) := rfl
    rw [this, sig_reg, if_pos (by rw [hHl] at hk; simpa using hk)]
    have : sig ((out.map fun _ => (0 : R)).take (min out.length state.length)) k = 0 := by
      refine Eq.trans ?_ (hzero k)
      unfold sig
      simp only [List.getD_eq_getElem?_getD]
      rw [List.getElem?_take_of_lt (by omega)]
    rw [if_pos rfl, this, zero_add]
  have hc : convExpected true signal filter (H ++ (out.map fun _ => (0 : R)).drop (min out.length state.length)) 0
      = reg (H ++ (out.map fun _ => (0 : R)).drop (min out.length state.length)).length (fun k =>
        (if (true : Bool) then sig (H ++ (out.map fun _ => (0 : R)).drop (min out.length state.length)) k else 0)
        + convAt signal filter (0 + k)) := rfl
  rw [hc, sig_reg, if_pos (by simp [hHl]; omega), if_pos rfl, Nat.zero_add, sig_append]
  congr 1
  split
  · rename_i c
    exact hHs i c
  · rename_i c
    rw [hHl] at c
    have : sig ((out.map fun _ => (0 : R)).drop (min out.length state.length)) (i - H.length) = 0 := by
      unfold sig
      simp only [List.getD_eq_getElem?_getD, List.getElem?_drop, List.getElem?_map]
      cases out[min out.length state.length + (i - H.length)]? <;> rfl
    rw [this, convAt_beyond]
    unfold convLengthFull
    split <;> omega

/-- **C17, C18**, one call, direct convolution: the output is that of the FIR filter whose preceding inputs
are the state (any block length including empty; the previous content of the output buffer is irrelevant),
and the state becomes the last `F - 1` samples. -/
theorem C17_feed_conv (vec : Bool) (W : ℕ) (hW : 0 < W) (junk : List R)
    (hj : junk.length = if vec then W else 1) (out signal filter state : List R) (hf : filter ≠ [])
    (hs : state.length = filter.length - 1) (ho : out.length = signal.length) :
    firFeedConv vec W junk out signal filter state =
      .ok (firOutput filter state signal, lastN (filter.length - 1) (state ++ signal)) := by
  have hl : 0 < filter.length := List.length_pos_iff.2 hf
  apply firFeed_ok _ _ _ _ _ hf hs ho
  · intro o h
    rw [C14_offset vec W hW junk hj, if_pos]
    · rfl
    · unfold convLengthFull; split <;> omega
  · intro o h
    rw [C14_offset vec W hW junk hj, if_pos]
    · rfl
    · unfold convLengthFull; split <;> omega

/-- **C17, C18**, one call, overlap-add: filters with at least two taps, non-empty blocks. -/
theorem C17_feed_ola (auto : ℕ → ℕ → Out ℕ) {cc : List R → List R → Out (List R)}
    (hcc : IsCircularConvolution cc) (chunkSize : ℕ) (out signal filter state : List R)
    (hf : 2 ≤ filter.length) (hx : signal ≠ [])
    (hauto : ∀ N F, 1 ≤ F → F ≤ N → F ≤ filter.length → ∃ K, auto N F = .ok K ∧ 2 * F - 1 ≤ K)
    (hc : chunkSize = 0 ∨ 2 * filter.length - 1 ≤ chunkSize)
    (hs : state.length = filter.length - 1) (ho : out.length = signal.length) :
    firFeedOla auto cc chunkSize out signal filter state =
      .ok (firOutput filter state signal, lastN (filter.length - 1) (state ++ signal)) := by
  have hxl : 0 < signal.length := List.length_pos_iff.2 hx
  have hf0 : filter ≠ [] := List.ne_nil_of_length_pos (by omega)
  apply firFeed_ok _ _ _ _ _ hf0 hs ho
  · intro o h
    rw [C15_overlapAdd auto hcc o state filter _ chunkSize false (List.ne_nil_of_length_pos (by omega)) hf0
      (hauto _ _ (by omega) (by omega) (by omega)), if_pos]
    · rfl
    · refine ⟨by omega, ?_⟩
      unfold convLengthFull; split <;> omega
  · intro o h
    rw [C15_overlapAdd auto hcc o signal filter _ chunkSize false hx hf0
      (hauto _ _ (by omega) (by omega) (by omega)), if_pos]
    · rfl
    · refine ⟨by omega, ?_⟩
      unfold convLengthFull; split <;> omega

/-- prepending inputs that the filter has already seen: only the last `F - 1` matter -/
theorem firOutput_append (h history x y : List R) (hh : history.length = h.length - 1) :
    firOutput h history (x ++ y) =
      firOutput h history x ++ firOutput h (lastN (h.length - 1) (history ++ x)) y := by
  rcases h with _ | ⟨h0, ht⟩
  · apply List.ext_getElem
    · simp [firOutput]
    · intro i h1 h2
      by_cases c : i < x.length
      · rw [List.getElem_append_left (by simpa [firOutput] using c)]
        simp [firOutput]
      · rw [List.getElem_append_right (by simpa [firOutput] using c)]
        simp [firOutput]
  set h := h0 :: ht with hdef
  have hl : 0 < h.length := by simp [hdef]
  apply List.ext_getElem
  · simp [firOutput]
  · intro i h1 h2
    by_cases c : i < x.length
    · rw [List.getElem_append_left (by simpa [firOutput] using c)]
      simp only [firOutput, List.getElem_map, List.getElem_range]
      apply sum_congr rfl
      intro j hj
      have := mem_range.1 hj
      congr 1
      rw [← List.append_assoc, sig_append (history ++ x) y, if_pos (by simp; omega)]
    · rw [List.getElem_append_right (by simpa [firOutput] using c)]
      simp only [firOutput, List.getElem_map, List.getElem_range, List.length_map, List.length_range]
      apply sum_congr rfl
      intro j hj
      have := mem_range.1 hj
      congr 1
      unfold lastN
      have hd : (history ++ x).length - (h.length - 1) = x.length := by simp; omega
      rw [hd, ← List.drop_append_of_le_length (by simp), List.append_assoc]
      unfold sig
      simp only [List.getD_eq_getElem?_getD, List.getElem?_drop]
      congr 2
      omega

theorem lastN_append (n : ℕ) (a b : List R) (hn : n ≤ a.length) :
    lastN n (lastN n a ++ b) = lastN n (a ++ b) := by
  unfold lastN
  simp only [List.length_append, List.length_drop]
  rw [← List.drop_append_of_le_length (by omega), List.drop_drop]
  congr 1
  omega

/-- streaming: any feed function with the single call contract -/
theorem firStream_ok (feed : List R → List R → List R → Out (List R × List R)) (filter : List R)
    (P : List R → Prop)
    (hfeed : ∀ out block state, P block → state.length = filter.length - 1 → out.length = block.length →
      feed out block state = .ok (firOutput filter state block, lastN (filter.length - 1) (state ++ block))) :
    ∀ (blocks : List (List R)) (state : List R), (∀ b ∈ blocks, P b) → state.length = filter.length - 1 →
      firStream feed blocks state = .ok (firOutput filter state blocks.flatten,
        lastN (filter.length - 1) (state ++ blocks.flatten))
  | [], state, _, hs => by simp [firStream, firOutput, lastN, hs]
  | b :: bs, state, hP, hs => by
    have hlen : (lastN (filter.length - 1) (state ++ b)).length = filter.length - 1 := by
      simp [lastN]; omega
    unfold firStream
    rw [hfeed _ b state (hP b (by simp)) hs (by simp)]
    simp only [Out.ok_bind]
    rw [firStream_ok feed filter P hfeed bs _ (fun c hc => hP c (by simp [hc])) hlen]
    simp only [Out.ok_bind, Out.pure_def, List.flatten_cons]
    rw [firOutput_append filter state b bs.flatten hs, lastN_append _ _ _ (by simp; omega),
      List.append_assoc]

/-- **C17**, direct convolution: however the input is cut into blocks (shorter or longer than the filter,
empty ones included), the concatenated output and the final state are those of the FIR filter applied to the
whole input. -/
theorem C17_stream_conv (vec : Bool) (W : ℕ) (hW : 0 < W) (junk : List R)
    (hj : junk.length = if vec then W else 1) (filter state : List R) (hf : filter ≠ [])
    (hs : state.length = filter.length - 1) (blocks : List (List R)) :
    firStream (fun out x s => firFeedConv vec W junk out x filter s) blocks state =
      .ok (firOutput filter state blocks.flatten, lastN (filter.length - 1) (state ++ blocks.flatten)) :=
  firStream_ok _ filter (fun _ => True)
    (fun out b s _ h1 h2 => C17_feed_conv vec W hW junk hj out b filter s hf h1 h2) blocks state
    (fun _ _ => trivial) hs

/-- **C17**, direct convolution: two ways to cut the same input cannot be told apart. -/
theorem C17_chunk_invariant_conv (vec : Bool) (W : ℕ) (hW : 0 < W) (junk : List R)
    (hj : junk.length = if vec then W else 1) (filter state : List R) (hf : filter ≠ [])
    (hs : state.length = filter.length - 1) (blocks blocks' : List (List R))
    (h : blocks.flatten = blocks'.flatten) :
    firStream (fun out x s => firFeedConv vec W junk out x filter s) blocks state =
      firStream (fun out x s => firFeedConv vec W junk out x filter s) blocks' state := by
  rw [C17_stream_conv vec W hW junk hj filter state hf hs, C17_stream_conv vec W hW junk hj filter state hf hs, h]

/-- **C17**, overlap-add, any exact FFT pipeline. -/
theorem C17_stream_ola (auto : ℕ → ℕ → Out ℕ) {cc : List R → List R → Out (List R)}
    (hcc : IsCircularConvolution cc) (chunkSize : ℕ) (filter state : List R) (hf : 2 ≤ filter.length)
    (hauto : ∀ N F, 1 ≤ F → F ≤ N → F ≤ filter.length → ∃ K, auto N F = .ok K ∧ 2 * F - 1 ≤ K)
    (hc : chunkSize = 0 ∨ 2 * filter.length - 1 ≤ chunkSize)
    (hs : state.length = filter.length - 1) (blocks : List (List R)) (hb : ∀ b ∈ blocks, b ≠ []) :
    firStream (fun out x s => firFeedOla auto cc chunkSize out x filter s) blocks state =
      .ok (firOutput filter state blocks.flatten, lastN (filter.length - 1) (state ++ blocks.flatten)) :=
  firStream_ok _ filter (fun b => b ≠ [])
    (fun out b s hb h1 h2 => C17_feed_ola auto hcc chunkSize out b filter s hf hb hauto hc h1 h2) blocks state
    hb hs

end

/-- **C17**, overlap-add on real signals with the library's chunk size selection: same result as direct
convolution, for every partition into non-empty blocks. -/
theorem C17_stream_ola_real (iters chunkSize : ℕ) (filter state : List ℝ) (hf : 2 ≤ filter.length)
    (hsz : filter.length ≤ 2 ^ 54) (hc : chunkSize = 0 ∨ 2 * filter.length - 1 ≤ chunkSize)
    (hs : state.length = filter.length - 1) (blocks : List (List ℝ)) (hb : ∀ b ∈ blocks, b ≠ []) :
    firStream (fun out x s => firFeedOla (optimalPracticalSize iters) olaPipelineReal chunkSize out x filter s)
        blocks state =
      .ok (firOutput filter state blocks.flatten, lastN (filter.length - 1) (state ++ blocks.flatten)) :=
  C17_stream_ola _ C15_pipeline_real chunkSize filter state hf
    (fun N F h1 h2 h3 => C16_auto_legal iters N F h1 h2 (by omega)) hc hs blocks hb

/-- Limits of the overlap-add variant: with an explicit chunk size it refuses one-tap filters and empty
blocks (the length `2 * 0 - 1` wraps around), which the direct variant accepts. -/
theorem C17_ola_refuses (auto : ℕ → ℕ → Out ℕ) (cc : List ℝ → List ℝ → Out (List ℝ)) (chunkSize : ℕ)
    (h0 : 0 < chunkSize) (h1 : chunkSize < 2 ^ 64 - 1) (tap : ℝ) (out signal : List ℝ)
    (ho : out.length = signal.length) :
    firFeedOla auto cc chunkSize out signal [tap] [] = .assertFail := by
  unfold firFeedOla firFeed
  rw [cassert_true (by simp [usub]), Out.ok_bind, cassert_true ho, Out.ok_bind]
  have : overlapAdd auto cc (List.take (min (List.map (fun _ => (0 : ℝ)) out).length ([] : List ℝ).length)
      (List.map (fun _ => (0 : ℝ)) out)) [] [tap] (usub ([tap] : List ℝ).length 1) chunkSize false =
      .assertFail := by
    unfold overlapAdd
    rw [if_pos (by simp)]
    unfold overlapAddOrdered
    rw [if_neg (by omega), Out.pure_def, Out.ok_bind, cassert, if_neg (by simp [usub]; omega)]
    rfl
  simp only []
  rw [this]
  rfl

-- a concrete stream: blocks of 1, 0, 3 and 2 samples through a 3-tap filter, starting from a non-zero state
example : firStream (fun out x s => firFeedConv false 1 [(0 : ℤ)] out x [1, 2, 3] s)
    [[5], [], [1, 0, 2], [7, 7]] [4, 6] = .ok ([29, 29, 17, 5, 11, 27], [7, 7]) := by
  rw [C17_stream_conv false 1 (by omega) [0] rfl [1, 2, 3] [4, 6] (by simp) rfl]
  decide +kernel

/-! ### stateless filtering -/

section
variable {R : Type} [CommRing R]

/-- **C19**: one-shot filtering returns the full convolution of signal and filter, direct and overlap-add;
the outputs have the documented lengths (C14_lengths). -/
theorem C19_full (vec : Bool) (W : ℕ) (hW : 0 < W) (junk : List R)
    (hj : junk.length = if vec then W else 1) (signal filter : List R) :
    firAllocFullConv vec W junk signal filter =
      .ok ((List.range (convLengthFull signal.length filter.length)).map (convAt signal filter)) := by
  unfold firAllocFullConv firFullConv convolutionFull
  rw [cassert_true (by simp), Out.ok_bind, C14_offset vec W hW junk hj, if_pos (by simp)]
  simp [convExpected]

theorem C19_full_ola (auto : ℕ → ℕ → Out ℕ) {cc : List R → List R → Out (List R)}
    (hcc : IsCircularConvolution cc) (chunkSize : ℕ) (signal filter : List R) (hx : signal ≠ [])
    (hf : filter ≠ [])
    (hauto : ∃ K, auto (max signal.length filter.length) (min signal.length filter.length) = .ok K ∧
      2 * min signal.length filter.length - 1 ≤ K)
    (hc : chunkSize = 0 ∨ 2 * min signal.length filter.length - 1 ≤ chunkSize) :
    firAllocFullOla auto cc chunkSize signal filter =
      .ok ((List.range (convLengthFull signal.length filter.length)).map (convAt signal filter)) := by
  unfold firAllocFullOla firFullOla overlapAddFull
  rw [cassert_true (by simp), Out.ok_bind, C15_overlapAdd auto hcc _ _ _ _ _ _ hx hf hauto,
    if_pos ⟨hc, by simp⟩]
  simp [convExpected]

/-- **C19**: central filtering returns the samples of the full convolution at which the shorter operand
overlaps completely (see `C14_central`). -/
theorem C19_central (vec : Bool) (W : ℕ) (hW : 0 < W) (junk : List R)
    (hj : junk.length = if vec then W else 1) (signal filter : List R) (hx : signal ≠ []) (hf : filter ≠ []) :
    firAllocCentralConv vec W junk signal filter =
      .ok ((List.range (max signal.length filter.length - min signal.length filter.length + 1)).map
        fun k => convAt signal filter (min signal.length filter.length - 1 + k)) := by
  have hxl : 0 < signal.length := List.length_pos_iff.2 hx
  have hfl : 0 < filter.length := List.length_pos_iff.2 hf
  obtain ⟨l1, l2⟩ := C14_lengths signal.length filter.length hxl hfl
  unfold firAllocCentralConv firCentralConv convolutionCentral
  rw [cassert_true (by simp), Out.ok_bind]
  have hu1 : usub signal.length 1 = signal.length - 1 := by rw [usub, if_pos (by omega)]
  have hv1 : usub filter.length 1 = filter.length - 1 := by rw [usub, if_pos (by omega)]
  rw [hu1, hv1, C14_offset vec W hW junk hj, if_pos (by simp [l1, l2]; omega)]
  have e : min (signal.length - 1) (filter.length - 1) = min signal.length filter.length - 1 := by omega
  simp [convExpected, l2, e]

theorem C19_central_ola (auto : ℕ → ℕ → Out ℕ) {cc : List R → List R → Out (List R)}
    (hcc : IsCircularConvolution cc) (chunkSize : ℕ) (signal filter : List R) (hx : signal ≠ [])
    (hf : filter ≠ [])
    (hauto : ∃ K, auto (max signal.length filter.length) (min signal.length filter.length) = .ok K ∧
      2 * min signal.length filter.length - 1 ≤ K)
    (hc : chunkSize = 0 ∨ 2 * min signal.length filter.length - 1 ≤ chunkSize) :
    firAllocCentralOla auto cc chunkSize signal filter =
      .ok ((List.range (max signal.length filter.length - min signal.length filter.length + 1)).map
        fun k => convAt signal filter (min signal.length filter.length - 1 + k)) := by
  have hxl : 0 < signal.length := List.length_pos_iff.2 hx
  have hfl : 0 < filter.length := List.length_pos_iff.2 hf
  obtain ⟨l1, l2⟩ := C14_lengths signal.length filter.length hxl hfl
  unfold firAllocCentralOla firCentralOla overlapAddCentral
  rw [cassert_true (by simp), Out.ok_bind]
  have hu1 : usub signal.length 1 = signal.length - 1 := by rw [usub, if_pos (by omega)]
  have hv1 : usub filter.length 1 = filter.length - 1 := by rw [usub, if_pos (by omega)]
  rw [hu1, hv1, C15_overlapAdd auto hcc _ _ _ _ _ _ hx hf hauto, if_pos ⟨hc, by simp [l1, l2]; omega⟩]
  have e : min (signal.length - 1) (filter.length - 1) = min signal.length filter.length - 1 := by omega
  simp [convExpected, l2, e]

example : firAllocCentralConv true 4 [0, 0, 0, 0] [1, 2, 3, 4] [(1 : ℤ), 1] = .ok [3, 5, 7] :=
  (C19_central true 4 (by omega) _ rfl _ _ (by simp) (by simp)).trans (by decide +kernel)

/-- **C17/C19**: a stateful filter that starts from silence computes the first samples of the full
convolution. -/
theorem C19_stateful_zero_state (vec : Bool) (W : ℕ) (hW : 0 < W) (junk : List R)
    (hj : junk.length = if vec then W else 1) (out signal filter : List R) (hf : filter ≠ [])
    (ho : out.length = signal.length) :
    ∃ s', firFeedConv vec W junk out signal filter (List.replicate (filter.length - 1) 0) =
      .ok ((List.range signal.length).map (convAt signal filter), s') := by
  refine ⟨lastN (filter.length - 1) (List.replicate (filter.length - 1) 0 ++ signal), ?_⟩
  rw [C17_feed_conv vec W hW junk hj out signal filter _ hf (by simp) ho]
  congr 2
  apply list_ext_sig (by simp [firOutput])
  intro i hi
  have hi' : i < signal.length := by simpa [firOutput] using hi
  rw [firOutput_sig _ _ _ (by simp) hf i hi']
  have e : (List.range signal.length).map (convAt signal filter) = reg signal.length (convAt signal filter) := rfl
  rw [e, sig_reg, if_pos hi']
  have : convAt (List.replicate (filter.length - 1) (0 : R)) filter (filter.length - 1 + i) = 0 := by
    unfold convAt
    apply sum_eq_zero
    intro j _
    have : sig (List.replicate (filter.length - 1) (0 : R)) j = 0 := by
      unfold sig; simp [List.getD_eq_getElem?_getD, List.getElem?_replicate]; split <;> rfl
    rw [this, zero_mul]
  rw [this, zero_add]

end
end Verif
