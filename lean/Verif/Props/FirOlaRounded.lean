import Verif.Props.OverlapAddRealRounded
import Verif.Props.FirFilter

/-!
# C96: the streaming FIR filter with overlap-add in floating point

`firOutput` is the exact filter (Verif/Spec/FirFilter.lean), applied to the exact values of the samples.
-/

set_option linter.unusedSimpArgs false
set_option linter.unusedSectionVars false
set_option linter.unusedVariables false

namespace Verif
open Finset PocketF

section
variable {R : Type} [Add R] [Mul R] [Zero R] (A : RoundedAdd R)

private theorem sum_sig (v : List R) (V : ℝ) (hV0 : 0 ≤ V) (hV : ∀ x ∈ v, ‖A.val x‖ ≤ V) (N : ℕ) :
    ∑ i ∈ range N, ‖A.val (sig v i)‖ ≤ v.length * V := by
  have h : ∀ i ∈ range N, ‖A.val (sig v i)‖ ≤ if i ∈ range v.length then V else 0 := by
    intro i _
    by_cases hi : i < v.length
    · rw [if_pos (mem_range.2 hi)]
      apply hV
      unfold sig
      rw [List.getD_eq_getElem?_getD, List.getElem?_eq_getElem hi]
      exact List.getElem_mem hi
    · rw [if_neg (by simpa using hi)]
      unfold sig
      rw [List.getD_eq_getElem?_getD, List.getElem?_eq_none (by omega)]
      simp [A.val_zero]
  refine (sum_le_sum h).trans ?_
  rw [← sum_filter, sum_const, nsmul_eq_mul]
  apply mul_le_mul_of_nonneg_right _ hV0
  have : (filter (fun i => i ∈ range v.length) (range N)).card ≤ (range v.length).card :=
    card_le_card fun i hi => (mem_filter.1 hi).2
  rw [card_range] at this
  exact_mod_cast this

private theorem sig_le (v : List R) (V : ℝ) (hV0 : 0 ≤ V) (hV : ∀ x ∈ v, ‖A.val x‖ ≤ V) (i : ℕ) : ‖A.val (sig v i)‖ ≤ V := by
  unfold sig
  rw [List.getD_eq_getElem?_getD]
  rcases h : v[i]? with _ | x
  · simpa [A.val_zero] using hV0
  · exact hV x (List.mem_of_getElem? h)

private theorem conv_norm_le (u v : List R) (X H : ℝ) (hX0 : 0 ≤ X) (hH0 : 0 ≤ H) (hu : ∀ x ∈ u, ‖A.val x‖ ≤ X)
    (hv : ∀ x ∈ v, ‖A.val x‖ ≤ H) (n : ℕ) : ‖convAt (u.map A.val) (v.map A.val) n‖ ≤ v.length * (X * H) := by
  unfold convAt
  refine (norm_sum_le _ _).trans ?_
  have h : ∀ i ∈ range (n + 1), ‖sig (u.map A.val) i * sig (v.map A.val) (n - i)‖ ≤ X * ‖A.val (sig v (n - i))‖ := by
    intro i _
    rw [norm_mul, sig_map_val, sig_map_val]
    exact mul_le_mul_of_nonneg_right (sig_le A u X hX0 hu i) (norm_nonneg _)
  refine (sum_le_sum h).trans ?_
  rw [← mul_sum]
  have e := sum_range_reflect (fun i => ‖A.val (sig v i)‖) (n + 1)
  simp only [Nat.add_sub_cancel] at e
  rw [e]
  have := mul_le_mul_of_nonneg_left (sum_sig A v H hH0 hv (n + 1)) hX0
  linarith

private theorem ola_le (auto : ℕ → ℕ → Out ℕ) {cc : List R → List R → Out (List R)} (out u v : List R) (offset K : ℕ)
    (A0 X H ε T : ℝ) (hX0 : 0 ≤ X) (hH0 : 0 ≤ H) (hε : 0 ≤ ε)
    (hXH : ApproxCircularConvolution A cc K X H ε) (hHX : ApproxCircularConvolution A cc K H X ε)
    (hu0 : u ≠ []) (hv0 : v ≠ []) (hK : 2 * v.length - 1 ≤ K) (hb : offset + out.length ≤ u.length + v.length - 1)
    (hu : ∀ x ∈ u, A.finite x ∧ ‖A.val x‖ ≤ X) (hv : ∀ x ∈ v, A.finite x ∧ ‖A.val x‖ ≤ H)
    (hA : 0 ≤ A0) (ho : ∀ x ∈ out, A.finite x ∧ ‖A.val x‖ ≤ A0) (hT : T = v.length * (X * H))
    (hB : 2 * K * A.u ≤ 1) (hH : A0 + T + 2 * K * (ε + A.u * (A0 + T)) + ε ≤ A.huge) :
    ∃ out', overlapAdd auto cc out u v offset K false = .ok out' ∧ out'.length = out.length ∧
      ∀ j, j < out.length → A.finite (sig out' j) ∧
        ‖A.val (sig out' j) - (A.val (sig out j) + convAt (u.map A.val) (v.map A.val) (offset + j))‖
          ≤ 2 * K * (ε + A.u * (A0 + T)) := by
  have q0 := A.u_nonneg
  have lu : 0 < u.length := List.length_pos_iff.2 hu0
  have lv : 0 < v.length := List.length_pos_iff.2 hv0
  have key : ∀ (l s : List R) (U V : ℝ), ((u = l ∧ v = s ∧ s.length ≤ l.length) ∨ (u = s ∧ v = l ∧ s.length < l.length)) →
      ApproxCircularConvolution A cc K U V ε → 0 ≤ U → 0 ≤ V → s ≠ [] → s.length ≤ v.length →
      (∀ x ∈ l, A.finite x ∧ ‖A.val x‖ ≤ U) → (∀ x ∈ s, A.finite x ∧ ‖A.val x‖ ≤ V) → U * V = X * H →
      ∃ out', overlapAdd auto cc out u v offset K false = .ok out' ∧ out'.length = out.length ∧
        ∀ j, j < out.length → A.finite (sig out' j) ∧
          ‖A.val (sig out' j) - (A.val (sig out j) + convAt (u.map A.val) (v.map A.val) (offset + j))‖
            ≤ 2 * K * (ε + A.u * (A0 + T)) := by
    intro l s U V hls hcc hU0 hV0 hs hsv hU hV hUV
    have hs1 : 0 < s.length := List.length_pos_iff.2 hs
    obtain ⟨S, hS⟩ : ∃ S, S = A0 + U * ∑ m ∈ range s.length, ‖A.val (sig s m)‖ := ⟨_, rfl⟩
    obtain ⟨B, hBd⟩ : ∃ B, B = (K - 1) / s.length + 1 := ⟨_, rfl⟩
    have hBK : B ≤ K := by
      have := Nat.div_le_self (K - 1) s.length
      omega
    have hBr : (B : ℝ) ≤ K := by exact_mod_cast hBK
    have hS0 : 0 ≤ S := by
      rw [hS]
      have : 0 ≤ ∑ m ∈ range s.length, ‖A.val (sig s m)‖ := sum_nonneg fun _ _ => norm_nonneg _
      positivity
    have hST : S ≤ A0 + T := by
      rw [hS, hT]
      have a := mul_le_mul_of_nonneg_left (sum_sig A s V hV0 (fun x hx => (hV x hx).2) s.length) hU0
      have b : (s.length : ℝ) * (U * V) ≤ v.length * (U * V) :=
        mul_le_mul_of_nonneg_right (by exact_mod_cast hsv) (by positivity)
      rw [← hUV]
      linarith
    have e1 : ε + A.u * S ≤ ε + A.u * (A0 + T) := by
      have := mul_le_mul_of_nonneg_left hST q0
      linarith
    have e0 : 0 ≤ ε + A.u * S := by positivity
    have e2 : 2 * B * (ε + A.u * S) ≤ 2 * K * (ε + A.u * (A0 + T)) :=
      mul_le_mul (by linarith) e1 e0 (by positivity)
    obtain ⟨o, o1, o2, o3⟩ := C91_overlap_add A auto out u v l s offset K K false A0 U V ε hls hcc
      (by rw [if_neg (by omega)]; rfl) hs (by omega) (by rcases hls with h | h <;> rw [h.1, h.2.1] at hb <;> omega) hU hV hA
      (fun _ => ho) S hS B hBd
      (by
        have : 2 * (B : ℝ) * A.u ≤ 2 * K * A.u := mul_le_mul_of_nonneg_right (by linarith) q0
        linarith)
      (by linarith)
    refine ⟨o, o1, o2, fun j hj => ⟨(o3 j hj).1, ?_⟩⟩
    have := (o3 j hj).2
    simp only [Bool.false_eq_true, if_false] at this
    exact this.trans e2
  by_cases c : v.length ≤ u.length
  · exact key u v X H (Or.inl ⟨rfl, rfl, c⟩) hXH hX0 hH0 hv0 le_rfl hu hv rfl
  · exact key v u H X (Or.inr ⟨rfl, rfl, by omega⟩) hHX hH0 hX0 hu0 (by omega) hv hu (mul_comm _ _)

private theorem shift_state (state signal : List R) :
    shiftFilterState state signal = lastN state.length (state ++ signal) := by
  unfold shiftFilterState lastN
  simp only
  by_cases h : signal.length < state.length
  · rw [if_pos h, min_eq_left h.le]
    have e1 : state.length - signal.length = (state.drop signal.length).length := by simp
    rw [e1, List.take_left]
    simp only [List.length_append, Nat.sub_self, List.drop_zero]
    rw [show state.length + signal.length - state.length = signal.length by omega,
      List.drop_append_of_le_length h.le]
  · rw [if_neg h, min_eq_right (by omega)]
    simp only [Nat.sub_self, List.take_zero, List.nil_append, List.length_append]
    rw [show state.length + signal.length - state.length = signal.length by omega]
    have : signal.length = state.length + (signal.length - state.length) := by omega
    conv_rhs => rw [this]
    rw [List.drop_append]
    simp

private theorem sig_app (a b : List R) (i : ℕ) :
    sig (a ++ b) i = if i < a.length then sig a i else sig b (i - a.length) := by
  unfold sig
  simp only [List.getD_eq_getElem?_getD, List.getElem?_append]
  split <;> rfl

/-- **C96** one call of the stateful filter in overlap-add mode, on any type with a rounded addition and with any approximate circular
convolution of the chunks: the new state holds the samples themselves, and every output sample is finite and within the stated
distance of the exact output. -/
theorem C96_feed (auto : ℕ → ℕ → Out ℕ) {cc : List R → List R → Out (List R)} (out signal filter state : List R) (K : ℕ)
    (X H ε T : ℝ) (hε : 0 ≤ ε) (hXH : ApproxCircularConvolution A cc K X H ε) (hHX : ApproxCircularConvolution A cc K H X ε)
    (hf : 2 ≤ filter.length) (hs : state.length = filter.length - 1) (ho : out.length = signal.length) (hx : signal ≠ [])
    (hK : 2 * filter.length - 1 ≤ K)
    (hff : ∀ a ∈ filter, A.finite a ∧ ‖A.val a‖ ≤ H) (hfs : ∀ a ∈ state, A.finite a ∧ ‖A.val a‖ ≤ X)
    (hfx : ∀ a ∈ signal, A.finite a ∧ ‖A.val a‖ ≤ X) (hT : T = filter.length * (X * H))
    (hB : 2 * K * A.u ≤ 1) (hH : 2 * T + 2 * K * (3 * ε + 4 * A.u * T) + ε ≤ A.huge) :
    ∃ y, firFeedOla auto cc K out signal filter state = .ok (y, lastN (filter.length - 1) (state ++ signal)) ∧
      y.length = signal.length ∧ ∀ j, j < signal.length → A.finite (sig y j) ∧
        ‖A.val (sig y j) - sig (firOutput (filter.map A.val) (state.map A.val) (signal.map A.val)) j‖
          ≤ 2 * K * (3 * ε + 4 * A.u * T) := by
  have u0 := A.u_nonneg
  have hf0 : filter ≠ [] := List.ne_nil_of_length_pos (by omega)
  have hs0 : state ≠ [] := List.ne_nil_of_length_pos (by omega)
  have hX0 : 0 ≤ X := by
    obtain ⟨x, h⟩ := List.exists_mem_of_ne_nil _ hs0
    exact (norm_nonneg _).trans (hfs x h).2
  have hH0 : 0 ≤ H := by
    obtain ⟨x, h⟩ := List.exists_mem_of_ne_nil _ hf0
    exact (norm_nonneg _).trans (hff x h).2
  have hT0 : 0 ≤ T := by rw [hT]; positivity
  have hlx : 0 < signal.length := List.length_pos_iff.2 hx
  have hus : usub filter.length 1 = filter.length - 1 := by rw [usub, if_pos (by omega)]
  obtain ⟨m, hm⟩ : ∃ m, m = min out.length state.length := ⟨_, rfl⟩
  have hzero : ∀ (c k : ℕ), sig ((out.map fun _ => (0 : R)).take c) k = 0 := by
    intro c k
    unfold sig
    rw [List.getD_eq_getElem?_getD, List.getElem?_take]
    split
    · rw [List.getElem?_map]; cases out[k]? <;> rfl
    · rfl
  obtain ⟨E1, hE1⟩ : ∃ E1, E1 = 2 * K * (ε + A.u * T) := ⟨_, rfl⟩
  have hE0 : 0 ≤ E1 := by rw [hE1]; positivity
  have k1 : 0 ≤ (K : ℝ) * ε := by positivity
  have k2 : 0 ≤ (K : ℝ) * (A.u * T) := by positivity
  have hE2 : 2 * K * (ε + A.u * (T + E1 + T)) ≤ 2 * E1 + 2 * K * A.u * T := by
    have := mul_le_mul_of_nonneg_right hB hE0
    have e : 2 * K * (ε + A.u * (T + E1 + T)) = E1 + 2 * K * A.u * E1 + 2 * K * A.u * T := by rw [hE1]; ring
    rw [e]
    linarith
  have hE3 : E1 + (2 * E1 + 2 * K * A.u * T) = 2 * K * (3 * ε + 4 * A.u * T) := by rw [hE1]; ring
  obtain ⟨hd, e1, l1, b1⟩ := ola_le A auto (cc := cc) ((out.map fun _ => (0 : R)).take m) state filter (filter.length - 1) K
    0 X H ε T hX0 hH0 hε hXH hHX hs0 hf0 hK (by simp; omega) hfs hff le_rfl
    (by
      intro a ha
      have := List.mem_of_mem_take ha
      rw [List.mem_map] at this
      obtain ⟨_, _, rfl⟩ := this
      exact ⟨A.zero_finite, by simp [A.val_zero]⟩) hT hB
    (by
      rw [zero_add, ← hE1]
      linarith)
  rw [zero_add, ← hE1] at b1
  have l1' : hd.length = m := by rw [l1]; simp; omega
  obtain ⟨o2, ho2⟩ : ∃ o2, o2 = hd ++ (out.map fun _ => (0 : R)).drop m := ⟨_, rfl⟩
  have ho2l : o2.length = signal.length := by rw [ho2]; simp [l1']; omega
  have hprev : ∀ j, j < signal.length → A.finite (sig o2 j) ∧
      ‖A.val (sig o2 j) - convAt (state.map A.val) (filter.map A.val) (filter.length - 1 + j)‖ ≤ E1 := by
    intro j hj'
    rw [ho2, sig_app]
    by_cases hjm : j < m
    · rw [if_pos (by omega)]
      obtain ⟨f, b⟩ := b1 j (by simp; omega)
      rw [hzero, A.val_zero, zero_add] at b
      exact ⟨f, b⟩
    · rw [if_neg (by omega)]
      have hz : sig ((out.map fun _ => (0 : R)).drop m) (j - hd.length) = 0 := by
        unfold sig
        rw [List.getD_eq_getElem?_getD, List.getElem?_drop, List.getElem?_map]
        cases out[m + (j - hd.length)]? <;> rfl
      rw [hz]
      refine ⟨A.zero_finite, ?_⟩
      have hb : convAt (state.map A.val) (filter.map A.val) (filter.length - 1 + j) = 0 := by
        apply convAt_beyond
        simp only [List.length_map]
        unfold convLengthFull
        split <;> omega
      rw [hb, A.val_zero, sub_zero, norm_zero]
      exact hE0
  obtain ⟨y, e2, l2, b2⟩ := ola_le A auto (cc := cc) o2 signal filter 0 K (T + E1) X H ε T hX0 hH0 hε hXH hHX hx hf0 hK
    (by omega) hfx hff (by linarith)
    (by
      intro a ha
      obtain ⟨k, hk, rfl⟩ := List.getElem_of_mem ha
      have := hprev k (by omega)
      unfold sig at this
      rw [List.getD_eq_getElem?_getD, List.getElem?_eq_getElem hk] at this
      refine ⟨this.1, ?_⟩
      have c := conv_norm_le A state filter X H hX0 hH0 (fun x h => (hfs x h).2) (fun x h => (hff x h).2) (filter.length - 1 + k)
      have d := norm_sub_norm_le (A.val o2[k]) (convAt (state.map A.val) (filter.map A.val) (filter.length - 1 + k))
      rw [← hT] at c
      have := this.2
      simp only [Option.getD_some] at this
      linarith) hT hB
    (by linarith)
  refine ⟨y, ?_, by rw [l2, ho2l], fun j hj' => ?_⟩
  · unfold firFeedOla firFeed
    rw [hus, cassert_true hs, Out.ok_bind, cassert_true ho, Out.ok_bind]
    simp only [List.length_map]
    rw [← hm, e1, Out.ok_bind, ← ho2, e2, Out.ok_bind, shift_state, hs, Out.pure_def]
  · obtain ⟨f, b⟩ := b2 j (by omega)
    refine ⟨f, ?_⟩
    rw [zero_add] at b
    rw [firOutput_sig _ _ _ (by simpa using hs) (by simpa using hf0) j (by simpa using hj'), List.length_map]
    have tri : A.val (sig y j) - (convAt (state.map A.val) (filter.map A.val) (filter.length - 1 + j)
          + convAt (signal.map A.val) (filter.map A.val) j)
        = (A.val (sig y j) - (A.val (sig o2 j) + convAt (signal.map A.val) (filter.map A.val) j))
          + (A.val (sig o2 j) - convAt (state.map A.val) (filter.map A.val) (filter.length - 1 + j)) := by ring
    rw [tri]
    refine (norm_add_le _ _).trans ?_
    linarith [(hprev j hj').2]

private theorem map_lastN (f : R → ℂ) (n : ℕ) (l : List R) : (lastN n l).map f = lastN n (l.map f) := by
  unfold lastN
  simp [List.map_drop]

/-- **C96** streaming: however the signal is cut into (nonempty) blocks, and however long it is, every output sample satisfies the
same bound: errors do not build up from block to block. -/
theorem C96_stream (auto : ℕ → ℕ → Out ℕ) {cc : List R → List R → Out (List R)} (filter : List R) (K : ℕ)
    (X H ε T : ℝ) (hε : 0 ≤ ε) (hXH : ApproxCircularConvolution A cc K X H ε) (hHX : ApproxCircularConvolution A cc K H X ε)
    (hf : 2 ≤ filter.length) (hK : 2 * filter.length - 1 ≤ K)
    (hff : ∀ a ∈ filter, A.finite a ∧ ‖A.val a‖ ≤ H) (hT : T = filter.length * (X * H))
    (hB : 2 * K * A.u ≤ 1) (hH : 2 * T + 2 * K * (3 * ε + 4 * A.u * T) + ε ≤ A.huge) :
    ∀ (blocks : List (List R)) (state : List R), state.length = filter.length - 1 →
    (∀ a ∈ state, A.finite a ∧ ‖A.val a‖ ≤ X) → (∀ b ∈ blocks, b ≠ [] ∧ ∀ a ∈ b, A.finite a ∧ ‖A.val a‖ ≤ X) →
    ∃ y, firStream (fun out x s => firFeedOla auto cc K out x filter s) blocks state =
        .ok (y, lastN (filter.length - 1) (state ++ blocks.flatten)) ∧
      y.length = blocks.flatten.length ∧ ∀ j, j < blocks.flatten.length → A.finite (sig y j) ∧
        ‖A.val (sig y j) - sig (firOutput (filter.map A.val) (state.map A.val) (blocks.flatten.map A.val)) j‖
          ≤ 2 * K * (3 * ε + 4 * A.u * T)
  | [], state, hs, _, _ => by
    refine ⟨[], ?_, rfl, fun j hj => by simp at hj⟩
    simp [firStream, lastN, hs]
  | b :: bs, state, hs, hfs, hfx => by
    have hsl : (lastN (filter.length - 1) (state ++ b)).length = filter.length - 1 := by
      simp [lastN]; omega
    have hE : ∀ (j : ℕ), sig (firOutput (filter.map A.val) (state.map A.val) ((b :: bs).flatten.map A.val)) j =
        if j < b.length then sig (firOutput (filter.map A.val) (state.map A.val) (b.map A.val)) j
        else sig (firOutput (filter.map A.val) ((lastN (filter.length - 1) (state ++ b)).map A.val) (bs.flatten.map A.val))
          (j - b.length) := by
      intro j
      rw [List.flatten_cons, List.map_append, firOutput_append _ _ _ _ (by simpa using hs), sig_append]
      have hl : (firOutput (filter.map A.val) (state.map A.val) (b.map A.val)).length = b.length := by simp [firOutput]
      rw [hl, List.length_map, map_lastN, List.map_append]
    obtain ⟨y1, e1, l1, b1⟩ := C96_feed A auto (List.replicate b.length 0) b filter state K X H ε T hε hXH hHX hf hs (by simp)
      (hfx b (by simp)).1 hK hff hfs (hfx b (by simp)).2 hT hB hH
    obtain ⟨y2, e2, l2, b2⟩ := C96_stream auto filter K X H ε T hε hXH hHX hf hK hff hT hB hH bs
      (lastN (filter.length - 1) (state ++ b)) hsl
      (fun a ha => by
        have := List.mem_of_mem_drop ha
        rcases List.mem_append.1 this with h | h
        · exact hfs a h
        · exact (hfx b (by simp)).2 a h)
      (fun c hc => hfx c (by simp [hc]))
    refine ⟨y1 ++ y2, ?_, by simp [l1, l2], fun j hjl => ?_⟩
    · unfold firStream
      rw [e1]
      simp only [Out.ok_bind]
      rw [e2]
      simp only [Out.ok_bind, Out.pure_def]
      congr 2
      have : filter.length - 1 ≤ (state ++ b).length := by simp; omega
      unfold lastN
      simp only [List.length_append, List.length_drop, List.flatten_cons]
      rw [← List.drop_append_of_le_length (by simp), List.drop_drop, List.append_assoc]
      congr 1
      omega
    · rw [sig_app, l1, hE]
      by_cases hjb : j < b.length
      · rw [if_pos hjb, if_pos hjb]
        exact b1 j hjb
      · rw [if_neg hjb, if_neg hjb]
        refine b2 (j - b.length) ?_
        simp only [List.flatten_cons, List.length_append] at hjl
        omega

end

section
variable {F : Type} [Zero F] [Add F] [Sub F] [Mul F] [Fma F] [Neg F]

/-- **C96** as the user sees it: real signals in any floating point type, filtered block by block in chunks of a length `K` without a
prime factor above 5 (every power of two). -/
theorem C96_real (A : FloatArithNeg F) (h X H : ℝ) (E : RFftEnv F) (one : F) (inv : Option F) (auto : ℕ → ℕ → Out ℕ)
    (filter state : List F) (blocks : List (List F)) (K : ℕ)
    (hone : A.finite one ∧ A.val one = 1) (hL : RLitsOk A h E.lits) (ht : TableOk A h K E.tw) (h1 : 1 ≤ h) (h5 : Smooth5 K)
    (hinv : A.finite (inv.getD one) ∧ |A.val (inv.getD one) - 1 / K| ≤ 2 * A.u / K)
    (hf : 2 ≤ filter.length) (hK : 2 * filter.length - 1 ≤ K) (hs : state.length = filter.length - 1)
    (hff : ∀ a ∈ filter, A.finite a ∧ |A.val a| ≤ H) (hfs : ∀ a ∈ state, A.finite a ∧ |A.val a| ≤ X)
    (hfx : ∀ b ∈ blocks, b ≠ [] ∧ ∀ a ∈ b, A.finite a ∧ |A.val a| ≤ X)
    (hu : 2000 * h ^ 2 * (Nat.log 2 K + 1) * A.u ≤ 1) (htu : A.tiny ≤ A.u) (h4 : 4 ≤ A.huge) (hB : 2 * K * A.u ≤ 1)
    (htX : A.tiny ≤ A.u * X) (htH : A.tiny ≤ A.u * H) (htW : A.tiny ≤ A.u * (X * H))
    (hHX : 4800000 * h ^ 3 * (Nat.log 2 K + 1) * K * (X + A.tiny) ≤ A.huge)
    (hHH : 4800000 * h ^ 3 * (Nat.log 2 K + 1) * K * (H + A.tiny) ≤ A.huge)
    (hHP : 190000000 * h ^ 3 * (Nat.log 2 K + 1) * K ^ 3 * (X * H) ≤ A.huge)
    (T ε : ℝ) (hT : T = filter.length * (X * H)) (hε : ε = 114000 * h * (Nat.log 2 K + 1) * A.u * K ^ 2 * (X * H))
    (hH : 2 * T + 2 * K * (3 * ε + 4 * A.u * T) + ε ≤ A.huge) :
    ∃ y, firStream (fun out x s => firFeedOla auto (PocketF.olaPipelineReal E inv) K out x filter s) blocks state =
        .ok (y, lastN (filter.length - 1) (state ++ blocks.flatten)) ∧
      y.length = blocks.flatten.length ∧ ∀ j, j < blocks.flatten.length → A.finite (sig y j) ∧
        |A.val (sig y j) - sig (firOutput (filter.map A.val) (state.map A.val) (blocks.flatten.map A.val)) j|
          ≤ 2 * K * (3 * ε + 4 * A.u * T) := by
  have u0 := A.u_nonneg
  have hX0 : 0 ≤ X := by
    obtain ⟨x, h⟩ := List.exists_mem_of_length_pos (by omega : 0 < state.length)
    exact (abs_nonneg _).trans (hfs x h).2
  have hH0 : 0 ≤ H := by
    obtain ⟨x, h⟩ := List.exists_mem_of_length_pos (by omega : 0 < filter.length)
    exact (abs_nonneg _).trans (hff x h).2
  have nrm : ∀ x, ‖(reAdd A).val x‖ = |A.val x| := fun x => Complex.norm_real _
  have hc1 := C95_chunk_smooth A h X H E one inv K (by omega) hone hL ht h1 h5 hinv hX0 hH0 hu htu h4 htX htH htW hHX hHH hHP ε hε
  have hc2 := C95_chunk_smooth A h H X E one inv K (by omega) hone hL ht h1 h5 hinv hH0 hX0 hu htu h4 htH htX
    (by rw [mul_comm H X]; exact htW) hHH hHX (by rw [mul_comm H X]; exact hHP) ε (by rw [mul_comm H X]; exact hε)
  have hε0 : 0 ≤ ε := by rw [hε]; positivity
  obtain ⟨y, y1, y2, y3⟩ := C96_stream (reAdd A) auto filter K X H ε T hε0 hc1 hc2 hf hK
    (fun x hx => ⟨(hff x hx).1, by rw [nrm]; exact (hff x hx).2⟩) hT hB hH blocks state hs
    (fun x hx => ⟨(hfs x hx).1, by rw [nrm]; exact (hfs x hx).2⟩)
    (fun b hb => ⟨(hfx b hb).1, fun x hx => ⟨((hfx b hb).2 x hx).1, by rw [nrm]; exact ((hfx b hb).2 x hx).2⟩⟩)
  refine ⟨y, y1, y2, fun j hj => ⟨(y3 j hj).1, ?_⟩⟩
  have d := (y3 j hj).2
  have hf0 : filter ≠ [] := List.ne_nil_of_length_pos (by omega)
  rw [firOutput_sig _ _ _ (by simpa using hs) (by simpa using hf0) j (by rw [List.length_map]; exact hj), Ola.convAt_ofReal, Ola.convAt_ofReal,
    ← Complex.ofReal_add] at d
  rw [firOutput_sig _ _ _ (by simpa using hs) (by simpa using hf0) j (by rw [List.length_map]; exact hj)]
  simp only [List.length_map] at d ⊢
  change ‖(A.val (sig y j) : ℂ) - _‖ ≤ _ at d
  rw [← Complex.ofReal_sub, Complex.norm_real] at d
  exact d

end

/-! ### the hypotheses can be met -/

namespace PocketF.Example

/-- The signal `1, 2, 3` cut into the blocks `[1, 2]` and `[3]`, filtered with `[1, 1]` in chunks of four `float` samples, starting
from a state holding 1: the filter runs, the state left is the last sample, and the third output is `3 + 2` to within 71. (In `double`
the same bound is below `2 / 10 ^ 7`.) -/
example : ∃ (E : RFftEnv (Bin 24 (-149))) (y : List (Bin 24 (-149))),
    firStream (fun out x s => firFeedOla (fun _ _ => .ok 4) (PocketF.olaPipelineReal E (some (Bin.pack 24 (-149) (1 / 4)))) 4 out x
      [Bin.int 1, Bin.int 1] s) [[Bin.int 1, Bin.int 2], [Bin.int 3]] [Bin.int 1] = .ok (y, [Bin.int 3]) ∧
    y.length = 3 ∧ |fl.val (sig y 2) - 5| ≤ 71 := by
  have hu : fl.u = 2 ^ (-(24 : ℤ)) := rfl
  have htn : fl.tiny = 2 ^ (-150 : ℤ) := by change (2 : ℝ) ^ ((-149 : ℤ) - 1) = _; norm_num
  have hhu : fl.huge = 2 ^ 126 := rfl
  have hdu : db.u = 2 ^ (-(53 : ℤ)) := rfl
  have hlog : Nat.log 2 4 = 2 := by
    rw [Nat.log_eq_iff (by norm_num)]
    norm_num
  have h5 : Smooth5 4 := by
    intro p hp hd
    have hle := Nat.le_of_dvd (by norm_num) hd
    omega
  obtain ⟨-, tw, -, -, t⟩ := C89_twiddle_table db fl ops 2 3 4 (by norm_num) high_ok
      (ops_ok (by norm_num) (by norm_num)) (by rw [hu, htn, hdu]; norm_num)
  have hval : ∀ k : ℕ, fl.val (Bin.int k) = k := by
    intro k
    change (((k : ℤ) : ℝ)) = _
    simp
  have hfin : ∀ k : ℕ, k ≤ 3 → fl.finite (Bin.int k : Bin 24 (-149)) := by
    intro k hk
    have hk' : (k : ℝ) ≤ 3 := by exact_mod_cast hk
    change |(((k : ℤ) : ℝ))| ≤ 2 ^ 128
    simp only [Int.cast_natCast]
    rw [abs_of_nonneg (Nat.cast_nonneg _)]
    refine hk'.trans (by norm_num)
  have v1 := hval 1
  have v2 := hval 2
  have v3 := hval 3
  have f1 := hfin 1 (by norm_num)
  have f2 := hfin 2 (by norm_num)
  have f3 := hfin 3 (by norm_num)
  norm_num at v1 v2 v3
  norm_num at f1 f2 f3
  have g1 : fl.finite (Bin.int 1) ∧ |fl.val (Bin.int 1)| ≤ 3 := ⟨f1, by rw [v1]; norm_num⟩
  have g2 : fl.finite (Bin.int 2) ∧ |fl.val (Bin.int 2)| ≤ 3 := ⟨f2, by rw [v2]; norm_num⟩
  have g3 : fl.finite (Bin.int 3) ∧ |fl.val (Bin.int 3)| ≤ 3 := ⟨f3, by rw [v3]; norm_num⟩
  obtain ⟨p1, p2⟩ := pack_near (p := 24) (emin := -149) (by norm_num) (by norm_num) (x := 1 / 4) (by norm_num)
  obtain ⟨y, e, hl, hy⟩ := C96_real fl 3 3 1 ⟨rlits, tw, fun _ => 0, fun _ => 0⟩ (Bin.int 1) (some (Bin.pack 24 (-149) (1 / 4)))
    (fun _ _ => .ok 4) [Bin.int 1, Bin.int 1] [Bin.int 1] [[Bin.int 1, Bin.int 2], [Bin.int 3]] 4
    ⟨f1, v1⟩ rlits_ok t (by norm_num) h5
    ⟨p1, p2.trans (by rw [abs_of_pos (by norm_num : (0 : ℝ) < 1 / 4), hu]; norm_num)⟩ (by simp) (by simp) (by simp)
    (by
      intro x hx
      simp only [List.mem_cons, List.not_mem_nil, or_false, or_self] at hx
      rcases hx with rfl
      exact ⟨f1, by rw [v1]; norm_num⟩)
    (by
      intro x hx
      simp only [List.mem_cons, List.not_mem_nil, or_false] at hx
      rcases hx with rfl
      exact g1)
    (by
      intro b hb
      simp only [List.mem_cons, List.not_mem_nil, or_false] at hb
      rcases hb with rfl | rfl
      · refine ⟨by simp, fun x hx => ?_⟩
        simp only [List.mem_cons, List.not_mem_nil, or_false] at hx
        rcases hx with rfl | rfl
        · exact g1
        · exact g2
      · refine ⟨by simp, fun x hx => ?_⟩
        simp only [List.mem_cons, List.not_mem_nil, or_false] at hx
        rcases hx with rfl
        exact g3)
    (by rw [hlog, hu]; norm_num) (by rw [hu, htn]; norm_num) (by rw [hhu]; norm_num) (by rw [hu]; norm_num)
    (by rw [hu, htn]; norm_num) (by rw [hu, htn]; norm_num) (by rw [hu, htn]; norm_num)
    (by rw [hlog, htn, hhu]; norm_num) (by rw [hlog, htn, hhu]; norm_num)
    (by rw [hlog, hhu]; norm_num) 6 (114000 * 3 * 3 * 2 ^ (-(24 : ℤ)) * 16 * 3)
    (by norm_num)
    (by rw [hlog, hu]; norm_num)
    (by rw [hu, hhu]; norm_num)
  refine ⟨⟨rlits, tw, fun _ => 0, fun _ => 0⟩, y, e, by simpa using hl, ?_⟩
  · have := (hy 2 (by simp)).2
    rw [hu] at this
    simp only [firOutput, List.map_cons, List.map_nil, v1, v2, v3, sig, Finset.sum_range_succ, List.flatten_cons, List.flatten_nil,
      List.cons_append, List.nil_append, List.append_nil, List.length_cons, List.length_nil, List.range, List.range.loop] at this
    norm_num at this ⊢
    refine this.trans (by norm_num)

end PocketF.Example

end Verif
