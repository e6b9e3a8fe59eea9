import Verif.Lemmas.Resample
import Verif.Props.Polyphase
import Verif.Props.Convolution

/-!
# Properties C30, C31, C33 (interpolation) and C34 (interpolation): decimation, expansion, interpolation
-/

set_option linter.unusedSectionVars false
set_option linter.unusedSimpArgs false

namespace Verif
open Finset

section
variable {R : Type} [CommRing R]

/-- **C30**: decimation keeps the samples `0, r, 2r, …`; the number of them is `⌈size / r⌉`, and any other output size is
refused. -/
theorem C30_decimate (out input : List R) (r : ℕ) (hr : 0 < r) :
    (out.length * r < input.length + r → input.length ≤ out.length * r →
      decimate out input r = .ok ((List.range out.length).map (fun k => sig input (k * r)))) ∧
    (¬ (out.length * r < input.length + r ∧ input.length ≤ out.length * r) → decimate out input r = .assertFail) := by
  have key : out.length = (input.length + r - 1) / r ↔ (out.length * r < input.length + r ∧ input.length ≤ out.length * r) := by
    constructor
    · intro h
      rw [h]
      have e := Nat.div_add_mod (input.length + r - 1) r
      have hm := Nat.mod_lt (input.length + r - 1) hr
      rw [mul_comm] at e
      constructor <;> omega
    · rintro ⟨h1, h2⟩
      symm
      rw [Nat.div_eq_iff hr]
      constructor <;> omega
  constructor
  · intro h1 h2
    obtain ⟨y, e1, e2, e3⟩ := decimate_spec out input r hr (key.2 ⟨h1, h2⟩)
    rw [e1]
    congr 1
    apply list_ext_sig
    · simpa using e2
    · intro i hi
      rw [e3 i (by omega)]
      have : (List.range out.length).map (fun k => sig input (k * r)) = reg out.length (fun k => sig input (k * r)) := rfl
      rw [this, sig_reg, if_pos (by omega)]
  · intro h
    unfold decimate
    rw [if_neg hr.ne', cassert, if_neg (fun e => h (key.1 e))]
    rfl

/-- **C30**: expansion inserts `r - 1` zeros after every sample; other output sizes are refused. -/
theorem C30_expand (out input : List R) (r : ℕ) (hr : 0 < r) :
    (out.length = input.length * r → expand out input r = .ok (zeroStuffed input r)) ∧
    (out.length ≠ input.length * r → expand out input r = .assertFail) := by
  refine ⟨expand_spec out input r hr, fun h => ?_⟩
  unfold expand
  rw [cassert, if_neg h]
  rfl

/-- **C30**: decimating what was expanded at the same rate gives the signal back. -/
theorem C30_roundtrip (x : List R) (r : ℕ) (hr : 0 < r) :
    (do let y ← expandAlloc x r; decimateAlloc y r) = .ok x := by
  unfold expandAlloc
  rw [expand_spec _ _ _ hr (by simp), Out.ok_bind]
  unfold decimateAlloc
  rw [if_neg hr.ne']
  have hl : ((zeroStuffed x r).length + r - 1) / r = x.length := by
    rw [zeroStuffed_length, show x.length * r + r - 1 = (r - 1) + x.length * r by omega, Nat.add_mul_div_right _ _ hr,
      Nat.div_eq_of_lt (by omega), zero_add]
  obtain ⟨y, e1, e2, e3⟩ := decimate_spec (List.replicate (((zeroStuffed x r).length + r - 1) / r) 0) (zeroStuffed x r) r hr
    (by simp)
  rw [e1]
  congr 1
  rw [List.length_replicate, hl] at e2 e3
  apply list_ext_sig e2
  intro i hi
  rw [e3 i (by omega), sig_zeroStuffed _ _ _ hr, if_pos (Nat.mul_mod_left _ _), Nat.mul_div_cancel _ hr]

/-- A zero rate is undefined behaviour: division by zero, respectively a write past the (empty) output. -/
theorem C30_zero_rate (x : List R) (hx : x ≠ []) (out : List R) : decimate out x 0 = .ub ∧ expandAlloc x 0 = .ub := by
  refine ⟨rfl, ?_⟩
  unfold expandAlloc expand
  rw [cassert_true (by simp), Out.ok_bind]
  obtain ⟨a, t, rfl⟩ := List.exists_cons_of_ne_nil hx
  have key : ∀ m, forN (m + 1) (fun k (s : List R × Nat) => do
      let x ← rd (a :: t) (k : Int)
      let out ← wr s.1 (s.2 : Int) x
      forN (0 - 1) (fun _ (s : List R × Nat) => do
        let out ← wr s.1 (s.2 : Int) 0
        pure (out, s.2 + 1)) (out, s.2 + 1)) (List.replicate ((a :: t).length * 0) 0, 0) = .ub := by
    intro m
    induction m with
    | zero =>
      simp only [forN, Out.ok_bind]
      rw [rd_sig (by omega) (by simp), Out.ok_bind]
      simp [wr]
    | succ m ih => rw [forN, ih]; rfl
  rw [show (a :: t).length = t.length + 1 by simp] at *
  rw [key]
  rfl

example : decimateAlloc [(1 : ℤ), 2, 3, 4, 5, 6, 7] 3 = .ok [1, 4, 7] ∧ expandAlloc [(1 : ℤ), 2] 3 = .ok [1, 0, 0, 2, 0, 0] := by
  decide +kernel

/-! ### C31 -/

theorem upsampleAt_map (x h : List R) (c : R) (P n : ℕ) :
    upsampleAt x (h.map (fun a => c * a)) P n = c * upsampleAt x h P n := by
  unfold upsampleAt
  rw [mul_sum]
  apply sum_congr rfl
  intro i _
  have : sigI (h.map (fun a => c * a)) ((n : ℤ) - i * P) = c * sigI h ((n : ℤ) - i * P) := by
    unfold sigI
    split
    · rw [sig_map_zero _ (mul_zero _)]
    · rw [mul_zero]
  rw [this]; ring

/-- **C31**, first half: interpolating `x` with the `P`-phase decomposition of `h` computes, at every output position that some
input sample reaches, `P` times the convolution of the zero-stuffed input with `h`.  Missing for the full claim: positions that
no input sample reaches are not written (they should be zero); see `C31_unreached_unwritten` and `C31_stale_wrong`. -/
theorem C31_interpolate_partial {dot : List R → List R → Out R} (hd : IsDot dot) (out x h : List R) (P : ℕ) (hP : 0 < P) (off : ℕ)
    (hmax : off + out.length ≤ interpolLengthFull x.length h.length P) :
    ∃ v y sp, polyphaseDecomposeAlloc h P = .ok v ∧ interpolate dot out x v off = .ok (y, sp) ∧ y.length = out.length ∧
      ∀ k < out.length, (∃ i < x.length, i * P ≤ off + k ∧ off + k < i * P + h.length) →
        sig y k = P * convAt (zeroStuffed x P) h (off + k) := by
  obtain ⟨v, e1, e2⟩ := decompose_represents (output := List.replicate h.length 0) (h := h) (P := P) (by simp)
  obtain ⟨y, sp, f1, f2, f3, f4⟩ := interpolate_spec hd out x _ v P e2 hP off (by rwa [List.length_map])
  refine ⟨v, y, sp, e1, f1, f3, ?_⟩
  intro k hk ht
  rw [List.length_map] at f4
  rw [(f4 k hk).1 ht, upsampleAt_map, upsampleAt_eq_conv _ _ _ _ hP]

/-- Positions that no input sample reaches keep what the output buffer held before the call (any polyphase filter). -/
theorem C31_unreached_unwritten {dot : List R → List R → Out R} (hd : IsDot dot) (out x : List R) (v : PolyphaseView R)
    (hP : 0 < v.numPhases) (off : ℕ) (hmax : off + out.length ≤ interpolLengthFull x.length v.sizeOriginal v.numPhases) :
    ∃ y sp, interpolate dot out x v off = .ok (y, sp) ∧
      ∀ k < out.length, (¬ ∃ i < x.length, i * v.numPhases ≤ off + k ∧ off + k < i * v.numPhases + v.sizeOriginal) →
        sig y k = sig out k := by
  obtain ⟨h, hr⟩ := represents_exists v hP
  have hl : h.length = v.sizeOriginal := hr.2.1.symm
  obtain ⟨y, sp, f1, f2, f3, f4⟩ := interpolate_spec hd out x h v _ hr hP off (by rw [hl]; exact hmax)
  refine ⟨y, sp, f1, fun k hk ht => (f4 k hk).2 ?_⟩
  rw [hl]
  exact ht

/-- With more than one phase, the last position that the library advertises for a full interpolation is always such a position. -/
theorem C31_last_unreached (N F P : ℕ) (hN : 0 < N) (hF : 0 < F) (hP : 2 ≤ P) :
    0 < interpolLengthFull N F P ∧
    ¬ ∃ i < N, i * P ≤ interpolLengthFull N F P - 1 ∧ interpolLengthFull N F P - 1 < i * P + F := by
  have h1 : N * P ≠ 0 := by positivity
  have e : interpolLengthFull N F P = N * P + F - 1 := by
    unfold interpolLengthFull convLengthFull
    rw [if_neg (by omega)]
    omega
  have hNP : 0 < N * P := by positivity
  refine ⟨by omega, ?_⟩
  rintro ⟨i, hi, h2, h3⟩
  have : (i + 1) * P ≤ N * P := Nat.mul_le_mul_right _ hi
  rw [add_mul] at this
  omega

/-- The code violates C31 in its in-place form: stale data of the output buffer survives where the result should be zero. -/
theorem C31_stale_wrong : ∃ v y sp, polyphaseDecomposeAlloc [(1 : ℤ), 1] 2 = .ok v ∧
    interpolate (fun a b => .ok (List.zipWith (· * ·) a b).sum) [7, 7, 7, 7, 7] [(1 : ℤ), 2] v 0 = .ok (y, sp) ∧
    y = [2, 2, 4, 4, 7] ∧ convAt (zeroStuffed [(1 : ℤ), 2] 2) [1, 1] 4 = 0 :=
  ⟨⟨[2, 2], 2⟩, [2, 2, 4, 4, 7], ⟨2, 1⟩, by decide +kernel⟩

/-- **C31**, second half: the allocating form is right everywhere: it returns `P` times the convolution of the zero-stuffed
input with the prototype, on the requested range. -/
theorem C31_interpolateAlloc {dot : List R → List R → Out R} (hd : IsDot dot) (x h : List R) (P : ℕ) (hP : 0 < P) (off len : ℕ) :
    ∃ v, polyphaseDecomposeAlloc h P = .ok v ∧
      (off + len ≤ interpolLengthFull x.length h.length P → interpolateAlloc dot x v off len =
        .ok ((List.range len).map (fun k => (P : R) * convAt (zeroStuffed x P) h (off + k)))) ∧
      (interpolLengthFull x.length h.length P < off + len → interpolateAlloc dot x v off len = .assertFail) := by
  obtain ⟨v, e1, e2⟩ := decompose_represents (output := List.replicate h.length 0) (h := h) (P := P) (by simp)
  refine ⟨v, e1, fun hmax => ?_, fun hmax => ?_⟩
  · obtain ⟨y, sp, f1, f2, f3, f4⟩ := interpolate_spec hd (List.replicate len 0) x _ v P e2 hP off (by
      rwa [List.length_map, List.length_replicate])
    unfold interpolateAlloc
    rw [f1, Out.ok_bind, Out.pure_def]
    congr 1
    rw [List.length_replicate] at f3 f4
    apply list_ext_sig
    · simpa using f3
    · intro i hi
      simp only at hi ⊢
      rw [show (List.range len).map (fun k => (P : R) * convAt (zeroStuffed x P) h (off + k)) =
        reg len (fun k => (P : R) * convAt (zeroStuffed x P) h (off + k)) from rfl, sig_reg, if_pos (by omega),
        ← upsampleAt_eq_conv _ _ _ _ hP, ← upsampleAt_map]
      by_cases ht : Touches x.length (h.map (fun a => (P : R) * a)).length P (off + i)
      · rw [(f4 i (by omega)).1 ht]
      · rw [(f4 i (by omega)).2 ht, upsampleAt_untouched _ _ _ _ ht, replicate_reg, sig_reg]
        split <;> rfl
  · unfold interpolateAlloc interpolate
    have hv : v.filterCount = P := e2.1
    have hl : v.buffer.length = h.length := by have := e2.2.1; rwa [List.length_map] at this
    obtain ⟨S, hS1, hS2⟩ := sizePerPhase_ok v (by omega)
    rw [hS1, Out.ok_bind]
    simp only [PolyphaseView.numPhases, PolyphaseView.sizeOriginal, hv, hl, List.length_replicate]
    rw [cassert, if_neg (by omega)]
    rfl

/-- **C31** end to end: interpolating with the `P`-phase decomposition of `h` is the same as expanding by `P` and convolving in full
with `P` times `h`, with the library's own functions, for every register width and dot product implementation. -/
theorem C31_expand_convolve {dot : List R → List R → Out R} (hd : IsDot dot) (vec : Bool) (W : ℕ) (hW : 0 < W) (junk : List R)
    (hj : junk.length = if vec then W else 1) (x h : List R) (P : ℕ) (hP : 0 < P) :
    ∃ v, polyphaseDecomposeAlloc h P = .ok v ∧
      interpolateAlloc dot x v 0 (interpolLengthFull x.length h.length P) =
      (do let e ← expandAlloc x P
          convolutionAllocFull vec W junk e (h.map (fun a => (P : R) * a))) := by
  obtain ⟨v, e1, e2, e3⟩ := C31_interpolateAlloc hd x h P hP 0 (interpolLengthFull x.length h.length P)
  refine ⟨v, e1, ?_⟩
  rw [e2 (by omega)]
  unfold expandAlloc
  rw [expand_spec _ _ _ hP (by simp), Out.ok_bind, (C14_full vec W hW junk hj _ _).1, zeroStuffed_length, List.length_map]
  congr 1
  apply List.map_congr_left
  intro k _
  rw [zero_add, ← upsampleAt_eq_conv _ _ _ _ hP, ← upsampleAt_eq_conv _ _ _ _ hP, upsampleAt_map]

/-- The model of `DotProduct` qualifies as `dot` in the theorems above. -/
theorem dotProduct_isDot (vec : Bool) (W : Nat) (hW : 0 < W) (red₁ red₂ : Reducer R) (h₁ : IsReduction red₁)
    (h₂ : IsReduction red₂) : IsDot (dotProduct vec W red₁ red₂ (fun a b : R => a * b)) :=
  fun a b h => (C10_dotProduct vec W hW red₁ red₂ h₁ h₂ a b).1 h

/-! ### C33: streaming interpolation -/

/-- A client that feeds a stream in chunks.  Each step gets a chunk of input and the number of outputs to produce from what
has been received so far; after each call it drops the input samples reported as consumed and continues from the reported start
point. -/
def interpolStream (dot : List R → List R → Out R) (v : PolyphaseView R) : List (List R × ℕ) → List R → ℕ → Out (List R)
  | [], _, _ => .ok []
  | (chunk, len) :: rest, buffer, start => do
    let buffer := buffer ++ chunk
    let r ← interpolate dot (List.replicate len 0) buffer v start
    let ys ← interpolStream dot v rest (buffer.drop r.2.firstInputSample) r.2.startPoint
    pure (r.1 ++ ys)

/-- At no time are more outputs requested than `P` times the number of inputs received so far. -/
def Causal (P : ℕ) : List (List R × ℕ) → ℕ → ℕ → Prop
  | [], _, _ => True
  | (chunk, len) :: rest, received, produced =>
    produced + len ≤ (received + chunk.length) * P ∧ Causal P rest (received + chunk.length) (produced + len)

theorem upsampleAt_prefix (x e h : List R) (P n : ℕ) (hn : n < x.length * P) : upsampleAt (x ++ e) h P n = upsampleAt x h P n := by
  unfold upsampleAt
  rw [List.length_append]
  symm
  have hs : ∀ i < x.length, sig (x ++ e) i = sig x i := by
    intro i hi
    unfold sig
    simp [List.getD_eq_getElem?_getD, List.getElem?_append_left hi]
  rw [← sum_subset (show range x.length ⊆ range (x.length + e.length) by intro i; simp only [mem_range]; omega)]
  · apply sum_congr rfl
    intro i hi
    rw [hs i (mem_range.1 hi)]
  · intro i _ hi
    rw [mem_range, not_lt] at hi
    have := Nat.mul_le_mul_right P hi
    have h2 : (n : ℤ) < (i : ℤ) * P := by exact_mod_cast lt_of_lt_of_le hn this
    rw [sigI_neg (by omega), mul_zero]

theorem upsampleAt_drop (x h : List R) (P n d : ℕ) (hd : d = 0 ∨ d * P + h.length ≤ n + P) (hle : d * P ≤ n) :
    upsampleAt (x.drop d) h P (n - d * P) = upsampleAt x h P n := by
  unfold upsampleAt
  have hs : ∀ i, sig (x.drop d) i = sig x (d + i) := by
    intro i
    unfold sig
    simp [List.getD_eq_getElem?_getD]
  have hz : ∀ i < d, sigI h ((n : ℤ) - i * P) = 0 := by
    intro i hi
    apply sigI_ge
    have := Nat.mul_le_mul_right P (show i + 1 ≤ d from hi)
    rw [add_mul] at this
    have h2 : i * P + h.length ≤ n := by omega
    have h3 : (i : ℤ) * P + h.length ≤ n := by exact_mod_cast h2
    omega
  by_cases hx : d ≤ x.length
  · obtain ⟨m, hm⟩ : ∃ m, x.length = d + m := ⟨x.length - d, by omega⟩
    rw [List.length_drop, hm, sum_range_add, Nat.add_sub_cancel_left]
    rw [sum_eq_zero (s := range d) (fun i hi => by rw [hz i (mem_range.1 hi), mul_zero]), zero_add]
    apply sum_congr rfl
    intro i _
    rw [hs]
    congr 2
    push_cast [hle]
    ring
  · rw [List.length_drop, show x.length - d = 0 by omega]
    rw [sum_range_zero, sum_eq_zero]
    intro i hi
    rw [mem_range] at hi
    rw [hz i (by omega), mul_zero]

/-- What the suspension point promises. -/
theorem suspension_spec (next F P : ℕ) (hF : 0 < F) (hP : 0 < P) :
    ∃ sp, findInterpolSuspensionPoint next F P = .ok sp ∧ sp.firstInputSample * P + sp.startPoint = next ∧
      (sp.firstInputSample = 0 ∨ sp.firstInputSample * P + F ≤ next + 1) := by
  unfold findInterpolSuspensionPoint
  simp only
  by_cases h : (next : ℤ) - ((F : ℤ) - 1) < 0
  · rw [if_pos h]
    exact ⟨_, rfl, by simp, .inl rfl⟩
  · rw [if_neg h, if_neg hP.ne']
    have e := Nat.div_mul_le_self ((next : ℤ) - ((F : ℤ) - 1)).toNat P
    refine ⟨_, rfl, ?_, .inr ?_⟩
    · simp only
      rw [mul_comm P]
      obtain ⟨m, hm⟩ : ∃ m, m = ((next : ℤ) - ((F : ℤ) - 1)).toNat / P * P := ⟨_, rfl⟩
      rw [← hm] at e ⊢
      rw [toSize_nonneg (by omega)]
      omega
    · simp only
      omega

/-- **C33**, interpolation: cutting a stream into arbitrary chunks, and asking for arbitrarily many of the outputs determined so far
after each chunk, yields exactly the samples of the interpolation of the whole stream.  For any polyphase filter with at least one
tap. -/
theorem C33_interpolation_seamless {dot : List R → List R → Out R} (hd : IsDot dot) (v : PolyphaseView R) (P : ℕ) (h : List R)
    (hr : v.Represents P h) (hP : 0 < P) (hF : 0 < h.length) (calls : List (List R × ℕ)) (hc : Causal P calls 0 0) :
    interpolStream dot v calls [] 0 =
      .ok ((List.range (calls.map Prod.snd).sum).map (upsampleAt (calls.flatMap Prod.fst) h P)) := by
  have key : ∀ (calls : List (List R × ℕ)) (x : List R) (d n : ℕ), Causal P calls x.length n → d ≤ x.length → d * P ≤ n →
      (d = 0 ∨ d * P + h.length ≤ n + 1) →
      interpolStream dot v calls (x.drop d) (n - d * P) =
      .ok ((List.range (calls.map Prod.snd).sum).map (fun k => upsampleAt (x ++ calls.flatMap Prod.fst) h P (n + k))) := by
    intro calls
    induction calls with
    | nil => intro x d n _ _ _ _; rfl
    | cons c rest ih =>
      obtain ⟨chunk, len⟩ := c
      intro x d n hca hdx hdn hdF
      obtain ⟨hc1, hc2⟩ := hca
      unfold interpolStream
      simp only
      have hbuf : x.drop d ++ chunk = (x ++ chunk).drop d := by rw [List.drop_append_of_le_length hdx]
      rw [hbuf]
      have hmul : d * P ≤ x.length * P := Nat.mul_le_mul_right _ hdx
      have hlen : ((x ++ chunk).drop d).length * P = (x.length + chunk.length) * P - d * P := by
        rw [List.length_drop, List.length_append, Nat.sub_mul]
      have hmax : n - d * P + (List.replicate len (0 : R)).length ≤
          interpolLengthFull ((x ++ chunk).drop d).length h.length P := by
        rw [List.length_replicate]
        unfold interpolLengthFull convLengthFull
        rw [hlen]
        split
        · omega
        · omega
      obtain ⟨y, sp, f1, f2, f3, f4⟩ := interpolate_spec hd (List.replicate len 0) ((x ++ chunk).drop d) h v P hr hP (n - d * P) hmax
      rw [f1, Out.ok_bind]
      simp only
      rw [List.length_replicate] at f2 f3 f4
      obtain ⟨sp', g1, g2, g3⟩ := suspension_spec (n - d * P + len) h.length P hF hP
      rw [f2] at g1
      injection g1 with g1
      subst g1
      rw [List.drop_drop]
      have hstart : sp.startPoint = (n + len) - (d + sp.firstInputSample) * P := by rw [add_mul]; omega
      rw [hstart]
      have hmul2 : (d + sp.firstInputSample) * P ≤ (x.length + chunk.length) * P := by rw [add_mul]; omega
      rw [ih (x ++ chunk) (d + sp.firstInputSample) (n + len) (by rw [List.length_append]; exact hc2)
        (by rw [List.length_append]; exact Nat.le_of_mul_le_mul_right hmul2 hP) (by rw [add_mul]; omega)
        (by
          rcases g3 with g3 | g3
          · rw [g3, add_zero]
            omega
          · right; rw [add_mul]; omega)]
      rw [Out.ok_bind, Out.pure_def]
      congr 1
      have hy : y = (List.range len).map (fun k => upsampleAt (x ++ (chunk ++ rest.flatMap Prod.fst)) h P (n + k)) := by
        apply list_ext_sig
        · simpa using f3
        · intro i hi
          rw [show (List.range len).map (fun k => upsampleAt (x ++ (chunk ++ rest.flatMap Prod.fst)) h P (n + k)) =
            reg len (fun k => upsampleAt (x ++ (chunk ++ rest.flatMap Prod.fst)) h P (n + k)) from rfl, sig_reg, if_pos (by omega)]
          rw [← List.append_assoc, upsampleAt_prefix _ _ _ _ _ (by rw [List.length_append]; omega),
            ← upsampleAt_drop (x ++ chunk) h P (n + i) d (by omega) (by omega), show n + i - d * P = n - d * P + i by omega]
          by_cases ht : Touches ((x ++ chunk).drop d).length h.length P (n - d * P + i)
          · rw [(f4 i (by omega)).1 ht]
          · rw [(f4 i (by omega)).2 ht, upsampleAt_untouched _ _ _ _ ht, replicate_reg, sig_reg]
            split <;> rfl
      rw [hy]
      simp only [List.map_cons, List.sum_cons, List.flatMap_cons]
      rw [List.range_add, List.map_append, List.map_map]
      congr 1
      apply List.map_congr_left
      intro k _
      simp only [Function.comp, List.append_assoc]
      congr 1
      omega
  have := key calls [] 0 0 hc (by simp) (by simp) (.inl rfl)
  simpa using this

/-- Non-vacuity of C33 and C31: a stream cut in three pieces, three-phase filter. -/
example : ∃ v, polyphaseDecomposeAlloc [(1 : ℤ), 2, 3, 4, 5] 3 = .ok v ∧
    Causal (R := ℤ) 3 [([1, 2], 5), ([3], 4), ([], 0)] 0 0 ∧
    interpolStream (fun a b => .ok (List.zipWith (· * ·) a b).sum) v [([1, 2], 5), ([3], 4), ([], 0)] [] 0 =
      .ok [3, 6, 9, 18, 27, 18, 33, 48, 27] :=
  ⟨⟨[12, 3, 15, 6, 9], 3⟩, by decide +kernel, by simp [Causal], by decide +kernel⟩

/-! ### C34: advertised lengths -/

/-- **C34**, interpolation: producing all of the advertised full length never fails, and the advertised length is exactly the number
of samples of the convolution of the zero-stuffed signal with the filter: everything beyond is zero. -/
theorem C34_interpolation {dot : List R → List R → Out R} (hd : IsDot dot) (x h : List R) (v : PolyphaseView R) (P : ℕ)
    (hr : v.Represents P h) (hP : 0 < P) :
    (∃ y, interpolateAlloc dot x v 0 (interpolLengthFull x.length h.length P) = .ok y ∧
      y.length = interpolLengthFull x.length h.length P) ∧
    (∀ n, interpolLengthFull x.length h.length P ≤ n → upsampleAt x h P n = 0) ∧
    (∀ off len, off + len ≤ interpolLengthFull x.length h.length P → ∃ y, interpolateAlloc dot x v off len = .ok y ∧ y.length = len) := by
  have key : ∀ off len, off + len ≤ interpolLengthFull x.length h.length P →
      ∃ y, interpolateAlloc dot x v off len = .ok y ∧ y.length = len := by
    intro off len hm
    obtain ⟨y, sp, f1, f2, f3, f4⟩ := interpolate_spec hd (List.replicate len 0) x h v P hr hP off (by rwa [List.length_replicate])
    refine ⟨y, ?_, by simpa using f3⟩
    unfold interpolateAlloc
    rw [f1]; rfl
  refine ⟨key 0 _ (by omega), ?_, key⟩
  intro n hn
  rw [upsampleAt_eq_conv _ _ _ _ hP]
  apply convAt_beyond
  rw [zeroStuffed_length]
  exact hn

/-- **C34**, the central length: the output samples in which the shorter of filter and upsampled signal lies completely inside the longer
one.  They are inside the full output, and asking for them never fails. -/
theorem C34_interpolation_central {dot : List R → List R → Out R} (hd : IsDot dot) (x h : List R) (v : PolyphaseView R) (P : ℕ)
    (hr : v.Represents P h) (hP : 0 < P) (hx : 0 < x.length) (hh : 0 < h.length) :
    (∀ n, (min h.length (x.length * P) - 1 ≤ n ∧ n < min h.length (x.length * P) - 1 + interpolLengthCentral x.length h.length P) ↔
      (∀ j, j < min h.length (x.length * P) → j ≤ n) ∧ n < max h.length (x.length * P)) ∧
    ∃ y, interpolateAlloc dot x v (min h.length (x.length * P) - 1) (interpolLengthCentral x.length h.length P) = .ok y ∧
      y.length = interpolLengthCentral x.length h.length P := by
  have hxp : 0 < x.length * P := Nat.mul_pos hx hP
  obtain ⟨N, hN⟩ : ∃ N, N = x.length * P := ⟨_, rfl⟩
  rw [← hN] at hxp
  have hc : interpolLengthCentral x.length h.length P = max h.length N - min h.length N + 1 := by
    rw [interpolLengthCentral, ← hN]
    have := (C14_lengths N h.length hxp hh).2
    rw [this]; omega
  constructor
  · intro n
    rw [hc, ← hN]
    constructor
    · rintro ⟨h1, h2⟩
      exact ⟨fun j hj => by omega, by omega⟩
    · rintro ⟨h1, h2⟩
      have := h1 (min h.length N - 1) (by omega)
      exact ⟨this, by omega⟩
  · refine (C34_interpolation hd x h v P hr hP).2.2 _ _ ?_
    have : interpolLengthFull x.length h.length P = N + h.length - 1 := by
      rw [interpolLengthFull, ← hN]
      exact (C14_lengths N h.length hxp hh).1
    rw [this, hc, ← hN]; omega

end
end Verif
