import Verif.Props.RoundedStatistics
import Verif.Props.FirRounded
import Verif.Lemmas.ResampleFloat
import Verif.Lemmas.PolyphaseAny

/-!
# C88: interpolation and resampling in floating point

`A : FloatArithFun F` says that `F` is a floating point type (Verif/Spec/FloatArith.lean), `c : KernOf F` is the machine that computes dot
products.  `upsampleAt x h P n` is sample `n` of the zero-stuffed signal filtered by `h` (Verif/Spec/Resample.lean), applied to the exact
values of samples and taps, or to their magnitudes.
-/

set_option linter.unusedSimpArgs false
set_option linter.unusedSectionVars false

namespace Verif
open Finset Rational

section
variable {F : Type} [Zero F] [Add F] [Sub F] [Mul F] [Fma F] [Div F] [FloatFun F] (A : FloatArithFun F) (c : KernOf F)

/-- the exact sample -/
noncomputable def upExact (x h : List F) (P n : ℕ) : ℝ := upsampleAt (x.map A.val) (h.map A.val) P n

/-- what becomes of the magnitudes -/
noncomputable def upMagnitude (x h : List F) (P n : ℕ) : ℝ :=
  upsampleAt (x.map fun a => |A.val a|) (h.map fun a => |A.val a|) P n

/-- the bound on the error of one output sample, `T` being the length of the longest phase -/
noncomputable def upError (x h : List F) (P n : ℕ) : ℝ :=
  ((1 + A.u) ^ ((h.length + P - 1) / P + 1) - 1) * upMagnitude A x h P n +
    ((h.length + P - 1) / P : ℕ) * (1 + A.u) ^ ((h.length + P - 1) / P) * A.tiny

/-- what the dot product of this machine is -/
def dotOf (a b : List F) : Out F := dotProduct c.vec c.W c.red₁ c.red₂ (fun a b => a * b) a b

private theorem sigI_map (f : F → ℝ) (f0 : f 0 = 0) (l : List F) (k : ℤ) : sigI (l.map f) k = f (sigI l k) := by
  have : ∀ i : ℕ, sig (l.map f) i = f (sig l i) := by
    intro i
    unfold sig
    simp only [List.getD_eq_getElem?_getD, List.getElem?_map]
    cases l[i]? <;> simp [f0]
  by_cases hk : 0 ≤ k
  · obtain ⟨i, rfl⟩ := Int.eq_ofNat_of_zero_le hk
    rw [sigI_nat, sigI_nat, this]
  · rw [sigI_neg (by omega), sigI_neg (by omega), f0]

theorem upMagnitude_nonneg (x h : List F) (P n : ℕ) : 0 ≤ upMagnitude A x h P n := by
  unfold upMagnitude upsampleAt
  refine sum_nonneg fun i _ => mul_nonneg ?_ ?_
  · unfold sig
    simp only [List.getD_eq_getElem?_getD, List.getElem?_map]
    cases x[i]? <;> simp
  · rw [sigI_map _ (by simp [A.val_zero])]
    exact abs_nonneg _

theorem upExact_abs_le (x h : List F) (P n : ℕ) : |upExact A x h P n| ≤ upMagnitude A x h P n := by
  unfold upMagnitude upExact upsampleAt
  simp only [List.length_map]
  refine (abs_sum_le_sum_abs _ _).trans (sum_le_sum fun i _ => ?_)
  rw [sigI_map _ A.val_zero, sigI_map _ (by simp [A.val_zero]), abs_mul]
  have : ∀ i : ℕ, |sig (x.map A.val) i| = sig (x.map fun a => |A.val a|) i := by
    intro i
    unfold sig
    simp only [List.getD_eq_getElem?_getD, List.getElem?_map]
    cases x[i]? <;> simp
  rw [this]

/-- One dot product. -/
private theorem dot_slices (hc : c.Valid) {v : PolyphaseView F} {P : ℕ} {x h : List F} (hr : v.Represents P h) (hP : 0 < P) (n : ℕ)
    (hle : sliceIn h.length P n ≤ min x.length (n / P + 1)) (hx : ∀ a ∈ x, A.finite a) (hh : ∀ a ∈ h, A.finite a)
    (hb : upMagnitude A x h P n + upError A x h P n ≤ A.huge) :
    ∃ r, dotOf c (inSlice x h.length P n) (tapSlice x v h.length P n) = .ok r ∧ A.finite r ∧
      |A.val r - upExact A x h P n| ≤ upError A x h P n := by
  have hu0 := A.u_nonneg
  have ht0 := A.tiny_nonneg
  obtain ⟨l1, l2⟩ := slice_lengths (x := x) hr hP n hle
  have hlen := sliceLen_le x.length h.length P n hP
  have e1 := slices_sum (x := x) hr hP n hle A.val A.val_zero
  have e2 := slices_sum (x := x) hr hP n hle (fun a => |A.val a|) (by simp [A.val_zero])
  have hm0 := upMagnitude_nonneg A x h P n
  obtain ⟨T, hT⟩ : ∃ T, T = (h.length + P - 1) / P := ⟨_, rfl⟩
  obtain ⟨L, hL⟩ : ∃ L, L = sliceLen x.length h.length P n := ⟨_, rfl⟩
  rw [← hT, ← hL] at hlen
  have hone : 1 ≤ 1 + A.u := by linarith
  have p1 : (1 + A.u) ^ (L + 1) ≤ (1 + A.u) ^ (T + 1) := pow_le_pow_right₀ hone (by omega)
  have p2 : (1 + A.u) ^ L ≤ (1 + A.u) ^ T := pow_le_pow_right₀ hone hlen
  have p3 : (L : ℝ) * (1 + A.u) ^ L * A.tiny ≤ T * (1 + A.u) ^ T * A.tiny := by
    apply mul_le_mul_of_nonneg_right _ ht0
    exact mul_le_mul (by exact_mod_cast hlen) p2 (by positivity) (by positivity)
  have hz : (List.zipWith (fun a b => |A.val a * A.val b|) (inSlice x h.length P n) (tapSlice x v h.length P n)).sum =
      upMagnitude A x h P n := by
    rw [upMagnitude, ← e2]
    congr 2
    funext a b
    rw [abs_mul]
  have q1 := mul_le_mul_of_nonneg_right p1 hm0
  unfold upError at hb ⊢
  rw [← hT] at hb ⊢
  obtain ⟨r, r1, r2, r3⟩ := C73_dotProduct A c hc (inSlice x h.length P n) (tapSlice x v h.length P n) (by rw [l1, l2])
    (fun a ha => hx a (List.mem_of_mem_drop (List.mem_of_mem_take ha)))
    (fun a ha => by
      have h1 := List.mem_of_mem_drop (List.mem_of_mem_take ha)
      have h2 := hr.2.2 (n % P) (Nat.mod_lt n hP)
      rw [phase_ok v (by have := hr.1; unfold PolyphaseView.numPhases at this; rw [this]; exact Nat.mod_lt n hP)] at h2
      injection h2 with h2
      rw [h2, List.mem_reverse] at h1
      unfold tapsOfPhase at h1
      rw [List.mem_map] at h1
      obtain ⟨j, hj, rfl⟩ := h1
      rw [List.mem_filter, List.mem_range] at hj
      rw [sig_of_lt hj.1]
      exact hh _ (List.getElem_mem _))
    (by rw [hz, l1, ← hL]; linarith)
  refine ⟨r, r1, r2, ?_⟩
  rw [hz, l1, ← hL, e1] at r3
  refine r3.trans ?_
  have : ((1 + A.u) ^ (L + 1) - 1) * upMagnitude A x h P n ≤ ((1 + A.u) ^ (T + 1) - 1) * upMagnitude A x h P n :=
    mul_le_mul_of_nonneg_right (by linarith) hm0
  linarith

/-- **C88** interpolation: every output sample that some input sample reaches is the exact one up to the rounding of one dot product as long
as a phase of the filter; the others keep what the output buffer held. -/
theorem C88_interpolate (hc : c.Valid) (v : PolyphaseView F) (P : ℕ) (hP : 0 < P) (x h out : List F) (hr : v.Represents P h) (off : ℕ)
    (hmax : off + out.length ≤ interpolLengthFull x.length h.length P)
    (hx : ∀ a ∈ x, A.finite a) (hh : ∀ a ∈ h, A.finite a)
    (hb : ∀ k < out.length, upMagnitude A x h P (off + k) + upError A x h P (off + k) ≤ A.huge) :
    ∃ y sp, interpolate (dotOf c) out x v off = .ok (y, sp) ∧ y.length = out.length ∧
      ∀ k < out.length,
        ((∃ i < x.length, i * P ≤ off + k ∧ off + k < i * P + h.length) →
          A.finite (sig y k) ∧ |A.val (sig y k) - upExact A x h P (off + k)| ≤ upError A x h P (off + k)) ∧
        ((¬ ∃ i < x.length, i * P ≤ off + k ∧ off + k < i * P + h.length) → sig y k = sig out k) := by
  obtain ⟨y, sp, h1, -, h3, h4⟩ := interpolate_slices (x := x) (dotOf c)
    (fun n r => A.finite r ∧ |A.val r - upExact A x h P n| ≤ upError A x h P n) out hr hP off hmax
    (fun n hn1 hn2 _ hle => by
      have := hb (n - off) (by omega)
      rw [Nat.add_sub_cancel' hn1] at this
      exact dot_slices A c hc hr hP n hle hx hh this)
  exact ⟨y, sp, h1, h3, h4⟩

/-- ... so the allocating form is right everywhere. -/
theorem C88_interpolateAlloc (hc : c.Valid) (v : PolyphaseView F) (P : ℕ) (hP : 0 < P) (x h : List F) (hr : v.Represents P h) (off len : ℕ)
    (hmax : off + len ≤ interpolLengthFull x.length h.length P)
    (hx : ∀ a ∈ x, A.finite a) (hh : ∀ a ∈ h, A.finite a)
    (hb : ∀ k < len, upMagnitude A x h P (off + k) + upError A x h P (off + k) ≤ A.huge) :
    ∃ y, interpolateAlloc (dotOf c) x v off len = .ok y ∧ y.length = len ∧
      ∀ k < len, A.finite (sig y k) ∧ |A.val (sig y k) - upExact A x h P (off + k)| ≤ upError A x h P (off + k) := by
  obtain ⟨y, sp, h1, h2, h3⟩ := C88_interpolate A c hc v P hP x h (List.replicate len 0) hr off (by simpa using hmax) hx hh
    (by simpa using hb)
  rw [List.length_replicate] at h2 h3
  refine ⟨y, ?_, h2, fun k hk => ?_⟩
  · unfold interpolateAlloc
    rw [h1, Out.ok_bind, Out.pure_def]
  · by_cases ht : ∃ i < x.length, i * P ≤ off + k ∧ off + k < i * P + h.length
    · exact (h3 k hk).1 ht
    · rw [(h3 k hk).2 ht]
      have hz : sig (List.replicate len (0 : F)) k = 0 := by
        unfold sig
        simp only [List.getD_eq_getElem?_getD, List.getElem?_replicate]
        split <;> rfl
      have he : upExact A x h P (off + k) = 0 := upsampleAt_untouched _ _ _ _ (by simpa [Touches] using ht)
      have hu0 := A.u_nonneg
      have ht0 := A.tiny_nonneg
      have hm0 := upMagnitude_nonneg A x h P (off + k)
      have hp : 1 ≤ (1 + A.u) ^ ((h.length + P - 1) / P + 1) := one_le_pow₀ (by linarith)
      rw [hz, A.val_zero, he]
      refine ⟨A.zero_finite, ?_⟩
      rw [sub_zero, abs_zero, upError]
      have : 0 ≤ ((1 + A.u) ^ ((h.length + P - 1) / P + 1) - 1) * upMagnitude A x h P (off + k) := mul_nonneg (by linarith) hm0
      positivity

/-- **C88** decomposition: the polyphase filter made of a prototype filter holds, for every tap, the rounded product of the tap with the
number of phases. -/
theorem C88_decompose [NatCast F] (hcast : ∀ n : ℕ, (n : F) = FloatFun.ofSize n) (h output : List F) (P : ℕ) (hl : output.length = h.length)
    (hh : ∀ a ∈ h, A.finite a) (hP1 : (P : ℝ) ≤ A.huge) (hb : ∀ a ∈ h, (1 + A.u) * (|A.val a| * P) ≤ A.huge) :
    ∃ v g, polyphaseDecompose output h P = .ok v ∧ v.Represents P g ∧ g.length = h.length ∧
      ∀ j < h.length, A.finite (sig g j) ∧
        |A.val (sig g j) - P * A.val (sig h j)| ≤ ((1 + A.u) ^ 2 - 1) * (P * |A.val (sig h j)|) + A.tiny := by
  obtain ⟨v, e1, e2⟩ := decompose_any output h P hl
  refine ⟨v, _, e1, e2, by simp, fun j hj => ?_⟩
  have hs : sig (h.map fun a => a * (P : F)) j = sig h j * FloatFun.ofSize P := by
    rw [sig_of_lt (by simpa using hj), sig_of_lt hj, List.getElem_map, hcast]
  rw [hs]
  have hmem : sig h j ∈ h := by rw [sig_of_lt hj]; exact List.getElem_mem _
  obtain ⟨f1, f2⟩ := A.ofSize P hP1
  have hu0 := A.u_nonneg
  have hP0 : (0 : ℝ) ≤ P := by positivity
  have hW : |A.val (FloatFun.ofSize P : F)| ≤ (1 + A.u) * P := by
    have := abs_sub_abs_le_abs_sub (A.val (FloatFun.ofSize P : F)) P
    rw [abs_of_nonneg hP0] at this
    linarith
  have hy : |A.val (sig h j) * A.val (FloatFun.ofSize P : F)| ≤ (1 + A.u) * (|A.val (sig h j)| * P) := by
    rw [abs_mul]
    have := mul_le_mul_of_nonneg_left hW (abs_nonneg (A.val (sig h j)))
    linarith
  obtain ⟨g1, g2⟩ := A.mul (sig h j) (FloatFun.ofSize P) (hh _ hmem) f1 (hy.trans (hb _ hmem))
  refine ⟨g1, ?_⟩
  have h1 : |A.val (sig h j) * A.val (FloatFun.ofSize P : F) - P * A.val (sig h j)| ≤ |A.val (sig h j)| * (A.u * P) := by
    rw [mul_comm (P : ℝ), ← mul_sub, abs_mul]
    exact mul_le_mul_of_nonneg_left f2 (abs_nonneg _)
  have h2 := abs_sub_le (A.val (sig h j * FloatFun.ofSize P)) (A.val (sig h j) * A.val (FloatFun.ofSize P : F)) (P * A.val (sig h j))
  have h3 := mul_le_mul_of_nonneg_left hy hu0
  linarith

/-! ### resampling -/

set_option maxHeartbeats 1000000 in
/-- how far the weighted mean of two approximate samples is from the exact one -/
private theorem mean_err (r1 r2 : F) (w1 w2 : ℕ) (hw : 0 < w1 + w2) (hw2 : w1 + w2 ≤ 2 ^ 62) (hu : A.u ≤ 1 / 4) (k : ℕ) (t M e1 e2 m1 m2 : ℝ)
    (ht : 0 ≤ t) (f1 : A.finite r1) (f2 : A.finite r2) (he1 : |e1| ≤ m1) (he2 : |e2| ≤ m2) (hm1 : m1 ≤ M) (hm2 : m2 ≤ M)
    (b1 : |A.val r1 - e1| ≤ ((1 + A.u) ^ k - 1) * m1 + t) (b2 : |A.val r2 - e2| ≤ ((1 + A.u) ^ k - 1) * m2 + t)
    (hh1 : (2 : ℝ) ^ 63 ≤ A.huge) (hh : 2 ^ 63 * ((1 + A.u) ^ (k + 7) * M + (1 + A.u) ^ 7 * t + 3 * A.tiny) ≤ A.huge) :
    A.finite (weightedMean r1 r2 w1 w2) ∧
    |A.val (weightedMean r1 r2 w1 w2) - (e1 * w1 + e2 * w2) / (w1 + w2)| ≤
      ((1 + A.u) ^ (k + 7) - 1) * ((m1 * w1 + m2 * w2) / (w1 + w2)) + ((1 + A.u) ^ 7 * t + 2 * (1 + A.u) ^ 5 * A.tiny + A.tiny) := by
  have hu0 := A.u_nonneg
  have ht0 := A.tiny_nonneg
  obtain ⟨u, hue⟩ : ∃ u, u = A.u := ⟨_, rfl⟩
  obtain ⟨τ, hte⟩ : ∃ τ, τ = A.tiny := ⟨_, rfl⟩
  rw [← hue] at b1 b2 hh hu hu0 ⊢
  rw [← hte] at hh ht0 ⊢
  have W1 : (0 : ℝ) ≤ w1 := by positivity
  have W2 : (0 : ℝ) ≤ w2 := by positivity
  have Wsum : (1 : ℝ) ≤ w1 + w2 := by exact_mod_cast hw
  have Wle : (w1 : ℝ) + w2 ≤ 2 ^ 62 := by exact_mod_cast hw2
  have m10 : 0 ≤ m1 := (abs_nonneg _).trans he1
  have m20 : 0 ≤ m2 := (abs_nonneg _).trans he2
  have M0 : 0 ≤ M := m10.trans hm1
  have hone : 1 ≤ 1 + u := by linarith
  have pk : 1 ≤ (1 + u) ^ k := one_le_pow₀ hone
  -- one product
  have prod : ∀ (r : F) (e m : ℝ) (w : ℕ), A.finite r → |e| ≤ m → m ≤ M → |A.val r - e| ≤ ((1 + u) ^ k - 1) * m + t → (w : ℝ) ≤ 2 ^ 62 →
      A.finite (r * FloatFun.ofSize w) ∧
      |A.val (r * FloatFun.ofSize w) - e * w| ≤ ((1 + u) ^ (k + 2) - 1) * (m * w) + (1 + u) ^ 2 * t * w + τ := by
    intro r e m w fr he hm b hw
    have w0 : (0 : ℝ) ≤ w := by positivity
    have m0 : 0 ≤ m := (abs_nonneg _).trans he
    obtain ⟨o1, o2⟩ := A.ofSize w (hw.trans (le_trans (by norm_num) hh1))
    rw [← hue] at o2
    have hW : |A.val (FloatFun.ofSize w : F)| ≤ (1 + u) * w := by
      have := abs_sub_abs_le_abs_sub (A.val (FloatFun.ofSize w : F)) w
      rw [abs_of_nonneg w0] at this
      linarith
    have hr : |A.val r| ≤ (1 + u) ^ k * m + t := by
      have := abs_sub_abs_le_abs_sub (A.val r) e
      linarith
    have hrW : |A.val r * A.val (FloatFun.ofSize w : F)| ≤ ((1 + u) ^ (k + 1) * m + (1 + u) * t) * w := by
      rw [abs_mul]
      refine (mul_le_mul hr hW (abs_nonneg _) (by positivity)).trans (le_of_eq ?_)
      ring
    have hd : |A.val r * A.val (FloatFun.ofSize w : F) - e * w| ≤ ((1 + u) ^ (k + 1) - 1) * (m * w) + (1 + u) * t * w := by
      have h1 : A.val r * A.val (FloatFun.ofSize w : F) - e * w =
          (A.val r - e) * A.val (FloatFun.ofSize w : F) + e * (A.val (FloatFun.ofSize w : F) - w) := by ring
      rw [h1]
      refine (abs_add_le _ _).trans ?_
      rw [abs_mul, abs_mul]
      have q0 : 0 ≤ ((1 + u) ^ k - 1) * m + t := (abs_nonneg _).trans b
      have q1 := mul_le_mul b hW (abs_nonneg _) q0
      have q2 := mul_le_mul he o2 (abs_nonneg _) m0
      refine (add_le_add q1 q2).trans (le_of_eq ?_)
      ring
    have big : ((1 + u) ^ (k + 1) * m + (1 + u) * t) * w ≤ A.huge := by
      have s1 : (1 + u) ^ (k + 1) * m ≤ (1 + u) ^ (k + 7) * M :=
        mul_le_mul (pow_le_pow_right₀ hone (by omega)) hm m0 (by positivity)
      have s2 : (1 + u) * t ≤ (1 + u) ^ 7 * t := by
        apply mul_le_mul_of_nonneg_right _ ht
        calc 1 + u = (1 + u) ^ 1 := (pow_one _).symm
          _ ≤ (1 + u) ^ 7 := pow_le_pow_right₀ hone (by norm_num)
      have s3 : ((1 + u) ^ (k + 1) * m + (1 + u) * t) * w ≤ ((1 + u) ^ (k + 7) * M + (1 + u) ^ 7 * t) * 2 ^ 63 :=
        mul_le_mul (by linarith) (by linarith) w0 (by positivity)
      linarith
    obtain ⟨g1, g2⟩ := A.mul r (FloatFun.ofSize w) fr o1 (hrW.trans big)
    refine ⟨g1, ?_⟩
    rw [← hue, ← hte] at g2
    have h2 := abs_sub_le (A.val (r * FloatFun.ofSize w)) (A.val r * A.val (FloatFun.ofSize w : F)) (e * w)
    have h3 := mul_le_mul_of_nonneg_left hrW hu0
    have h4 : ((1 + u) ^ (k + 2) - 1) * (m * w) + (1 + u) ^ 2 * t * w =
        u * (((1 + u) ^ (k + 1) * m + (1 + u) * t) * w) + (((1 + u) ^ (k + 1) - 1) * (m * w) + (1 + u) * t * w) := by ring
    rw [h4]
    linarith
  obtain ⟨p1, d1⟩ := prod r1 e1 m1 w1 f1 he1 hm1 b1 (by linarith)
  obtain ⟨p2, d2⟩ := prod r2 e2 m2 w2 f2 he2 hm2 b2 (by linarith)
  -- the sum of the products
  obtain ⟨S, hS⟩ : ∃ S : ℝ, S = w1 + w2 := ⟨_, rfl⟩
  obtain ⟨E, hE⟩ : ∃ E, E = e1 * w1 + e2 * w2 := ⟨_, rfl⟩
  obtain ⟨Q, hQ⟩ : ∃ Q, Q = m1 * w1 + m2 * w2 := ⟨_, rfl⟩
  have hEQ : |E| ≤ Q := by
    rw [hE, hQ]
    refine (abs_add_le _ _).trans ?_
    rw [abs_mul, abs_mul, abs_of_nonneg W1, abs_of_nonneg W2]
    exact add_le_add (mul_le_mul_of_nonneg_right he1 W1) (mul_le_mul_of_nonneg_right he2 W2)
  have Q0 : 0 ≤ Q := (abs_nonneg _).trans hEQ
  have hQM : Q ≤ M * S := by
    rw [hQ, hS, mul_add]
    exact add_le_add (mul_le_mul_of_nonneg_right hm1 W1) (mul_le_mul_of_nonneg_right hm2 W2)
  rw [← hS] at Wsum Wle
  have S0 : 0 < S := by linarith
  have dd : |A.val (r1 * FloatFun.ofSize w1) + A.val (r2 * FloatFun.ofSize w2) - E| ≤
      ((1 + u) ^ (k + 2) - 1) * Q + ((1 + u) ^ 2 * t * S + 2 * τ) := by
    rw [hE, add_sub_add_comm]
    refine (abs_add_le _ _).trans ?_
    rw [hQ, hS]
    linarith
  have ab : |A.val (r1 * FloatFun.ofSize w1) + A.val (r2 * FloatFun.ofSize w2)| ≤ (1 + u) ^ (k + 2) * Q + ((1 + u) ^ 2 * t * S + 2 * τ) := by
    have := abs_sub_abs_le_abs_sub (A.val (r1 * FloatFun.ofSize w1) + A.val (r2 * FloatFun.ofSize w2)) E
    linarith
  have pw : ∀ a b : ℕ, a ≤ b → (1 + u) ^ a ≤ (1 + u) ^ b := fun a b h => pow_le_pow_right₀ hone h
  have mono1 : (1 + u) ^ (k + 2) * Q ≤ (1 + u) ^ (k + 7) * M * S := by
    rw [mul_assoc]
    exact mul_le_mul (pw _ _ (by omega)) hQM Q0 (by positivity)
  have mono2 : (1 + u) ^ 2 * t * S ≤ (1 + u) ^ 7 * t * S :=
    mul_le_mul_of_nonneg_right (mul_le_mul_of_nonneg_right (pw _ _ (by norm_num)) ht) S0.le
  have tS : 2 * τ ≤ 3 * τ * S := by
    have := mul_le_mul_of_nonneg_left Wsum (show 0 ≤ 3 * τ by positivity)
    linarith
  have bigS : ((1 + u) ^ (k + 7) * M + (1 + u) ^ 7 * t + 3 * τ) * S ≤ A.huge := by
    have h0 : 0 ≤ (1 + u) ^ (k + 7) * M + (1 + u) ^ 7 * t + 3 * τ := by positivity
    have := mul_le_mul_of_nonneg_left (show S ≤ 2 ^ 63 by linarith) h0
    linarith
  obtain ⟨n1, n2⟩ := A.add _ _ p1 p2 (ab.trans (by linarith))
  rw [← hue] at n2
  obtain ⟨N, hN⟩ : ∃ N, N = A.val (r1 * FloatFun.ofSize w1 + r2 * FloatFun.ofSize w2) := ⟨_, rfl⟩
  have nd : |N - E| ≤ ((1 + u) ^ (k + 3) - 1) * Q + ((1 + u) ^ 3 * t * S + (1 + u) * (2 * τ)) := by
    rw [hN]
    have h2 := abs_sub_le (A.val (r1 * FloatFun.ofSize w1 + r2 * FloatFun.ofSize w2))
      (A.val (r1 * FloatFun.ofSize w1) + A.val (r2 * FloatFun.ofSize w2)) E
    have h3 := mul_le_mul_of_nonneg_left ab hu0
    have h4 : ((1 + u) ^ (k + 3) - 1) * Q + ((1 + u) ^ 3 * t * S + (1 + u) * (2 * τ)) =
        u * ((1 + u) ^ (k + 2) * Q + ((1 + u) ^ 2 * t * S + 2 * τ)) + (((1 + u) ^ (k + 2) - 1) * Q + ((1 + u) ^ 2 * t * S + 2 * τ)) := by ring
    rw [h4]
    linarith
  -- the sum of the weights
  obtain ⟨o1, o2⟩ := A.ofSize w1 (by linarith)
  obtain ⟨o3, o4⟩ := A.ofSize w2 (by linarith)
  rw [← hue] at o2 o4
  have ws : |A.val (FloatFun.ofSize w1 : F) + A.val (FloatFun.ofSize w2 : F) - S| ≤ u * S := by
    rw [hS, add_sub_add_comm]
    refine (abs_add_le _ _).trans ?_
    linarith
  have ws' := abs_le.1 ws
  have uS : u * S ≤ 1 / 4 * S := mul_le_mul_of_nonneg_right hu S0.le
  have wsa : |A.val (FloatFun.ofSize w1 : F) + A.val (FloatFun.ofSize w2 : F)| =
      A.val (FloatFun.ofSize w1 : F) + A.val (FloatFun.ofSize w2 : F) := abs_of_nonneg (by linarith)
  obtain ⟨s1, s2⟩ := A.add _ _ o1 o3 (by rw [wsa]; linarith)
  rw [← hue, wsa] at s2
  obtain ⟨D, hD⟩ : ∃ D, D = A.val (FloatFun.ofSize w1 + FloatFun.ofSize w2 : F) := ⟨_, rfl⟩
  rw [← hD] at s2
  have s2' := abs_le.1 s2
  have Dup : D ≤ (1 + u) ^ 2 * S := by
    have := mul_le_mul_of_nonneg_left (show A.val (FloatFun.ofSize w1 : F) + A.val (FloatFun.ofSize w2 : F) ≤ (1 + u) * S by linarith)
      (show 0 ≤ 1 + u by linarith)
    linarith
  have Dlo : (1 - u) ^ 2 * S ≤ D := by
    have := mul_le_mul_of_nonneg_left (show (1 - u) * S ≤ A.val (FloatFun.ofSize w1 : F) + A.val (FloatFun.ofSize w2 : F) by linarith)
      (show 0 ≤ 1 - u by linarith)
    linarith
  have D0 : 0 < D := lt_of_lt_of_le (mul_pos (pow_pos (by linarith) 2) S0) Dlo
  -- 1 / D = g / S
  obtain ⟨g, hg⟩ : ∃ g, g = S / D := ⟨_, rfl⟩
  have g0 : 0 < g := by rw [hg]; positivity
  have gup : g ≤ (1 + u) ^ 3 := by
    rw [hg, div_le_iff₀ D0]
    have h1 : 1 ≤ (1 + u) ^ 3 * (1 - u) ^ 2 := by
      have e : (1 + u) ^ 3 * (1 - u) ^ 2 = 1 + u * (1 - 2 * u - 2 * u ^ 2 + u ^ 3 + u ^ 4) := by ring
      rw [e]
      have h5 : u ^ 2 ≤ 1 / 4 * u := by rw [pow_two]; exact mul_le_mul_of_nonneg_right hu hu0
      have h3 := pow_nonneg hu0 3
      have h4 := pow_nonneg hu0 4
      have : 0 ≤ u * (1 - 2 * u - 2 * u ^ 2 + u ^ 3 + u ^ 4) := mul_nonneg hu0 (by linarith)
      linarith
    have h2 := mul_le_mul_of_nonneg_right h1 S0.le
    have h3 := mul_le_mul_of_nonneg_left Dlo (show 0 ≤ (1 + u) ^ 3 by positivity)
    linarith
  have glo : 1 - ((1 + u) ^ 3 - 1) ≤ g := by
    rw [hg, le_div_iff₀ D0]
    by_cases hneg : 1 - ((1 + u) ^ 3 - 1) ≤ 0
    · exact (mul_nonpos_of_nonpos_of_nonneg hneg D0.le).trans S0.le
    · refine (mul_le_mul_of_nonneg_left Dup (by linarith)).trans ?_
      have : (1 - ((1 + u) ^ 3 - 1)) * (1 + u) ^ 2 ≤ 1 := by
        have e : (1 - ((1 + u) ^ 3 - 1)) * (1 + u) ^ 2 = 1 - u * (1 + 8 * u + 10 * u ^ 2 + 5 * u ^ 3 + u ^ 4) := by ring
        rw [e]
        have : 0 ≤ u * (1 + 8 * u + 10 * u ^ 2 + 5 * u ^ 3 + u ^ 4) := by positivity
        linarith
      have h2 := mul_le_mul_of_nonneg_right this S0.le
      linarith
  have gd : |g - 1| ≤ (1 + u) ^ 3 - 1 := by rw [abs_le]; constructor <;> linarith
  have hq : N / D = N * g / S := by rw [hg]; field_simp
  have qd : |N / D - E / S| ≤ (((1 + u) ^ (k + 6) - 1) * Q + ((1 + u) ^ 6 * t * S + (1 + u) ^ 4 * (2 * τ))) / S := by
    rw [hq, ← sub_div, abs_div, abs_of_pos S0]
    apply div_le_div_of_nonneg_right _ S0.le
    have h1 : N * g - E = (N - E) * g + E * (g - 1) := by ring
    rw [h1]
    refine (abs_add_le _ _).trans ?_
    rw [abs_mul, abs_mul, abs_of_pos g0]
    have q0 : 0 ≤ ((1 + u) ^ (k + 3) - 1) * Q + ((1 + u) ^ 3 * t * S + (1 + u) * (2 * τ)) := (abs_nonneg _).trans nd
    have q1 := mul_le_mul nd gup g0.le q0
    have q2 := mul_le_mul hEQ gd (abs_nonneg _) Q0
    refine (add_le_add q1 q2).trans (le_of_eq ?_)
    ring
  have qa : |N / D| ≤ ((1 + u) ^ (k + 6) * Q + ((1 + u) ^ 6 * t * S + (1 + u) ^ 4 * (2 * τ))) / S := by
    have h1 := abs_sub_abs_le_abs_sub (N / D) (E / S)
    have h2 : |E / S| ≤ Q / S := by
      rw [abs_div, abs_of_pos S0]
      exact div_le_div_of_nonneg_right hEQ S0.le
    have h3 : ((1 + u) ^ (k + 6) * Q + ((1 + u) ^ 6 * t * S + (1 + u) ^ 4 * (2 * τ))) / S =
        (((1 + u) ^ (k + 6) - 1) * Q + ((1 + u) ^ 6 * t * S + (1 + u) ^ 4 * (2 * τ))) / S + Q / S := by ring
    rw [h3]
    linarith
  have u4 : (1 + u) ^ 4 * (2 * τ) ≤ 2 ^ 62 * (3 * τ) := by
    have h1 : (1 + u) ^ 4 ≤ 2 ^ 4 := pow_le_pow_left₀ (by linarith) (by linarith) 4
    have := mul_le_mul_of_nonneg_right h1 (show 0 ≤ 2 * τ by positivity)
    linarith
  have qhuge : |N / D| ≤ A.huge := by
    refine qa.trans ?_
    rw [div_le_iff₀ S0]
    have a1 : (1 + u) ^ (k + 6) * Q ≤ (1 + u) ^ (k + 7) * M * S := by
      rw [mul_assoc]
      exact mul_le_mul (pw _ _ (by omega)) hQM Q0 (by positivity)
    have a2 : (1 + u) ^ 6 * t * S ≤ (1 + u) ^ 7 * t * S :=
      mul_le_mul_of_nonneg_right (mul_le_mul_of_nonneg_right (pw _ _ (by norm_num)) ht) S0.le
    have z1 : 0 ≤ (1 + u) ^ (k + 7) * M := by positivity
    have z2 : 0 ≤ (1 + u) ^ 7 * t := by positivity
    have a3 : (1 + u) ^ (k + 7) * M + (1 + u) ^ 7 * t + 2 ^ 62 * (3 * τ) ≤ A.huge := by linarith
    have a4 := mul_le_mul_of_nonneg_right a3 S0.le
    have a5 : (1 + u) ^ 4 * (2 * τ) ≤ 2 ^ 62 * (3 * τ) * S := by
      have h0 : (0 : ℝ) ≤ (2 : ℝ) ^ 62 * (3 * τ) := mul_nonneg (by norm_num) (by linarith)
      have := le_mul_of_one_le_right h0 Wsum
      linarith
    linarith
  obtain ⟨z1, z2⟩ := A.div _ _ n1 s1 (by rw [← hD]; exact D0.ne') (by rw [← hN, ← hD]; exact qhuge)
  rw [← hN, ← hD, ← hue, ← hte] at z2
  unfold weightedMean
  refine ⟨z1, ?_⟩
  have h2 := abs_sub_le (A.val ((r1 * FloatFun.ofSize w1 + r2 * FloatFun.ofSize w2) / (FloatFun.ofSize w1 + FloatFun.ofSize w2)))
      (N / D) (E / S)
  have h3 := mul_le_mul_of_nonneg_left qa hu0
  rw [← hE, ← hQ, ← hS]
  have tb : (1 + u) ^ 5 * (2 * τ) / S ≤ (1 + u) ^ 5 * (2 * τ) := div_le_self (by positivity) Wsum
  have h4 : u * (((1 + u) ^ (k + 6) * Q + ((1 + u) ^ 6 * t * S + (1 + u) ^ 4 * (2 * τ))) / S) +
      (((1 + u) ^ (k + 6) - 1) * Q + ((1 + u) ^ 6 * t * S + (1 + u) ^ 4 * (2 * τ))) / S =
      ((1 + u) ^ (k + 7) - 1) * (Q / S) + (1 + u) ^ 7 * t + (1 + u) ^ 5 * (2 * τ) / S := by
    field_simp
    ring
  linarith

/-- the bound on the error of one resampled value, `T` being the length of the longest phase -/
noncomputable def resampleError (x h : List F) (P : ℕ) (pos : ℚ) : ℝ :=
  ((1 + A.u) ^ ((h.length + P - 1) / P + 8) - 1) * lerpAt (upMagnitude A x h P) pos +
    (((h.length + P - 1) / P : ℕ) * (1 + A.u) ^ ((h.length + P - 1) / P + 7) + 2 * (1 + A.u) ^ 5 + 1) * A.tiny

private theorem lerp_weights (y : ℕ → ℝ) (pos : ℚ) (n w1 w2 : ℕ) (hw : 0 < w1 + w2) (h1 : ⌊pos⌋.toNat = n)
    (h2 : (w2 : ℚ) / (w1 + w2 : ℕ) = Int.fract pos) : lerpAt y pos = (y n * w1 + y (n + 1) * w2) / (w1 + w2) := by
  unfold lerpAt
  rw [h1, ← h2]
  push_cast
  have : ((w1 : ℝ) + w2) ≠ 0 := by exact_mod_cast hw.ne'
  field_simp
  ring

/-- **C88** resampling: every output sample is the exact linear interpolation of the oversampled grid up to rounding, whatever the rates,
the starting point and the lengths. -/
theorem C88_resample (hc : c.Valid) (out x h : List F) (v : PolyphaseView F) (P : ℕ)
    (hr : v.Represents P h) (hP : 0 < P) (hF : 0 < h.length) (rates start : Rational) (hrc : Canon rates) (hsc : Canon start)
    (hr0 : 0 < rates.num) (hs0 : 0 ≤ start.num)
    (hfit : (x.length * P + h.length + P : ℤ) * (start.den * rates.den * rates.num * P) ≤ 2 ^ 62)
    (hmax : start.val + out.length ≤ (convLengthFull (x.length * P) h.length : ℚ) / (rates.val * P))
    (hx : ∀ a ∈ x, A.finite a) (hh : ∀ a ∈ h, A.finite a) (hu : A.u ≤ 1 / 4) (M : ℝ) (hM : ∀ n, upMagnitude A x h P n ≤ M)
    (hb1 : (2 : ℝ) ^ 63 ≤ A.huge)
    (hb : 2 ^ 63 * ((1 + A.u) ^ ((h.length + P - 1) / P + 8) * M +
      (((h.length + P - 1) / P : ℕ) * (1 + A.u) ^ ((h.length + P - 1) / P + 7) + 3) * A.tiny) ≤ A.huge) :
    ∃ y sp, resampleFloat (dotOf c) out x v rates start = .ok (y, sp) ∧ y.length = out.length ∧
      ∀ k < out.length, A.finite (sig y k) ∧
        |A.val (sig y k) - lerpAt (upExact A x h P) ((start.val + k) * rates.val * P)| ≤
          resampleError A x h P ((start.val + k) * rates.val * P) := by
  have hu0 := A.u_nonneg
  have ht0 := A.tiny_nonneg
  have hP' : (0 : ℤ) < P := by exact_mod_cast hP
  have hval : (0 : ℚ) < rates.val := div_pos (by exact_mod_cast hr0) (by exact_mod_cast hrc.1)
  rw [le_div_iff₀ (mul_pos hval (by exact_mod_cast hP)), ← mul_assoc] at hmax
  have hone : 1 ≤ 1 + A.u := by linarith
  obtain ⟨T, hT⟩ : ∃ T, T = (h.length + P - 1) / P := ⟨_, rfl⟩
  have M0 : 0 ≤ M := (upMagnitude_nonneg A x h P 0).trans (hM 0)
  obtain ⟨t, ht⟩ : ∃ t, t = (T : ℝ) * (1 + A.u) ^ T * A.tiny := ⟨_, rfl⟩
  have t0 : 0 ≤ t := by rw [ht]; positivity
  have hk7 : (1 + A.u) ^ 7 * t = (T : ℝ) * (1 + A.u) ^ (T + 7) * A.tiny := by rw [ht]; ring
  have hb2 : 2 ^ 63 * ((1 + A.u) ^ (T + 1 + 7) * M + (1 + A.u) ^ 7 * t + 3 * A.tiny) ≤ A.huge := by
    rw [hk7]
    rw [← hT] at hb
    refine le_trans (le_of_eq ?_) hb
    ring
  have good : GoodDot (dotOf c) x h v P (fun pos z => A.finite z ∧ |A.val z - lerpAt (upExact A x h P) pos| ≤ resampleError A x h P pos) := by
    intro pos n w1 w2 g1 g2 g3 g4 _ l1 l2
    have hE : ∀ n, upError A x h P n = ((1 + A.u) ^ (T + 1) - 1) * upMagnitude A x h P n + t := by
      intro n
      rw [upError, ← hT, ht]
    have small : ∀ n, upMagnitude A x h P n + upError A x h P n ≤ A.huge := by
      intro n
      rw [hE]
      have a1 : (1 + A.u) ^ (T + 1) * upMagnitude A x h P n ≤ (1 + A.u) ^ (T + 1 + 7) * M :=
        mul_le_mul (pow_le_pow_right₀ hone (by omega)) (hM n) (upMagnitude_nonneg A x h P n) (by positivity)
      have a2 : t ≤ (1 + A.u) ^ 7 * t := le_mul_of_one_le_left t0 (one_le_pow₀ hone)
      have z1 : 0 ≤ (1 + A.u) ^ (T + 1 + 7) * M := by positivity
      have z2 : 0 ≤ (1 + A.u) ^ 7 * t := by positivity
      linarith
    obtain ⟨r1, d1, f1, b1⟩ := dot_slices A c hc hr hP n l1 hx hh (small n)
    obtain ⟨r2, d2, f2, b2⟩ := dot_slices A c hc hr hP (n + 1) l2 hx hh (small (n + 1))
    rw [hE] at b1 b2
    obtain ⟨q1, q2⟩ := mean_err A r1 r2 w1 w2 g3 g4 hu (T + 1) t M _ _ _ _ t0 f1 f2 (upExact_abs_le A x h P n)
      (upExact_abs_le A x h P (n + 1)) (hM n) (hM (n + 1)) b1 b2 hb1 hb2
    refine ⟨r1, r2, d1, d2, q1, ?_⟩
    rw [resampleError, lerp_weights _ pos n w1 w2 g3 g1 g2, lerp_weights _ pos n w1 w2 g3 g1 g2, ← hT]
    refine q2.trans (le_of_eq ?_)
    rw [hk7]
    ring
  obtain ⟨y, sp, _, h1, h2, h3, _⟩ := resampleFloat_slices (dotOf c) _ out x h v P hr hF hrc
    (W := (x.length * P + h.length + P : ℤ)) (q := start.den) ⟨by positivity, hsc.1, hr0, hrc.1, hP', hfit⟩ start.num
    ⟨hsc, hsc.1, rfl⟩ hs0 (by push_cast; rfl) hmax good
  exact ⟨y, sp, h1, h2, h3⟩

end

section example_float

private theorem lerp_le (y : ℕ → ℝ) (pos : ℚ) (M : ℝ) (h : ∀ n, y n ≤ M) : lerpAt y pos ≤ M := by
  unfold lerpAt
  have h0 : (0 : ℝ) ≤ ((Int.fract pos : ℚ) : ℝ) := by exact_mod_cast Int.fract_nonneg pos
  have h1 : ((Int.fract pos : ℚ) : ℝ) ≤ 1 := by exact_mod_cast (Int.fract_lt_one pos).le
  have a := h ⌊pos⌋.toNat
  have b := h (⌊pos⌋.toNat + 1)
  nlinarith [mul_le_mul_of_nonneg_left b h0, mul_le_mul_of_nonneg_left a (sub_nonneg.2 h1)]

/-- `1, -2, 3` interpolated by the four taps `1, 2, 3, 4` in two phases, and then resampled by `2/3` starting at `1/2`, in `float` -/
example (c : KernOf (Bin 24 (-149))) (hc : c.Valid) :
    (∃ y, interpolateAlloc (dotOf c) [floatOfInt 1, floatOfInt (-2), floatOfInt 3]
        ⟨[floatOfInt 3, floatOfInt 1, floatOfInt 4, floatOfInt 2], 2⟩ 1 5 = .ok y ∧
      ∀ k < 5, |(sig y k).val - upsampleAt [1, -2, 3] [1, 2, 3, 4] 2 (1 + k)| ≤ 1 / 100000) ∧
    (∃ y sp, resampleFloat (dotOf c) (List.replicate 4 (floatOfInt 0)) [floatOfInt 1, floatOfInt (-2), floatOfInt 3]
        ⟨[floatOfInt 3, floatOfInt 1, floatOfInt 4, floatOfInt 2], 2⟩ ⟨2, 3⟩ ⟨1, 2⟩ = .ok (y, sp) ∧
      ∀ k < 4, |(sig y k).val - lerpAt (upsampleAt [1, -2, 3] [1, 2, 3, 4] 2) ((1 / 2 + k) * (2 / 3) * 2)| ≤ 1 / 50000) := by
  obtain ⟨A, hA⟩ : ∃ A, A = Bin.arithFun 24 (-149) (by norm_num) (by norm_num) := ⟨_, rfl⟩
  have hu : A.u = 2 ^ (-(24 : ℤ)) := by rw [hA]; rfl
  have ht : A.tiny = 2 ^ (-150 : ℤ) := by rw [hA]; change (2 : ℝ) ^ ((-149 : ℤ) - 1) = _; norm_num
  have hh : A.huge = 2 ^ 126 := by rw [hA]; rfl
  have hv : ∀ k : ℤ, A.val (floatOfInt k) = k := by intro k; rw [hA]; rfl
  have hfin : ∀ k : ℤ, |(k : ℝ)| ≤ 2 ^ 128 → A.finite (floatOfInt k) := by
    intro k hk
    rw [hA]
    exact hk
  have e : ∀ b : Bin 24 (-149), A.val b = b.val := by intro b; rw [hA]; rfl
  obtain ⟨x, hx⟩ : ∃ x, x = [floatOfInt 1, floatOfInt (-2), floatOfInt 3] := ⟨_, rfl⟩
  obtain ⟨h, hhd⟩ : ∃ h, h = [floatOfInt 1, floatOfInt 2, floatOfInt 3, floatOfInt 4] := ⟨_, rfl⟩
  have hl : h.length = 4 := by rw [hhd]; rfl
  have hxl : x.length = 3 := by rw [hx]; rfl
  have hxf : ∀ a ∈ x, A.finite a := by
    intro a ha
    rw [hx] at ha
    simp only [List.mem_cons, List.not_mem_nil, or_false] at ha
    rcases ha with rfl | rfl | rfl <;> exact hfin _ (by norm_num)
  have hhf : ∀ a ∈ h, A.finite a := by
    intro a ha
    rw [hhd] at ha
    simp only [List.mem_cons, List.not_mem_nil, or_false] at ha
    rcases ha with rfl | rfl | rfl | rfl <;> exact hfin _ (by norm_num)
  have hr : PolyphaseView.Represents ⟨[floatOfInt 3, floatOfInt 1, floatOfInt 4, floatOfInt 2], 2⟩ 2 h := by
    rw [hhd]
    refine ⟨rfl, rfl, fun p hp => ?_⟩
    interval_cases p <;> rfl
  have hex : ∀ n, upExact A x h 2 n = upsampleAt [1, -2, 3] [1, 2, 3, 4] 2 n := by
    intro n
    rw [upExact, hx, hhd]
    simp only [List.map_cons, List.map_nil, hv]
    norm_num
  have hsI : ∀ k : ℤ, sigI [(1 : ℝ), 2, 3, 4] k ≤ 4 := by
    intro k
    by_cases hk : 0 ≤ k
    · obtain ⟨i, rfl⟩ := Int.eq_ofNat_of_zero_le hk
      rw [sigI_nat]
      by_cases hi : i < 4
      · interval_cases i <;> norm_num [sig]
      · rw [sig_of_ge (by simp; omega)]; norm_num
    · rw [sigI_neg (by omega)]; norm_num
  have hmag : ∀ n, upMagnitude A x h 2 n ≤ 24 := by
    intro n
    rw [upMagnitude, hx, hhd]
    simp only [List.map_cons, List.map_nil, hv]
    norm_num [upsampleAt, Finset.sum_range_succ, sig]
    have h1 := hsI n
    have h2 := hsI (n - 2)
    have h3 := hsI (n - 2 * 2)
    norm_num at h1 h2 h3 ⊢
    linarith
  have herr : ∀ n, upError A x h 2 n ≤ 1 / 100000 := by
    intro n
    rw [upError, hl, hu, ht]
    have := mul_le_mul_of_nonneg_left (hmag n) (show (0 : ℝ) ≤ (1 + 2 ^ (-(24 : ℤ))) ^ ((4 + 2 - 1) / 2 + 1) - 1 by norm_num)
    refine (add_le_add_left this _).trans ?_
    norm_num
  constructor
  · obtain ⟨y, h1, h2, h3⟩ := C88_interpolateAlloc A c hc _ 2 (by norm_num) x h hr 1 5
      (by rw [hl, hxl]; norm_num [interpolLengthFull, convLengthFull]) hxf hhf (by
        intro k _
        have := hmag (1 + k)
        have := herr (1 + k)
        rw [hh]
        norm_num
        linarith)
    rw [hx] at h1
    refine ⟨y, h1, fun k hk => ?_⟩
    have := (h3 k hk).2
    rw [e, hex] at this
    exact this.trans (herr _)
  · obtain ⟨y, sp, h1, h2, h3⟩ := C88_resample A c hc (List.replicate 4 (floatOfInt 0)) x h _ 2 hr (by norm_num) (by omega) ⟨2, 3⟩ ⟨1, 2⟩
      ⟨by norm_num, by decide⟩ ⟨by norm_num, by decide⟩ (by norm_num) (by norm_num) (by rw [hl, hxl]; norm_num)
      (by rw [hl, hxl]; norm_num [convLengthFull, Rational.val]) hxf hhf (by rw [hu]; norm_num) 24 hmag (by rw [hh]; norm_num)
      (by rw [hl, hu, ht, hh]; norm_num)
    rw [hx] at h1
    refine ⟨y, sp, h1, fun k hk => ?_⟩
    have := (h3 k (by simpa using hk)).2
    rw [e, show upExact A x h 2 = upsampleAt [1, -2, 3] [1, 2, 3, 4] 2 from funext hex] at this
    have hpos : ((⟨1, 2⟩ : Rational).val + k) * (⟨2, 3⟩ : Rational).val * (2 : ℕ) = (1 / 2 + k) * (2 / 3) * 2 := by
      norm_num [Rational.val]
    rw [hpos] at this
    refine this.trans ?_
    rw [resampleError, hl, hu, ht]
    have := mul_le_mul_of_nonneg_left (lerp_le _ ((1 / 2 + k) * (2 / 3) * 2) 24 hmag)
      (show (0 : ℝ) ≤ (1 + 2 ^ (-(24 : ℤ))) ^ ((4 + 2 - 1) / 2 + 8) - 1 by norm_num)
    refine (add_le_add_left this _).trans ?_
    norm_num

noncomputable local instance : NatCast (Bin 24 (-149)) := ⟨FloatFun.ofSize⟩

/-- the taps `1, 2, 3` in two phases -/
example (A : FloatArithFun (Bin 24 (-149))) (hA : A = Bin.arithFun 24 (-149) (by norm_num) (by norm_num)) :
    ∃ v g, polyphaseDecompose (List.replicate 3 (floatOfInt 0)) [floatOfInt 1, floatOfInt 2, floatOfInt 3] 2 = .ok v ∧
      v.Represents 2 g ∧ g.length = 3 ∧ ∀ j < 3, A.finite (sig g j) ∧ |A.val (sig g j) - 2 * ((j : ℝ) + 1)| ≤ 1 / 1000000 := by
  have hu : A.u = 2 ^ (-(24 : ℤ)) := by rw [hA]; rfl
  have ht : A.tiny = 2 ^ (-150 : ℤ) := by rw [hA]; change (2 : ℝ) ^ ((-149 : ℤ) - 1) = _; norm_num
  have hh : A.huge = 2 ^ 126 := by rw [hA]; rfl
  have hv : ∀ k : ℤ, A.val (floatOfInt k) = k := by intro k; rw [hA]; rfl
  have hfin : ∀ k : ℤ, |(k : ℝ)| ≤ 2 ^ 128 → A.finite (floatOfInt k) := by
    intro k hk
    rw [hA]
    exact hk
  obtain ⟨v, g, h1, h2, h3, h4⟩ := C88_decompose A (fun _ => rfl) [floatOfInt 1, floatOfInt 2, floatOfInt 3]
    (List.replicate 3 (floatOfInt 0)) 2 (by simp) (by
      intro a ha
      simp only [List.mem_cons, List.not_mem_nil, or_false] at ha
      rcases ha with rfl | rfl | rfl <;> exact hfin _ (by norm_num)) (by rw [hh]; norm_num) (by
      intro a ha
      simp only [List.mem_cons, List.not_mem_nil, or_false] at ha
      rcases ha with rfl | rfl | rfl <;> rw [hv, hh, hu] <;> norm_num)
  refine ⟨v, g, h1, h2, h3, fun j hj => ⟨(h4 j hj).1, ?_⟩⟩
  have := (h4 j hj).2
  rw [hu, ht] at this
  interval_cases j <;> simp [sig, hv] at this ⊢ <;> refine le_trans (le_of_eq ?_) (this.trans ?_) <;> norm_num

end example_float

end Verif
