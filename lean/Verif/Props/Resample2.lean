import Verif.Lemmas.Resample2
import Verif.Props.Resample

/-!
# Properties C32, C33 (resampling), C34 (resampling)

`Rational.val` is the number a library rational denotes, `Rational.Canon` says that it is in lowest terms with a positive
denominator (C01).  The only other hypothesis is that the sizes, rates and start point are not so large that 64 bit integers
overflow.
-/

set_option linter.unusedSectionVars false
set_option linter.unusedSimpArgs false

namespace Verif
open Finset Rational

section
variable {R : Type} [Field R] [CharZero R] [DecidableEq R]

/-- **C32**: every output sample is the linear interpolation, at its exact rational position, between the two neighbouring samples
of the oversampled (zero-stuffed and filtered) signal.  Requests that end within the advertised maximum succeed. -/
theorem C32_resample {dot : List R → List R → Out R} (hd : IsDot dot) (out x h : List R) (v : PolyphaseView R) (P : ℕ)
    (hr : v.Represents P h) (hP : 0 < P) (hF : 0 < h.length) (rates start : Rational) (hrc : Canon rates) (hsc : Canon start)
    (hr0 : 0 < rates.num) (hs0 : 0 ≤ start.num)
    (hfit : (x.length * P + h.length + P : ℤ) * (start.den * rates.den * rates.num * P) ≤ 2 ^ 62)
    (hmax : start.val + out.length ≤ (convLengthFull (x.length * P) h.length : ℚ) / (rates.val * P)) :
    ∃ y sp, resample dot out x v rates start = .ok (y, sp) ∧ y.length = out.length ∧
      ∀ k < out.length, sig y k = lerpAt (fun n => convAt (zeroStuffed x P) h n) ((start.val + k) * rates.val * P) := by
  have hP' : (0 : ℤ) < P := by exact_mod_cast hP
  have hval : (0 : ℚ) < rates.val := div_pos (by exact_mod_cast hr0) (by exact_mod_cast hrc.1)
  rw [le_div_iff₀ (mul_pos hval (by exact_mod_cast hP)), ← mul_assoc] at hmax
  obtain ⟨y, sp, _, h1, h2, h3, _⟩ := resample_spec hd out x h v P hr hF hrc
    (W := (x.length * P + h.length + P : ℤ)) (q := start.den) ⟨by positivity, hsc.1, hr0, hrc.1, hP', hfit⟩ start.num
    ⟨hsc, hsc.1, rfl⟩ hs0 (by push_cast; rfl) hmax
  refine ⟨y, sp, h1, h2, fun k hk => ?_⟩
  rw [h3 k hk]
  congr 1
  funext n
  exact upsampleAt_eq_conv x h P n hP

/-- **C32**: longer requests are refused (as long as their end is representable). -/
theorem C32_rejects {dot : List R → List R → Out R} (out x : List R) (v : PolyphaseView R) (hP : 0 < v.numPhases)
    (rates start : Rational) (hrc : Canon rates) (hsc : Canon start) (hr0 : 0 < rates.num) (hs0 : 0 ≤ start.num)
    (hfit : (x.length * v.numPhases + v.sizeOriginal + v.numPhases : ℤ) * (start.den * rates.den * rates.num * v.numPhases) ≤ 2 ^ 62)
    (hfit2 : (start.num + start.den * out.length) * (rates.num * v.numPhases) ≤ 2 ^ 62)
    (hmax : (convLengthFull (x.length * v.numPhases) v.sizeOriginal : ℚ) / (rates.val * v.numPhases) < start.val + out.length) :
    resample dot out x v rates start = .assertFail := by
  obtain ⟨P, hPe⟩ : ∃ P, P = v.numPhases := ⟨_, rfl⟩
  obtain ⟨F, hFe⟩ : ∃ F, F = v.sizeOriginal := ⟨_, rfl⟩
  obtain ⟨a, ha⟩ : ∃ a, a = rates.num := ⟨_, rfl⟩
  obtain ⟨b, hb⟩ : ∃ b, b = rates.den := ⟨_, rfl⟩
  obtain ⟨q, hq⟩ : ∃ q, q = start.den := ⟨_, rfl⟩
  obtain ⟨p, hp⟩ : ∃ p, p = start.num := ⟨_, rfl⟩
  rw [← hPe] at hP
  have fP : (0 : ℤ) < P := by exact_mod_cast hP
  have f' : Fits (x.length * P + F + P : ℤ) start.den rates.num rates.den P :=
    ⟨by positivity, hsc.1, hr0, hrc.1, fP, by rw [hPe, hFe]; exact hfit⟩
  have f := f'
  rw [← ha, ← hb, ← hq] at f
  have fq := f.hq
  have fa := f.ha
  have fb := f.hb
  have hqb := mul_pos fq fb
  have hrr : Rep rates a b := ⟨hrc, fb, by unfold Rational.val; rw [ha, hb]⟩
  have hs : Rep start p q := ⟨hsc, fq, by unfold Rational.val; rw [hp, hq]⟩
  rw [← hp] at hs0
  rw [← hp, ← hq, ← ha, ← hPe] at hfit2
  have hval : (0 : ℚ) < rates.val := div_pos (by exact_mod_cast hr0) (by exact_mod_cast hrc.1)
  rw [← hPe, ← hFe, div_lt_iff₀ (mul_pos hval (by exact_mod_cast hP)), ← mul_assoc] at hmax
  obtain ⟨L, hL⟩ : ∃ L : ℕ, L = convLengthFull (x.length * P) F := ⟨_, rfl⟩
  have hL1 : L ≤ x.length * P + F := by
    rw [hL]; unfold convLengthFull; split <;> omega
  have hLW : (L : ℤ) ≤ (x.length * P + F + P : ℤ) := by
    have : (L : ℤ) ≤ (x.length * P + F : ℤ) := by exact_mod_cast hL1
    omega
  have hWqb := f.Wqb_le
  have hLqb : (L : ℤ) * (q * b) ≤ (x.length * P + F + P : ℤ) * (q * b) := mul_le_mul_of_nonneg_right hLW hqb.le
  obtain ⟨n, hn⟩ : ∃ n : ℤ, n = out.length := ⟨_, rfl⟩
  rw [← hn] at hfit2
  have hn0 : 0 ≤ n := by omega
  have hqn : 0 ≤ q * n := mul_nonneg fq.le hn0
  have hmaxZ : ¬ (p + q * n) * (a * P) ≤ L * b * q := by
    rw [hs.2.2, ← hL] at hmax
    unfold Rational.val at hmax
    rw [← ha, ← hb] at hmax
    have n1 : (q : ℚ) ≠ 0 := by exact_mod_cast fq.ne'
    have e : ((p : ℚ) / q + out.length) * ((a : ℚ) / b) * P = (((p + q * n) * (a * P) : ℤ) : ℚ) / ((q * b : ℤ) : ℚ) := by
      have n3 : (b : ℚ) ≠ 0 := by exact_mod_cast fb.ne'
      rw [hn]
      push_cast
      field_simp
    rw [e, lt_div_iff₀ (by exact_mod_cast hqb)] at hmax
    have hmax' : (L : ℤ) * (q * b) < (p + q * n) * (a * P) := by exact_mod_cast hmax
    have e4 : (L : ℤ) * b * q = L * (q * b) := by ring
    omega
  have hpn0 : 0 ≤ p + q * n := by omega
  have hpna : p + q * n ≤ (p + q * n) * (a * P) := by nlinarith [mul_pos fa fP]
  have bq := f.q_le
  have ba := f.a_le
  have bb := f.b_le
  have z1 := (rep_ofInt 0).scale fb
  rw [zero_mul, one_mul] at z1
  have c1 := (compare_rep hrr z1 holds64 (by rw [abs_of_pos fa]; omega) (by norm_num) (by omega)).2
  rw [decide_eq_true fa.le] at c1
  have z2 := (rep_ofInt 0).scale fq
  rw [zero_mul, one_mul] at z2
  have c2 := (compare_rep hs z2 holds64 (by rw [abs_of_nonneg hs0]; omega) (by norm_num) (by omega)).2
  rw [decide_eq_true hs0] at c2
  obtain ⟨mx, mx1, mx2⟩ := resampleLengthFull_spec (N := x.length) (F := F) hrc f' (by rw [mul_comm P, ← hL]; exact hLW)
  rw [mul_comm P, ← hL, ← ha, ← hb] at mx2
  obtain ⟨la, la1, la2⟩ := addInt_rep (k := n) hs holds64 (by omega) (by rw [abs_of_nonneg hqn]; omega)
    (by rw [abs_of_nonneg hpn0]; omega)
  have la3 := la2.scale (mul_pos fa fP)
  have mx3 := mx2.scale fq
  rw [show a * P * q = q * (a * P) by ring] at mx3
  have hqaP := f.qaP_le
  have e4 : (L : ℤ) * b * q = L * (q * b) := by ring
  have hLqb0 : 0 ≤ (L : ℤ) * (q * b) := by positivity
  have hap := mul_nonneg hpn0 (mul_pos fa fP).le
  have c3 := (compare_rep la3 mx3 holds64 (by rw [abs_of_nonneg hap]; omega) (by rw [e4, abs_of_nonneg hLqb0]; omega) (by omega)).1
  rw [decide_eq_false hmaxZ] at c3
  unfold resample
  rw [← hPe, ← hFe]
  rw [c1, Out.ok_bind, cassert_true rfl, Out.ok_bind, c2, Out.ok_bind, cassert_true rfl, Out.ok_bind, cassert_true hP, Out.ok_bind,
    mx1, Out.ok_bind, ← hn, la1, Out.ok_bind, c3, Out.ok_bind]
  rfl

/-- Non-vacuity: a three-phase filter, rate ratio 2/3, starting at position 1/4. -/
example : ∃ v, polyphaseDecomposeAlloc [(1 : ℚ), 2, 3, 4, 5] 3 = .ok v ∧
    resample (fun a b => .ok (List.zipWith (· * ·) a b).sum) [0, 0, 0, 0] [1, 2, (3 : ℚ)] v ⟨2, 3⟩ ⟨1, 4⟩ =
      .ok ([9 / 2, 27 / 2, 45 / 2, 81 / 2], ⟨1, ⟨11, 4⟩⟩) ∧
    Canon ⟨2, 3⟩ ∧ Canon ⟨1, 4⟩ ∧ (Rational.mk 1 4).val + 4 ≤ (convLengthFull (3 * 3) 5 : ℚ) / ((Rational.mk 2 3).val * 3) :=
  ⟨⟨[12, 3, 15, 6, 9], 3⟩, by decide +kernel, by decide +kernel, ⟨by decide, by decide⟩, ⟨by decide, by decide⟩, by
    norm_num [Rational.val, convLengthFull]⟩

/-! ### C33: streaming resampling -/

/-- A client that resamples a stream fed in chunks; see `interpolStream`. -/
def resampleStream (dot : List R → List R → Out R) (v : PolyphaseView R) (rates : Rational) :
    List (List R × ℕ) → List R → Rational → Out (List R)
  | [], _, _ => .ok []
  | (chunk, len) :: rest, buffer, start => do
    let buffer := buffer ++ chunk
    let r ← resample dot (List.replicate len 0) buffer v rates start
    let ys ← resampleStream dot v rates rest (buffer.drop r.2.firstInputSample) r.2.startPoint
    pure (r.1 ++ ys)

/-- The calls of the client: none is entirely empty; only outputs are requested that are determined by the input received so far;
the end of the request lies within the signal received so far extended by the filter's tail; and the input never runs ahead of the
output by more than `C` samples of the oversampled grid (this bounds the client's buffer, not the length of the stream). -/
def ResampleCausal (P F : ℕ) (rate : ℚ) (C : ℕ) : List (List R × ℕ) → ℕ → ℕ → Prop
  | [], _, _ => True
  | (chunk, len) :: rest, received, produced =>
    (chunk ≠ [] ∨ 0 < len) ∧
    (∀ k < len, ⌊((produced : ℚ) + (k : ℚ)) * rate * P⌋ + 1 < ((received + chunk.length) * P : ℕ)) ∧
    ((produced : ℚ) + len) * rate * P + 1 ≤ ((received + chunk.length) * P + F : ℕ) ∧
    (((received + chunk.length) * P : ℕ) : ℚ) ≤ (produced : ℚ) * rate * P + C ∧
    ResampleCausal P F rate C rest (received + chunk.length) (produced + len)

/-- **C33**, resampling: cutting an (arbitrarily long) stream into chunks and continuing from the reported suspension points
yields exactly the samples that resampling the whole stream defines. -/
theorem C33_resampling_seamless {dot : List R → List R → Out R} (hd : IsDot dot) (v : PolyphaseView R) (P : ℕ) (h : List R)
    (hr : v.Represents P h) (hP : 0 < P) (hF : 0 < h.length) (rates : Rational) (hrc : Canon rates) (hr0 : 0 < rates.num) (C : ℕ)
    (hfit : (C + 2 * P + 2 * h.length : ℤ) * (rates.num * rates.den * rates.num * P) ≤ 2 ^ 62)
    (calls : List (List R × ℕ)) (hc : ResampleCausal P h.length rates.val C calls 0 0) :
    resampleStream dot v rates calls [] (Rational.ofInt 0) =
      .ok ((List.range (calls.map Prod.snd).sum).map
        (fun (k : ℕ) => lerpAt (fun n => convAt (zeroStuffed (calls.flatMap Prod.fst) P) h n) ((k : ℚ) * rates.val * P))) := by
  have hP' : (0 : ℤ) < P := by exact_mod_cast hP
  have hPq : (0 : ℚ) < P := by exact_mod_cast hP
  have hval : (0 : ℚ) < rates.val := div_pos (by exact_mod_cast hr0) (by exact_mod_cast hrc.1)
  have fit : Fits (C + 2 * P + 2 * h.length : ℤ) rates.num rates.num rates.den P :=
    ⟨by positivity, hr0, hr0, hrc.1, hP', hfit⟩
  have key : ∀ (calls : List (List R × ℕ)) (x : List R) (d n : ℕ) (start : Rational),
      ResampleCausal P h.length rates.val C calls x.length n → d ≤ x.length → Canon start → 0 ≤ start.val →
      start.val * rates.val + d = n * rates.val → (d = 0 ∨ (d * P + h.length - 1 : ℚ) ≤ n * rates.val * P) →
      (n : ℚ) * rates.val * P < (d + 1) * P + h.length - 1 →
      resampleStream dot v rates calls (x.drop d) start =
      .ok ((List.range (calls.map Prod.snd).sum).map
        (fun (k : ℕ) => lerpAt (upsampleAt (x ++ calls.flatMap Prod.fst) h P) (((n : ℚ) + k) * rates.val * P))) := by
    intro calls
    induction calls with
    | nil => intro x d n _ _ _ _ _ _ _ _; rfl
    | cons c rest ih =>
      obtain ⟨chunk, len⟩ := c
      intro x d n start hca hdx hsc hs0 hst hdF hback
      obtain ⟨ce, c1, c2, c3, c4⟩ := hca
      unfold resampleStream
      simp only
      have hbuf : x.drop d ++ chunk = (x ++ chunk).drop d := by rw [List.drop_append_of_le_length hdx]
      rw [hbuf]
      obtain ⟨N, hN⟩ : ∃ N, N = x.length + chunk.length := ⟨_, rfl⟩
      rw [← hN] at c1 c2 c3 c4
      have hdN : d ≤ N := by omega
      have hlen : ((x ++ chunk).drop d).length = N - d := by rw [List.length_drop, List.length_append, hN]
      -- the start point over the denominator of the rate
      have hrepv : start.val = ((n * rates.num - d * rates.den : ℤ) : ℚ) / (rates.num : ℤ) := by
        have n1 : (rates.num : ℚ) ≠ 0 := by exact_mod_cast hr0.ne'
        have n2 : (rates.den : ℚ) ≠ 0 := by exact_mod_cast hrc.1.ne'
        have e : start.val = n - d / rates.val := by
          rw [eq_sub_iff_add_eq, ← mul_left_inj' hval.ne', add_mul, div_mul_cancel₀ _ hval.ne', hst]
        rw [e]
        unfold Rational.val
        push_cast
        field_simp
      have hrep : Rep start (n * rates.num - d * rates.den) rates.num := ⟨hsc, hr0, hrepv⟩
      have hp0 : 0 ≤ (n * rates.num - d * rates.den : ℤ) := by
        rw [hrepv] at hs0
        have hq0 : (0 : ℚ) < (rates.num : ℤ) := by exact_mod_cast hr0
        have := mul_nonneg hs0 hq0.le
        rw [div_mul_cancel₀ _ hq0.ne'] at this
        exact_mod_cast this
      -- positions relative to the buffer
      have hshift : ∀ k : ℚ, (start.val + k) * rates.val * P = ((n : ℚ) + k) * rates.val * P - ((d * P : ℕ) : ℚ) := by
        intro k
        have : start.val * rates.val = n * rates.val - d := by linarith
        rw [add_mul, this]
        push_cast
        ring
      have hNd : 0 < N - d := by
        by_contra hcon
        have hNd' : N = d := by omega
        have hch : chunk = [] := by
          rw [← List.length_eq_zero_iff]; omega
        have hl : 0 < len := by
          rcases ce with ce | ce
          · exact absurd hch ce
          · exact ce
        have h1 := c1 0 hl
        rcases hdF with h0 | h0
        · rw [hNd', h0] at h1
          have : (0 : ℤ) ≤ ⌊((n : ℚ) + (0 : ℕ)) * rates.val * P⌋ := Int.floor_nonneg.2 (by positivity)
          push_cast at h1 this
          omega
        · have : ((d * P : ℕ) : ℤ) ≤ ⌊((n : ℚ) + (0 : ℕ)) * rates.val * P⌋ := by
            rw [Int.le_floor]
            push_cast
            have hF' : (1 : ℚ) ≤ h.length := by exact_mod_cast hF
            linarith
          rw [hNd'] at h1
          omega
      have hconv : convLengthFull (((x ++ chunk).drop d).length * P) h.length = (N - d) * P + h.length - 1 := by
        rw [hlen]
        unfold convLengthFull
        have : 0 < (N - d) * P := Nat.mul_pos hNd hP
        rw [if_neg (by omega)]
        omega
      have hconvQ : ((convLengthFull (((x ++ chunk).drop d).length * P) h.length : ℕ) : ℚ) = (N * P + h.length : ℚ) - 1 - (d * P : ℕ) := by
        rw [hconv, Nat.cast_sub (by omega)]
        push_cast [Nat.cast_sub hdN]
        ring
      have hWb : ((((x ++ chunk).drop d).length * P + h.length + P : ℕ) : ℤ) ≤ (C + 2 * P + 2 * h.length : ℤ) := by
        rw [hlen]
        have : (((N - d) * P + h.length + P : ℕ) : ℚ) ≤ (C + 2 * P + 2 * h.length : ℚ) := by
          push_cast [Nat.cast_sub hdN] at c3 ⊢
          linarith
        exact_mod_cast this
      obtain ⟨y, sp, next, f1, f2, f3, f4, f5, f6⟩ := resample_spec hd (List.replicate len 0) ((x ++ chunk).drop d) h v P hr hF hrc fit
        _ hrep hp0 hWb (by
          rw [hconvQ, List.length_replicate, hshift]
          push_cast at c2 ⊢
          linarith)
      rw [List.length_replicate] at f2 f3 f5 f6
      have hm0 : 0 ≤ (n * rates.num - d * rates.den : ℤ) + rates.num * len := by positivity
      obtain ⟨sp', s1, s2, s3, s4, s5, s6⟩ := resampleSuspension_spec hrc hF fit _ f5 hm0 f6 (by push_cast; omega)
      rw [f4] at s1
      injection s1 with s1
      subst s1
      rw [f1, Out.ok_bind]
      simp only
      rw [List.drop_drop]
      have hnext : next.val * rates.val + d = ((n + len : ℕ) : ℚ) * rates.val := by
        have e : next.val = start.val + len := by
          rw [f5.2.2, hrepv]
          have n1 : (rates.num : ℚ) ≠ 0 := by exact_mod_cast hr0.ne'
          push_cast
          field_simp
        rw [e]
        push_cast
        linarith
      have hnextP : next.val * rates.val * P = ((n + len : ℕ) : ℚ) * rates.val * P - d * P := by
        rw [← hnext]; ring
      have hF' : (1 : ℚ) ≤ h.length := by exact_mod_cast hF
      have hdw : d + sp.firstInputSample ≤ N := by
        rcases s5 with s5 | s5
        · rw [s5]; omega
        · have : ((d + sp.firstInputSample : ℕ) : ℚ) * P ≤ (N : ℚ) * P := by
            rw [hnextP] at s5
            push_cast at c2 s5 ⊢
            linarith
          have := le_of_mul_le_mul_right this hPq
          exact_mod_cast this
      rw [ih (x ++ chunk) (d + sp.firstInputSample) (n + len) sp.startPoint (by rw [List.length_append, ← hN]; exact c4)
        (by rw [List.length_append, ← hN]; exact hdw) s2 s3 (by push_cast; push_cast at hnext; linarith)
        (by
          rcases s5 with s5 | s5
          · rw [s5, add_zero]
            rcases hdF with h0 | h0
            · exact .inl h0
            · right
              have : (n : ℚ) * rates.val * P ≤ ((n + len : ℕ) : ℚ) * rates.val * P := by
                push_cast
                have : (0 : ℚ) ≤ (len : ℚ) * rates.val * P := by positivity
                linarith
              linarith
          · right
            rw [hnextP] at s5
            push_cast at s5 ⊢
            linarith)
        (by
          rw [hnextP] at s6
          push_cast at s6 ⊢
          linarith)]
      rw [Out.ok_bind, Out.pure_def]
      congr 1
      have hy : y = (List.range len).map (fun (k : ℕ) => lerpAt (upsampleAt (x ++ (chunk ++ rest.flatMap Prod.fst)) h P)
          (((n : ℚ) + k) * rates.val * P)) := by
        apply list_ext_sig
        · simpa using f2
        · intro i hi
          have hil : i < len := by omega
          rw [show (List.range len).map (fun (k : ℕ) => lerpAt (upsampleAt (x ++ (chunk ++ rest.flatMap Prod.fst)) h P)
            (((n : ℚ) + k) * rates.val * P)) = reg len (fun (k : ℕ) => lerpAt (upsampleAt (x ++ (chunk ++ rest.flatMap Prod.fst)) h P)
            (((n : ℚ) + k) * rates.val * P)) from rfl, sig_reg, if_pos hil, f3 i hil, hshift]
          obtain ⟨pos, hpos⟩ : ∃ pos : ℚ, pos = ((n : ℚ) + i) * rates.val * P := ⟨_, rfl⟩
          rw [← hpos]
          have hpos0 : (n : ℚ) * rates.val * P ≤ pos := by
            rw [hpos]
            have : (0 : ℚ) ≤ (i : ℚ) * rates.val * P := by positivity
            linarith
          have hposn : (0 : ℚ) ≤ pos := le_trans (by positivity) hpos0
          have hfl0 : 0 ≤ ⌊pos⌋ := Int.floor_nonneg.2 hposn
          obtain ⟨g, hg⟩ : ∃ g : ℕ, ⌊pos⌋ = g := ⟨⌊pos⌋.toNat, by omega⟩
          have hgN : g + 1 < N * P := by
            have := c1 i hil
            rw [← hpos, hg] at this
            exact_mod_cast this
          have hgd : d = 0 ∨ d * P + h.length ≤ g + 1 := by
            rcases hdF with h0 | h0
            · exact .inl h0
            · right
              have h1 : ((d * P + h.length - 1 : ℤ)) ≤ ⌊pos⌋ := by
                rw [Int.le_floor]
                push_cast
                linarith
              rw [hg] at h1
              have : (d * P + h.length : ℤ) ≤ (g + 1 : ℤ) := by omega
              exact_mod_cast this
          have hdg : d * P ≤ g := by
            rcases hgd with h0 | h0
            · rw [h0]; simp
            · omega
          have hup : ∀ g', g ≤ g' → g' < N * P → upsampleAt ((x ++ chunk).drop d) h P (g' - d * P) =
              upsampleAt (x ++ (chunk ++ rest.flatMap Prod.fst)) h P g' := by
            intro g' h1 h2
            rw [upsampleAt_drop (x ++ chunk) h P g' d (by omega) (by omega), ← List.append_assoc,
              upsampleAt_prefix (x ++ chunk) _ h P g' (by rw [List.length_append, ← hN]; exact h2)]
          unfold lerpAt
          rw [Int.fract_sub_natCast, Int.floor_sub_natCast, hg]
          rw [show ((g : ℤ) - ((d * P : ℕ) : ℤ)).toNat = g - d * P by omega, show ((g : ℤ)).toNat = g from rfl,
            show g - d * P + 1 = g + 1 - d * P by omega, hup g (le_refl _) (by omega), hup (g + 1) (by omega) hgN]
      rw [hy]
      simp only [List.map_cons, List.sum_cons, List.flatMap_cons]
      rw [List.range_add, List.map_append, List.map_map]
      congr 1
      apply List.map_congr_left
      intro k _
      simp only [Function.comp, List.append_assoc]
      congr 1
      push_cast
      ring
  have hk := key calls [] 0 0 (Rational.ofInt 0) hc (by simp) (canon_ofInt 0) (by simp [val_ofInt]) (by simp [val_ofInt]) (.inl rfl)
    (by
      have hF' : (1 : ℚ) ≤ h.length := by exact_mod_cast hF
      simp only [Nat.cast_zero, zero_mul, zero_add, one_mul]
      linarith)
  rw [show ([] : List R).drop 0 = [] from rfl] at hk
  rw [hk]
  congr 1
  apply List.map_congr_left
  intro k _
  rw [Nat.cast_zero, zero_add, List.nil_append]
  congr 1
  funext n
  exact upsampleAt_eq_conv _ h P n hP

/-- Non-vacuity of C33 for resampling: three chunks, rate ratio 2/3, three phases. -/
example : ∃ v, polyphaseDecomposeAlloc [(1 : ℚ), 2, 3, 4, 5] 3 = .ok v ∧
    ResampleCausal (R := ℚ) 3 5 (2 / 3) 12 [([1, 2], 2), ([3, 4], 3), ([5], 1)] 0 0 ∧
    resampleStream (fun a b => .ok (List.zipWith (· * ·) a b).sum) v ⟨2, 3⟩ [([1, 2], 2), ([3, 4], 3), ([5], 1)] [] (Rational.ofInt 0) =
      resampleStream (fun a b => .ok (List.zipWith (· * ·) a b).sum) v ⟨2, 3⟩ [([1, 2, 3, 4, 5], 6)] [] (Rational.ofInt 0) := by
  refine ⟨⟨[12, 3, 15, 6, 9], 3⟩, by decide +kernel, ?_, by decide +kernel⟩
  simp only [ResampleCausal, List.length_cons, List.length_nil]
  decide +kernel

/-! ### C34: the advertised resampling lengths are safe -/

/-- **C34**, full resampling: the library computes `⌊L / (rate · P)⌋` outputs, `L` being the number of samples of the oversampled
signal; the call succeeds with that length, every sample as in C32, and one more sample would end beyond the signal. -/
theorem C34_resampleFull {dot : List R → List R → Out R} (hd : IsDot dot) (x h : List R) (v : PolyphaseView R) (P : ℕ)
    (hr : v.Represents P h) (hP : 0 < P) (hF : 0 < h.length) (rates : Rational) (hrc : Canon rates) (hr0 : 0 < rates.num)
    (hfit : (x.length * P + h.length + P : ℤ) * (rates.den * rates.num * P) ≤ 2 ^ 62) :
    resampleFull dot x v rates = .ok ((List.range ⌊(convLengthFull (x.length * P) h.length : ℚ) / (rates.val * P)⌋.toNat).map
      (fun (k : ℕ) => lerpAt (fun n => convAt (zeroStuffed x P) h n) ((k : ℚ) * rates.val * P))) := by
  have hP' : (0 : ℤ) < P := by exact_mod_cast hP
  have hPq : (0 : ℚ) < P := by exact_mod_cast hP
  have hv : v.filterCount = P := hr.1
  have hl : v.buffer.length = h.length := hr.2.1
  have hval : (0 : ℚ) < rates.val := div_pos (by exact_mod_cast hr0) (by exact_mod_cast hrc.1)
  have fit : Fits (x.length * P + h.length + P : ℤ) 1 rates.num rates.den P :=
    ⟨by positivity, one_pos, hr0, hrc.1, hP', by rw [one_mul]; exact hfit⟩
  have hLW : ((convLengthFull (P * x.length) h.length : ℕ) : ℤ) ≤ (x.length * P + h.length + P : ℤ) := by
    have : convLengthFull (P * x.length) h.length ≤ x.length * P + h.length + P := by
      rw [mul_comm P]; unfold convLengthFull; split <;> omega
    exact_mod_cast this
  obtain ⟨mx, mx1, mx2⟩ := resampleLengthFull_spec hrc fit hLW
  obtain ⟨L, hL⟩ : ∃ L : ℕ, L = convLengthFull (x.length * P) h.length := ⟨_, rfl⟩
  rw [mul_comm P, ← hL] at mx2
  rw [mul_comm P, ← hL] at hLW
  have hb := hrc.1
  have hLb : (L : ℤ) * rates.den ≤ (x.length * P + h.length + P : ℤ) * rates.den := mul_le_mul_of_nonneg_right hLW hb.le
  have hfl := floor_rep mx2 (by positivity) holds64 (by have := fit.Wb_le; omega)
  have hq : (L : ℚ) / (rates.val * P) = ((L * rates.den : ℤ) : ℚ) / ((rates.num * P : ℤ) : ℚ) := by
    unfold Rational.val
    have n1 : (rates.num : ℚ) ≠ 0 := by exact_mod_cast hr0.ne'
    have n2 : (rates.den : ℚ) ≠ 0 := by exact_mod_cast hrc.1.ne'
    push_cast
    field_simp
  have hfl' : ⌊(L : ℚ) / (rates.val * P)⌋ = L * rates.den / (rates.num * P) := by
    obtain ⟨d, hd'⟩ := Int.eq_ofNat_of_zero_le (mul_pos hr0 hP').le
    rw [hq, hd', Int.cast_natCast, Rat.floor_intCast_div_natCast]
  obtain ⟨n, hn⟩ : ∃ n : ℕ, ⌊(L : ℚ) / (rates.val * P)⌋ = n := ⟨⌊(L : ℚ) / (rates.val * P)⌋.toNat, by
    have : 0 ≤ ⌊(L : ℚ) / (rates.val * P)⌋ := Int.floor_nonneg.2 (by positivity)
    omega⟩
  have hle : (n : ℚ) ≤ (L : ℚ) / (rates.val * P) := by
    have := Int.floor_le ((L : ℚ) / (rates.val * P))
    rw [hn] at this
    exact_mod_cast this
  rw [← hfl', hn] at hfl
  rw [← hL, hn, Int.toNat_natCast]
  obtain ⟨y, sp, h1, h2, h3⟩ := C32_resample hd (List.replicate n 0) x h v P hr hP hF rates (Rational.ofInt 0) hrc (canon_ofInt 0) hr0
    (by simp [Rational.ofInt]) (by simpa [Rational.ofInt] using hfit) (by rw [val_ofInt, ← hL]; simpa using hle)
  unfold resampleFull resampleAlloc
  simp only [PolyphaseView.numPhases, PolyphaseView.sizeOriginal, hv, hl]
  rw [mx1, Out.ok_bind, hfl, Out.ok_bind, toSize_nat, h1, Out.ok_bind, Out.pure_def]
  congr 1
  rw [List.length_replicate] at h2 h3
  apply list_ext_sig
  · simpa using h2
  · intro i hi
    simp only at hi ⊢
    rw [h3 i (by omega), val_ofInt]
    rw [show (List.range n).map (fun (k : ℕ) => lerpAt (fun n => convAt (zeroStuffed x P) h n) ((k : ℚ) * rates.val * P)) =
      reg n (fun (k : ℕ) => lerpAt (fun n => convAt (zeroStuffed x P) h n) ((k : ℚ) * rates.val * P)) from rfl, sig_reg, if_pos (by omega)]
    simp

/-- **C34**, central resampling: the library starts where the filter first overlaps the signal entirely (or the signal the filter)
and computes `⌊M / (rate · P)⌋` outputs, `M` being the central convolution length on the oversampled grid; the call succeeds. -/
theorem C34_resampleCentral {dot : List R → List R → Out R} (hd : IsDot dot) (x h : List R) (v : PolyphaseView R) (P : ℕ)
    (hr : v.Represents P h) (hP : 0 < P) (hF : 0 < h.length) (hx : 0 < x.length) (rates : Rational) (hrc : Canon rates)
    (hr0 : 0 < rates.num)
    (hfit : (x.length * P + h.length + P : ℤ) * (rates.num * P * rates.den * rates.num * P) ≤ 2 ^ 62) :
    resampleCentral dot x v rates = .ok ((List.range ⌊(convLengthCentral (x.length * P) h.length : ℚ) / (rates.val * P)⌋.toNat).map
      (fun (k : ℕ) => lerpAt (fun n => convAt (zeroStuffed x P) h n)
        ((min h.length (x.length * P) - 1 : ℚ) + (k : ℚ) * rates.val * P))) := by
  have hP' : (0 : ℤ) < P := by exact_mod_cast hP
  have hPq : (0 : ℚ) < P := by exact_mod_cast hP
  have hv : v.filterCount = P := hr.1
  have hl : v.buffer.length = h.length := hr.2.1
  have hval : (0 : ℚ) < rates.val := div_pos (by exact_mod_cast hr0) (by exact_mod_cast hrc.1)
  obtain ⟨a, ha⟩ : ∃ a, a = rates.num := ⟨_, rfl⟩
  obtain ⟨b, hb⟩ : ∃ b, b = rates.den := ⟨_, rfl⟩
  have hrr : Rep rates a b := ⟨hrc, hb ▸ hrc.1, by unfold Rational.val; rw [ha, hb]⟩
  obtain ⟨W, hW⟩ : ∃ W : ℤ, W = (x.length * P + h.length + P : ℤ) := ⟨_, rfl⟩
  have fit0 : Fits W (rates.num * P) rates.num rates.den P := by
    rw [hW]
    exact ⟨by positivity, mul_pos hr0 hP', hr0, hrc.1, hP', hfit⟩
  have fit := fit0
  rw [← ha, ← hb] at fit
  have fa := fit.ha
  have fb := fit.hb
  have hxP : 0 < x.length * P := Nat.mul_pos hx hP
  obtain ⟨m, hm⟩ : ∃ m : ℕ, m = min h.length (x.length * P) := ⟨_, rfl⟩
  obtain ⟨L, hL⟩ : ∃ L : ℕ, L = convLengthCentral (x.length * P) h.length := ⟨_, rfl⟩
  obtain ⟨T, hT⟩ : ∃ T : ℕ, T = convLengthFull (x.length * P) h.length := ⟨_, rfl⟩
  have hm1 : 1 ≤ m := by omega
  have hLm : (m - 1) + L ≤ T := by
    rw [hL, hT]; unfold convLengthCentral convLengthFull
    rw [if_neg (by omega), if_neg (by omega)]
    omega
  have hTW : T + P ≤ x.length * P + h.length + P := by
    rw [hT]; unfold convLengthFull; split <;> omega
  have hTW' : (T : ℤ) + P ≤ W := by rw [hW]; exact_mod_cast hTW
  have hWb := fit.Wb_le
  have bW := fit.W_le
  have ba := fit.a_le
  have bb := fit.b_le
  have bP := fit.P_le
  have baP := fit.aP_le
  have hLb : (L : ℤ) * b ≤ W * b := mul_le_mul_of_nonneg_right (by omega) fb.le
  have hLb0 : 0 ≤ (L : ℤ) * b := by positivity
  have hmb : ((m : ℤ) - 1) * b ≤ W * b := mul_le_mul_of_nonneg_right (by omega) fb.le
  have hm0 : (0 : ℤ) ≤ (m : ℤ) - 1 := by omega
  have hmb0 : 0 ≤ ((m : ℤ) - 1) * b := mul_nonneg hm0 fb.le
  -- start point
  obtain ⟨s0, s01, s02⟩ := make_rep (c := int64Debug) (n := (m : ℤ) - 1) holds64 hP' (by rw [abs_of_nonneg hm0]; omega) (by omega)
  obtain ⟨st, st1, st2⟩ := div_rep (m := ((m : ℤ) - 1) * b) (D := P * a) s02 hrr fa (mul_pos hP' fa) (by ring) holds64
    (s02.within (by rw [abs_of_nonneg hm0]; omega) (by omega)) (hrr.within (by rw [abs_of_pos fa]; omega) (by omega))
    (by rw [abs_of_nonneg hmb0]; omega) (by rw [mul_comm]; omega)
  -- length
  obtain ⟨s, s1, s2⟩ := div_rep (m := L * b) (D := a) (rep_ofInt L) hrr fa fa (by ring) holds64
    ((rep_ofInt L).within (by rw [abs_of_nonneg (by omega)]; omega) (by omega))
    (hrr.within (by rw [abs_of_pos fa]; omega) (by omega)) (by rw [abs_of_nonneg hLb0]; omega) (by omega)
  obtain ⟨t, t1, t2⟩ := divInt_rep s2 hP' holds64 (by rw [abs_of_nonneg hLb0]; omega) (by omega) (by omega)
  have hfl := floor_rep t2 hLb0 holds64 (by omega)
  have hq : (L : ℚ) / (rates.val * P) = ((L * b : ℤ) : ℚ) / ((a * P : ℤ) : ℚ) := by
    unfold Rational.val
    rw [← ha, ← hb]
    have n1 : (a : ℚ) ≠ 0 := by exact_mod_cast fa.ne'
    have n2 : (b : ℚ) ≠ 0 := by exact_mod_cast fb.ne'
    push_cast
    field_simp
  have hfl' : ⌊(L : ℚ) / (rates.val * P)⌋ = L * b / (a * P) := by
    obtain ⟨d, hd'⟩ := Int.eq_ofNat_of_zero_le (mul_pos fa hP').le
    rw [hq, hd', Int.cast_natCast, Rat.floor_intCast_div_natCast]
  obtain ⟨n, hn⟩ : ∃ n : ℕ, ⌊(L : ℚ) / (rates.val * P)⌋ = n := ⟨⌊(L : ℚ) / (rates.val * P)⌋.toNat, by
    have : 0 ≤ ⌊(L : ℚ) / (rates.val * P)⌋ := Int.floor_nonneg.2 (by positivity)
    omega⟩
  have hle : (n : ℚ) ≤ (L : ℚ) / (rates.val * P) := by
    have := Int.floor_le ((L : ℚ) / (rates.val * P))
    rw [hn] at this
    exact_mod_cast this
  rw [← hfl', hn] at hfl
  have hstv : st.val * rates.val * P = (m : ℚ) - 1 := by
    rw [st2.2.2]
    unfold Rational.val
    rw [← ha, ← hb]
    have n1 : (a : ℚ) ≠ 0 := by exact_mod_cast fa.ne'
    have n2 : (b : ℚ) ≠ 0 := by exact_mod_cast fb.ne'
    push_cast
    field_simp
  have hmax : (st.val + (List.replicate n (0 : R)).length) * rates.val * P ≤ convLengthFull (x.length * P) h.length := by
    rw [List.length_replicate, add_mul, add_mul, hstv, ← hT]
    rw [le_div_iff₀ (mul_pos hval hPq)] at hle
    have : (((m - 1) + L : ℕ) : ℚ) ≤ T := by exact_mod_cast hLm
    push_cast [hm1] at this
    linarith
  rw [mul_comm (P : ℤ) a] at st2
  rw [ha] at st2
  obtain ⟨y, sp, _, h1, h2, h3, _⟩ := resample_spec hd (List.replicate n 0) x h v P hr hF hrc fit0 _ st2 hmb0
    (by rw [hW]; push_cast; rfl) hmax
  rw [← hL, hn, Int.toNat_natCast]
  unfold resampleCentral resampleAlloc
  simp only [PolyphaseView.numPhases, PolyphaseView.sizeOriginal, hv, hl]
  rw [← hm, s01, Out.ok_bind]
  unfold resampleLengthCentral Rational.intDiv
  simp only
  rw [mul_comm P, ← hL, s1, Out.ok_bind, t1, Out.ok_bind, hfl, Out.ok_bind, st1, Out.ok_bind, toSize_nat, h1, Out.ok_bind, Out.pure_def]
  congr 1
  rw [List.length_replicate] at h2 h3
  apply list_ext_sig
  · simpa using h2
  · intro i hi
    simp only at hi ⊢
    rw [h3 i (by omega), add_mul, add_mul, hstv]
    rw [show ∀ g : ℕ → R, (List.range n).map g = reg n g from fun _ => rfl, sig_reg, if_pos (by omega)]
    congr 1
    funext k
    exact upsampleAt_eq_conv x h P k hP

/-- The central form refuses empty inputs and empty filters: the start point would be negative. -/
theorem C34_central_empty (dot : List ℚ → List ℚ → Out ℚ) :
    resampleCentral dot [] ⟨[1, 2], 2⟩ ⟨1, 1⟩ = .assertFail ∧ resampleCentral dot [1, 2] ⟨[], 2⟩ ⟨1, 1⟩ = .assertFail := by
  constructor <;> rfl

/-- **C34**, the reported delay: half the filter's length less one, measured in output samples. -/
theorem C34_delay (F P : ℕ) (hP : 0 < P) (hF : 0 < F) (rates : Rational) (hrc : Canon rates) (hr0 : 0 < rates.num)
    (hfit : (F : ℤ) * rates.den ≤ 2 ^ 62 ∧ 2 * (P : ℤ) * rates.num ≤ 2 ^ 62 ∧ rates.num ≤ 2 ^ 62) :
    ∃ d, resampleDelay F P rates = .ok d ∧ d.val = ((F : ℚ) - 1) / 2 / (rates.val * P) := by
  obtain ⟨f1, f2, f3⟩ := hfit
  have hP' : (0 : ℤ) < 2 * P := by positivity
  have hF0 : (0 : ℤ) ≤ (F : ℤ) - 1 := by omega
  have hb := hrc.1
  have b1 : (F : ℤ) ≤ F * rates.den := by nlinarith
  have b2 : rates.den ≤ F * rates.den := by nlinarith
  have b3 : 2 * (P : ℤ) ≤ 2 * P * rates.num := by nlinarith
  have hrr : Rep rates rates.num rates.den := ⟨hrc, hb, rfl⟩
  have hm0 : 0 ≤ ((F : ℤ) - 1) * rates.den := mul_nonneg hF0 hb.le
  obtain ⟨s0, s01, s02⟩ := make_rep (c := int64Debug) (n := (F : ℤ) - 1) holds64 hP' (by rw [abs_of_nonneg hF0]; omega) (by omega)
  obtain ⟨st, st1, st2⟩ := div_rep (m := ((F : ℤ) - 1) * rates.den) (D := 2 * P * rates.num) s02 hrr hr0 (mul_pos hP' hr0) (by ring) holds64
    (s02.within (by rw [abs_of_nonneg hF0]; omega) (by omega)) (hrr.within (by rw [abs_of_pos hr0]; omega) (by omega))
    (by rw [abs_of_nonneg hm0]; linarith) (by omega)
  refine ⟨st, ?_, ?_⟩
  · unfold resampleDelay
    rw [s01, Out.ok_bind, st1]
  · rw [st2.2.2]
    unfold Rational.val
    have n1 : (rates.num : ℚ) ≠ 0 := by exact_mod_cast hr0.ne'
    have n2 : (rates.den : ℚ) ≠ 0 := by exact_mod_cast hb.ne'
    have n3 : (P : ℚ) ≠ 0 := by exact_mod_cast hP.ne'
    push_cast
    field_simp

/-- A zero rate is refused. -/
theorem C32_zero_rate (dot : List R → List R → Out R) (out x : List R) (v : PolyphaseView R) (start : Rational) (hsc : Canon start)
    (hP : 0 < v.numPhases) (hs0 : 0 ≤ start.num) (hb : start.num ≤ 2 ^ 62 ∧ start.den ≤ 2 ^ 62) :
    resample dot out x v ⟨0, 1⟩ start = .assertFail := by
  have hrep : Rep start start.num start.den := ⟨hsc, hsc.1, rfl⟩
  have z2 := (rep_ofInt 0).scale hsc.1
  rw [zero_mul, one_mul] at z2
  have c2 := (compare_rep hrep z2 holds64 (by rw [abs_of_nonneg hs0]; omega) (by norm_num) (by omega)).2
  rw [decide_eq_true hs0] at c2
  have c1 : Rational.ge int64Debug ⟨0, 1⟩ (Rational.ofInt 0) = .ok true := by decide +kernel
  unfold resample
  rw [c1, Out.ok_bind, cassert_true rfl, Out.ok_bind, c2, Out.ok_bind, cassert_true rfl, Out.ok_bind, cassert_true hP, Out.ok_bind]
  unfold resampleLengthFull Rational.intDiv Rational.div
  rfl

end
end Verif
