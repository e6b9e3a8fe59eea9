import Verif.Lemmas.OverlapAddFloat
import Verif.Props.PocketRoundedBlue

/-! # C91: overlap-add convolution in floating point -/

set_option linter.unusedSimpArgs false
set_option linter.unusedSectionVars false
set_option linter.unusedVariables false

namespace Verif
open PocketF

/-- **C91**: overlap-add with rounded additions and inexact chunk convolutions.  `l` is the longer and `s` the shorter operand,
in either order.  The error of an output sample does not depend on the length of the signal: only the
`(K - 1) / |s| + 1` chunks that overlap it contribute, each with its own error `ε` and one rounding. -/
theorem C91_overlap_add {R : Type} [Add R] [Mul R] [Zero R] (A : RoundedAdd R) (auto : ℕ → ℕ → Out ℕ)
    {cc : List R → List R → Out (List R)} (out u v l s : List R) (offset chunkSize K : ℕ) (clear : Bool) (A0 U V ε : ℝ)
    (hls : (u = l ∧ v = s ∧ s.length ≤ l.length) ∨ (u = s ∧ v = l ∧ s.length < l.length))
    (hcc : ApproxCircularConvolution A cc K U V ε)
    (hauto : (if chunkSize = 0 then auto l.length s.length else pure chunkSize) = .ok K)
    (hs : s ≠ []) (hK : 2 * s.length - 1 ≤ K)
    (hb : offset + out.length ≤ l.length + s.length - 1)
    (hU : ∀ x ∈ l, A.finite x ∧ ‖A.val x‖ ≤ U) (hV : ∀ x ∈ s, A.finite x ∧ ‖A.val x‖ ≤ V)
    (hA : 0 ≤ A0) (ho : clear = false → ∀ x ∈ out, A.finite x ∧ ‖A.val x‖ ≤ A0)
    (S : ℝ) (hS : S = A0 + U * ∑ m ∈ Finset.range s.length, ‖A.val (sig s m)‖)
    (B : ℕ) (hBdef : B = (K - 1) / s.length + 1) (hB : 2 * B * A.u ≤ 1)
    (hH : S + 2 * B * (ε + A.u * S) + ε ≤ A.huge) :
    ∃ out', overlapAdd auto cc out u v offset chunkSize clear = .ok out' ∧ out'.length = out.length ∧
      ∀ j, j < out.length → A.finite (sig out' j) ∧
        ‖A.val (sig out' j) - ((if clear then 0 else A.val (sig out j)) +
          convAt (u.map A.val) (v.map A.val) (offset + j))‖ ≤ 2 * B * (ε + A.u * S) := by
  have hs0 : 0 < s.length := List.length_pos_iff.2 hs
  have hsl : s.length ≤ l.length := by rcases hls with h | h <;> omega
  have key := overlapAddOrdered_near A auto out l s offset chunkSize K clear A0 U V ε hcc hauto hsl hs0 hK
    (by unfold convLengthFull; rw [if_neg (by omega)]; omega) hU hV hA ho S hS B hBdef hB hH
  rcases hls with ⟨rfl, rfl, h⟩ | ⟨rfl, rfl, h⟩
  · unfold overlapAdd
    rw [if_neg (by omega)]
    exact key
  · unfold overlapAdd
    rw [if_pos h]
    simp only [convAt_comm (u.map A.val)]
    exact key

variable {F : Type} [Zero F] [Add F] [Sub F] [Mul F] [Fma F] [Neg F]

/-- **C91**: transform, multiply, transform back: the circular convolution of two chunks of `K` samples, with an error governed
by `ρ`, the relative error of one transform. -/
theorem C91_chunk (A : FloatArithNeg F) (one : F) (inv : Option F) (K : ℕ) (q G U V : ℝ)
    {fft : Bool → Option F → List (Cx F) → Out (List (Cx F))} (hT : TransformWithin A one K q G fft)
    (hK : 1 ≤ K) (hq : 64 * K ≤ q) (hG : 1 ≤ G) (hone : A.finite one ∧ A.val one = 1)
    (hinv : A.finite (inv.getD one) ∧ |A.val (inv.getD one) - 1 / K| ≤ 2 * A.u / K) (hu : 192 * A.u ≤ 1)
    (htU : A.tiny ≤ A.u * U) (htV : A.tiny ≤ A.u * V) (htW : A.tiny ≤ A.u * (U * V))
    (hHU : G * (U + A.tiny) ≤ A.huge) (hHV : G * (V + A.tiny) ≤ A.huge)
    (ρ : ℝ) (hρ : ρ = 3 * q * A.u / K) (hHP : 5 * G * (K * (1 + ρ)) ^ 2 * (U * V) ≤ A.huge) :
    ApproxCircularConvolution (cxAdd A) (PocketF.olaPipelineComplex fft inv) K U V (4 * ρ * (1 + ρ) ^ 2 * K ^ 2 * (U * V)) := by
  have hK0 : (0 : ℝ) < K := by exact_mod_cast (by omega : 0 < K)
  have e : (K : ℝ) * (1 + ρ) = K + 3 * q * A.u := by rw [hρ]; field_simp
  rw [e] at hHP
  rw [hρ]
  exact Ola.chunk_near A one inv K q G U V hT hK hq hG hone hinv hu htU htV htW hHU hHV _ rfl hHP

/-- **C91**: the library's complex transform of any length `K`, whichever plan it selects. -/
theorem C91_transform_any (A : FloatArithNeg F) (h Q : ℝ) (K N : ℕ) (E : FftEnv F) (hE : EnvOk A h K N E) (hK : 1 ≤ K)
    (h1 : 1 ≤ h) (hQ : primeSum K ≤ Q) (hQ' : primeSum N ≤ Q)
    (hu : 192 * (h * (Q + 1)) ^ 2 * A.u ≤ 1) (ht : N * A.tiny ≤ A.u) (hH : 10000 * (h * (Q + 1)) ^ 3 ≤ A.huge) :
    TransformWithin A E.one K (560 * h * (Q + 1) * N ^ 2) (1600000 * (h * (Q + 1)) ^ 4 * N ^ 2) E.run := by
  intro fwd f x X hx hf hff hf2 hH'
  subst hx
  exact C90_complex_fft A h X Q E.lits E.one E.xn2 f E.tw E.tw2 E.tmp E.cost fwd x (List.replicate x.length 0) E.junk N
    (List.ne_nil_of_length_pos (by omega)) (by simp) hE.good hQ hQ' h1 hE.lits hE.tw hE.tw2 hE.tmp hE.one hE.xn2 hf hff hf2
    hu ht hH hH'

/-- The plan is the mixed-radix one if the length is below 50 or no prime factor exceeds its square root. -/
theorem PocketF.pocketfftC_smooth (L : Lits F) (one xn2 : F) (tw tw2 tmp : ℕ → Cx F) (cost : ℕ → ℝ) (K : ℕ)
    (junk : ℕ → Cx F) (hK : 1 ≤ K) (hs : K < 50 ∨ ∀ p, p.Prime → p ∣ K → p * p ≤ K) :
    pocketfftC L one xn2 tw tw2 tmp cost K junk = .ok (.pack tw) := by
  obtain ⟨l, l1, l2, l3, -⟩ := Pocket.largestPrimeFactor_ok (n := K) (by omega)
  unfold pocketfftC
  rw [if_neg (by omega)]
  by_cases h5 : K < 50
  · simp only [if_pos h5, Out.pure_def, Out.ok_bind]
    rw [if_pos (by omega)]
  · simp only [if_neg h5, l1, Out.ok_bind]
    have := l3 (by omega)
    rw [if_pos]
    · rfl
    · rcases hs with hs | hs
      · omega
      · exact hs l this.1 this.2

/-- **C91**: the library's complex transform of a length below 50, or without prime factors above its square root (every
power of two): the mixed-radix plan with its much smaller error. -/
theorem C91_transform_smooth (A : FloatArithNeg F) (h : ℝ) (K N : ℕ) (E : FftEnv F) (hE : EnvOk A h K N E) (hK : 1 ≤ K)
    (hs : K < 50 ∨ ∀ p, p.Prime → p ∣ K → p * p ≤ K) (h1 : 1 ≤ h)
    (hu : 192 * (h * (primeSum K + 1)) ^ 2 * A.u ≤ 1) :
    TransformWithin A E.one K (66 * h * (primeSum K + 1) * K) (4800 * h ^ 3 * (primeSum K + 1) ^ 2 * K) E.run := by
  intro fwd f x X hx hf hff hf2 hH
  subst hx
  have u0 := A.u_nonneg
  have t0 := A.tiny_nonneg
  have hx0 : x ≠ [] := List.ne_nil_of_length_pos (by omega)
  have hX : 0 ≤ X := (norm_nonneg _).trans (hf _ (List.getElem_mem (by omega : 0 < x.length))).2
  have hrun : E.run fwd f x = cfftExec E.lits E.one E.tw fwd f x (Pocket.fresh E.junk x.length) := by
    unfold FftEnv.run c2c
    have hcopy := Pocket.copy_ok (N := x.length) (A := fun m => x.getD m ⟨0, 0⟩) (out := List.replicate x.length 0) le_rfl (by simp)
    rw [← list_tabC] at hcopy
    rw [if_neg (by omega), pocketfftC_smooth _ _ _ _ _ _ _ _ _ hK hs, Out.ok_bind, hcopy, Out.ok_bind]
    rfl
  rw [hrun]
  have hD : 0 ≤ A.u * X + A.tiny := by positivity
  have hP : (0 : ℝ) ≤ primeSum x.length := Nat.cast_nonneg _
  have hn : (0 : ℝ) ≤ x.length := Nat.cast_nonneg _
  cases f with
  | none =>
    obtain ⟨y, y1, y2, y3⟩ := C89_mixed_radix A h X E.lits E.one E.tw fwd x (Pocket.fresh E.junk x.length) hx0
      (Pocket.fresh_length _ _) h1 hE.lits hE.tw hf hu hH
    refine ⟨y, y1, y2, fun k hk => ⟨(y3 k hk).1, ?_⟩⟩
    simp only [Option.getD_none, hE.one.2, abs_one, one_mul, Complex.ofReal_one]
    refine (y3 k hk).2.trans ?_
    have : 64 * h * x.length * primeSum x.length ≤ 66 * h * (primeSum x.length + 1) * x.length := by
      have : 0 ≤ h * x.length := by positivity
      have : 0 ≤ h * x.length * primeSum x.length := by positivity
      linarith
    have := mul_le_mul_of_nonneg_right this hD
    linarith
  | some f =>
    simp only [Option.getD_some] at hff hf2 ⊢
    obtain ⟨y, y1, y2, y3⟩ := C89_scaled A h X E.lits E.one f E.tw fwd x (Pocket.fresh E.junk x.length) hx0
      (Pocket.fresh_length _ _) h1 hE.lits hE.tw hf hff hf2 hu hH
    refine ⟨y, y1, y2, fun k hk => ⟨(y3 k hk).1, (y3 k hk).2.trans ?_⟩⟩
    have : h * x.length * (65 * primeSum x.length + 2) ≤ 66 * h * (primeSum x.length + 1) * x.length := by
      have : 0 ≤ h * x.length := by positivity
      have : 0 ≤ h * x.length * primeSum x.length := by positivity
      linarith
    have := mul_le_mul_of_nonneg_left (mul_le_mul_of_nonneg_right this hD) (abs_nonneg (A.val f))
    linarith

set_option maxHeartbeats 1000000 in
/-- **C91** as the user sees it: overlap-add of two complex signals in any floating point type, in chunks of a length `K`
below 50 or without prime factors above its square root.  Every output sample is finite and within the stated distance of
the exact convolution (plus the previous contents, if accumulating), however long the signal is. -/
theorem C91_complex (A : FloatArithNeg F) (h A0 U V : ℝ) (E : FftEnv F) (inv : Option F) (auto : ℕ → ℕ → Out ℕ)
    (out u v l s : List (Cx F)) (offset chunkSize K N : ℕ) (clear : Bool)
    (hls : (u = l ∧ v = s ∧ s.length ≤ l.length) ∨ (u = s ∧ v = l ∧ s.length < l.length))
    (hE : EnvOk A h K N E) (h1 : 1 ≤ h) (hK50 : K < 50 ∨ ∀ p, p.Prime → p ∣ K → p * p ≤ K)
    (hinv : A.finite (inv.getD E.one) ∧ |A.val (inv.getD E.one) - 1 / K| ≤ 2 * A.u / K)
    (hauto : (if chunkSize = 0 then auto l.length s.length else pure chunkSize) = .ok K)
    (hs : s ≠ []) (hK : 2 * s.length - 1 ≤ K) (hb : offset + out.length ≤ l.length + s.length - 1)
    (hU : ∀ x ∈ l, FinC A x ∧ ‖cval A x‖ ≤ U) (hV : ∀ x ∈ s, FinC A x ∧ ‖cval A x‖ ≤ V)
    (hA : 0 ≤ A0) (ho : clear = false → ∀ x ∈ out, FinC A x ∧ ‖cval A x‖ ≤ A0)
    (hu : 192 * (h * (primeSum K + 1)) ^ 2 * A.u ≤ 1)
    (htU : A.tiny ≤ A.u * U) (htV : A.tiny ≤ A.u * V) (htW : A.tiny ≤ A.u * (U * V))
    (B : ℕ) (hBdef : B = (K - 1) / s.length + 1) (hB : 2 * B * A.u ≤ 1)
    (hHU : 4800 * h ^ 3 * (primeSum K + 1) ^ 2 * K * (U + A.tiny) ≤ A.huge)
    (hHV : 4800 * h ^ 3 * (primeSum K + 1) ^ 2 * K * (V + A.tiny) ≤ A.huge)
    (hHP : 102000 * h ^ 3 * (primeSum K + 1) ^ 2 * K ^ 3 * (U * V) ≤ A.huge)
    (S ε : ℝ) (hS : S = A0 + U * ∑ m ∈ Finset.range s.length, ‖cval A (sig s m)‖)
    (hε : ε = 3400 * h * (primeSum K + 1) * A.u * K ^ 2 * (U * V))
    (hH : S + 2 * B * (ε + A.u * S) + ε ≤ A.huge) :
    ∃ out', overlapAdd auto (PocketF.olaPipelineComplex E.run inv) out u v offset chunkSize clear = .ok out' ∧
      out'.length = out.length ∧ ∀ j, j < out.length → FinC A (sig out' j) ∧
        ‖cval A (sig out' j) - ((if clear then 0 else cval A (sig out j)) +
          convAt (u.map (cval A)) (v.map (cval A)) (offset + j))‖ ≤ 2 * B * (ε + A.u * S) := by
  have u0 := A.u_nonneg
  have hs0 : 0 < s.length := List.length_pos_iff.2 hs
  have hsl : s.length ≤ l.length := by rcases hls with h | h <;> omega
  have hK1 : 1 ≤ K := by omega
  have hKr : (1 : ℝ) ≤ K := by exact_mod_cast hK1
  obtain ⟨Q, hQ⟩ : ∃ Q : ℝ, Q = primeSum K + 1 := ⟨_, rfl⟩
  have hQ1 : 1 ≤ Q := by rw [hQ]; have : (0 : ℝ) ≤ primeSum K := Nat.cast_nonneg _; linarith
  have hT := C91_transform_smooth A h K N E hE hK1 hK50 h1 hu
  rw [← hQ] at hT hu hHU hHV hHP hε
  have hhQ : 1 ≤ h * Q := by nlinarith
  have hU0 : 0 ≤ U := by
    obtain ⟨x, hx⟩ := List.exists_mem_of_length_pos (by omega : 0 < l.length)
    exact (norm_nonneg _).trans (hU x hx).2
  have hV0 : 0 ≤ V := by
    obtain ⟨x, hx⟩ := List.exists_mem_of_length_pos hs0
    exact (norm_nonneg _).trans (hV x hx).2
  have hW0 : 0 ≤ U * V := by positivity
  have hu192 : 192 * (h * Q) * A.u ≤ 1 := by
    have : 192 * (h * Q) * A.u ≤ 192 * (h * Q) ^ 2 * A.u := by
      apply mul_le_mul_of_nonneg_right _ u0
      nlinarith
    linarith
  have hu1 : 192 * A.u ≤ 1 := by
    have : 192 * A.u * 1 ≤ 192 * A.u * (h * Q) := mul_le_mul_of_nonneg_left hhQ (by positivity)
    linarith
  obtain ⟨ρ, hρ⟩ : ∃ ρ, ρ = 198 * (h * Q) * A.u := ⟨_, rfl⟩
  have hρ0 : 0 ≤ ρ := by rw [hρ]; positivity
  have hρ1 : ρ ≤ 33 / 32 := by rw [hρ]; linarith
  have hρ2 : (1 + ρ) ^ 2 ≤ 4.25 := by nlinarith
  have hρe : ρ = 3 * (66 * h * Q * K) * A.u / K := by rw [hρ]; field_simp; ring
  have hG1 : 1 ≤ 4800 * h ^ 3 * Q ^ 2 * K := by
    have a : 1 ≤ h ^ 3 := one_le_pow₀ h1
    have b : 1 ≤ Q ^ 2 := one_le_pow₀ hQ1
    have c : 1 ≤ h ^ 3 * Q ^ 2 := by nlinarith
    have d : 1 ≤ h ^ 3 * Q ^ 2 * K := by nlinarith
    linarith
  have hcc := C91_chunk A E.one inv K (66 * h * Q * K) (4800 * h ^ 3 * Q ^ 2 * K) U V hT hK1
    (by have : 1 * (K : ℝ) ≤ h * Q * K := mul_le_mul_of_nonneg_right hhQ (by linarith)
        linarith)
    hG1 hE.one hinv hu1 htU htV htW hHU hHV ρ hρe (by
      refine le_trans ?_ hHP
      have : (1 + ρ) ^ 2 * (24000 * h ^ 3 * Q ^ 2 * K ^ 3 * (U * V)) ≤ 4.25 * (24000 * h ^ 3 * Q ^ 2 * K ^ 3 * (U * V)) :=
        mul_le_mul_of_nonneg_right hρ2 (by positivity)
      rw [mul_pow]
      linarith)
  have hεle : 4 * ρ * (1 + ρ) ^ 2 * K ^ 2 * (U * V) ≤ ε := by
    rw [hε]
    have : (1 + ρ) ^ 2 * (4 * ρ * K ^ 2 * (U * V)) ≤ 4.25 * (4 * ρ * K ^ 2 * (U * V)) :=
      mul_le_mul_of_nonneg_right hρ2 (by positivity)
    have e : 4.25 * (4 * ρ * K ^ 2 * (U * V)) = 3366 * h * Q * A.u * K ^ 2 * (U * V) := by rw [hρ]; ring
    have p : 0 ≤ h * Q * A.u * K ^ 2 * (U * V) := by positivity
    linarith
  have hcc' : ApproxCircularConvolution (cxAdd A) (PocketF.olaPipelineComplex E.run inv) K U V ε := by
    intro a b ha hb haU hbV
    obtain ⟨c, c1, c2, c3⟩ := hcc a b ha hb haU hbV
    exact ⟨c, c1, c2, fun k hk => ⟨(c3 k hk).1, (c3 k hk).2.trans hεle⟩⟩
  exact C91_overlap_add (cxAdd A) auto out u v l s offset chunkSize K clear A0 U V ε hls hcc' hauto hs hK hb hU hV hA ho S hS
    B hBdef hB hH

set_option maxHeartbeats 1000000 in
/-- **C91**: the same for chunks of any length `K`, whichever plan the transforms use. -/
theorem C91_complex_any (A : FloatArithNeg F) (h A0 U V Q : ℝ) (E : FftEnv F) (inv : Option F) (auto : ℕ → ℕ → Out ℕ)
    (out u v l s : List (Cx F)) (offset chunkSize K N : ℕ) (clear : Bool)
    (hls : (u = l ∧ v = s ∧ s.length ≤ l.length) ∨ (u = s ∧ v = l ∧ s.length < l.length))
    (hE : EnvOk A h K N E) (h1 : 1 ≤ h) (hQ : primeSum K ≤ Q) (hQ' : primeSum N ≤ Q)
    (hinv : A.finite (inv.getD E.one) ∧ |A.val (inv.getD E.one) - 1 / K| ≤ 2 * A.u / K)
    (hauto : (if chunkSize = 0 then auto l.length s.length else pure chunkSize) = .ok K)
    (hs : s ≠ []) (hK : 2 * s.length - 1 ≤ K) (hb : offset + out.length ≤ l.length + s.length - 1)
    (hU : ∀ x ∈ l, FinC A x ∧ ‖cval A x‖ ≤ U) (hV : ∀ x ∈ s, FinC A x ∧ ‖cval A x‖ ≤ V)
    (hA : 0 ≤ A0) (ho : clear = false → ∀ x ∈ out, FinC A x ∧ ‖cval A x‖ ≤ A0)
    (hu : 192 * (h * (Q + 1)) ^ 2 * A.u ≤ 1) (ht : N * A.tiny ≤ A.u)
    (htU : A.tiny ≤ A.u * U) (htV : A.tiny ≤ A.u * V) (htW : A.tiny ≤ A.u * (U * V))
    (B : ℕ) (hBdef : B = (K - 1) / s.length + 1) (hB : 2 * B * A.u ≤ 1)
    (hHQ : 10000 * (h * (Q + 1)) ^ 3 ≤ A.huge)
    (hHU : 1600000 * (h * (Q + 1)) ^ 4 * N ^ 2 * (U + A.tiny) ≤ A.huge)
    (hHV : 1600000 * (h * (Q + 1)) ^ 4 * N ^ 2 * (V + A.tiny) ≤ A.huge)
    (ρ : ℝ) (hρ : ρ = 1680 * h * (Q + 1) * N ^ 2 * A.u / K)
    (hHP : 8000000 * (h * (Q + 1)) ^ 4 * N ^ 2 * (K * (1 + ρ)) ^ 2 * (U * V) ≤ A.huge)
    (S ε : ℝ) (hS : S = A0 + U * ∑ m ∈ Finset.range s.length, ‖cval A (sig s m)‖)
    (hε : ε = 4 * ρ * (1 + ρ) ^ 2 * K ^ 2 * (U * V))
    (hH : S + 2 * B * (ε + A.u * S) + ε ≤ A.huge) :
    ∃ out', overlapAdd auto (PocketF.olaPipelineComplex E.run inv) out u v offset chunkSize clear = .ok out' ∧
      out'.length = out.length ∧ ∀ j, j < out.length → FinC A (sig out' j) ∧
        ‖cval A (sig out' j) - ((if clear then 0 else cval A (sig out j)) +
          convAt (u.map (cval A)) (v.map (cval A)) (offset + j))‖ ≤ 2 * B * (ε + A.u * S) := by
  have u0 := A.u_nonneg
  have hs0 : 0 < s.length := List.length_pos_iff.2 hs
  have hK1 : 1 ≤ K := by omega
  have hKr : (1 : ℝ) ≤ K := by exact_mod_cast hK1
  have hT := C91_transform_any A h Q K N E hE hK1 h1 hQ hQ' hu ht hHQ
  have hKN : (K : ℝ) ≤ N := by
    obtain ⟨N', e1, e2, -⟩ := Pocket.goodSizeCmplx_ok (n := 2 * K - 1) (by omega)
    have : N' = N := by have := hE.good; rw [this] at e1; cases e1; rfl
    exact_mod_cast (by omega : K ≤ N)
  obtain ⟨P, hP⟩ : ∃ P, P = Q + 1 := ⟨_, rfl⟩
  have hP1 : 1 ≤ P := by rw [hP]; have : (0 : ℝ) ≤ primeSum K := Nat.cast_nonneg _; linarith
  rw [← hP] at hT hu hHQ hHU hHV hHP hρ
  have hhP : 1 ≤ h * P := by nlinarith
  have hN2 : (K : ℝ) ≤ N ^ 2 := by nlinarith
  have hN1 : (1 : ℝ) ≤ N ^ 2 := hKr.trans hN2
  have hu1 : 192 * A.u ≤ 1 := by
    have : 192 * A.u * 1 ≤ 192 * A.u * (h * P) ^ 2 := mul_le_mul_of_nonneg_left (one_le_pow₀ hhP) (by positivity)
    linarith
  have hG1 : 1 ≤ 1600000 * (h * P) ^ 4 * N ^ 2 := by
    have a : 1 ≤ (h * P) ^ 4 := one_le_pow₀ hhP
    have c : 1 ≤ (h * P) ^ 4 * N ^ 2 := by nlinarith
    linarith
  have hcc := C91_chunk A E.one inv K (560 * h * P * N ^ 2) (1600000 * (h * P) ^ 4 * N ^ 2) U V hT hK1
    (by have : 1 * (K : ℝ) ≤ h * P * N ^ 2 := mul_le_mul hhP hN2 (by linarith) (by linarith)
        linarith)
    hG1 hE.one hinv hu1 htU htV htW hHU hHV ρ (by rw [hρ]; ring) (by
      refine le_trans (le_of_eq ?_) hHP
      ring)
  rw [← hε] at hcc
  exact C91_overlap_add (cxAdd A) auto out u v l s offset chunkSize K clear A0 U V ε hls hcc hauto hs hK hb hU hV hA ho S hS
    B hBdef hB hH

/-! ### the hypotheses can be met -/

namespace PocketF.Example

theorem env_ok (K N : ℕ) (hK : 0 < K) (hN : 0 < N) (hK2 : 2 * K ≤ 100) (hN2 : N ≤ 100)
    (hg : Pocket.goodSizeCmplx (2 * K - 1) = .ok N) : ∃ E : FftEnv (Bin 24 (-149)), EnvOk fl 3 K N E ∧ E.one = Bin.int 1 := by
  have hu : fl.u = 2 ^ (-(24 : ℤ)) := rfl
  have htn : fl.tiny = 2 ^ (-150 : ℤ) := by change (2 : ℝ) ^ ((-149 : ℤ) - 1) = _; norm_num
  have hdu : db.u = 2 ^ (-(53 : ℤ)) := rfl
  have tab : ∀ n : ℕ, 0 < n → n ≤ 100 → ∃ tw, TableOk fl 3 n tw := by
    intro n h0 h1
    obtain ⟨-, tw, -, -, t⟩ := C89_twiddle_table db fl ops 2 3 n h0 high_ok
      (ops_ok h0 (by omega)) (by rw [hu, htn, hdu]; norm_num)
    exact ⟨tw, t⟩
  obtain ⟨tw, t1⟩ := tab K hK (by omega)
  obtain ⟨tw2, t2⟩ := tab N hN hN2
  obtain ⟨tmp, t3⟩ := tab (2 * K) (by omega) hK2
  have hNr : (1 : ℝ) ≤ N := by exact_mod_cast hN
  have hNr2 : (N : ℝ) ≤ 100 := by exact_mod_cast hN2
  obtain ⟨p1, p2⟩ := pack_near (p := 24) (emin := -149) (by norm_num) (by norm_num) (x := 1 / N)
    (by rw [abs_of_nonneg (by positivity)]; rw [div_le_iff₀ (by linarith)]; linarith)
  refine ⟨⟨lits, Bin.int 1, Bin.pack 24 (-149) (1 / N), tw, tw2, tmp, fun _ => 0, fun _ => ⟨0, 0⟩⟩,
    ⟨hg, lits_ok, t1, t2, t3, ⟨?_, ?_⟩, p1, p2.trans ?_⟩, rfl⟩
  · change |(((1 : ℤ) : ℝ))| ≤ 2 ^ 128
    norm_num
  · change (((1 : ℤ) : ℝ)) = 1
    simp
  · rw [abs_of_nonneg (by positivity), hu]
    rw [mul_one_div, div_add' _ _ _ (by linarith : (N : ℝ) ≠ 0)]
    gcongr
    norm_num
    linarith

/-- `[1, 2, 3]` convolved with `[1, 1]` in chunks of four samples, data in `float`: the sums `1, 3, 5, 3` up to an error
below `3 / 4`. -/
example : ∃ (E : FftEnv (Bin 24 (-149))) (o : List (Cx (Bin 24 (-149)))),
    overlapAdd (fun _ _ => .ok 4) (PocketF.olaPipelineComplex E.run (some (Bin.pack 24 (-149) (1 / 4))))
      (List.replicate 4 0) [⟨Bin.int 1, 0⟩, ⟨Bin.int 2, 0⟩, ⟨Bin.int 3, 0⟩] [⟨Bin.int 1, 0⟩, ⟨Bin.int 1, 0⟩] 0 0 true = .ok o ∧
    ‖cval fl (sig o 1) - 3‖ ≤ 3 / 4 := by
  have hu : fl.u = 2 ^ (-(24 : ℤ)) := rfl
  have htn : fl.tiny = 2 ^ (-150 : ℤ) := by change (2 : ℝ) ^ ((-149 : ℤ) - 1) = _; norm_num
  have hhu : fl.huge = 2 ^ 126 := rfl
  have hps : primeSum 4 = 4 := by
    rw [show (4 : ℕ) = 2 * 2 by norm_num, primeSum_mul (by norm_num) (by norm_num)]
    simp [primeSum, Nat.primeFactorsList_prime Nat.prime_two]
  obtain ⟨E, hE, hone⟩ := env_ok 4 7 (by norm_num) (by norm_num) (by norm_num) (by norm_num) rfl
  have hval : ∀ k : ℕ, cval fl (⟨Bin.int k, 0⟩ : Cx (Bin 24 (-149))) = k := by
    intro k
    apply Complex.ext
    · change (((k : ℤ) : ℝ)) = _
      simp
    · rfl
  have hfin : ∀ k : ℕ, k ≤ 3 → FinC fl (⟨Bin.int k, 0⟩ : Cx (Bin 24 (-149))) := by
    intro k hk
    refine ⟨?_, fl.zero_finite⟩
    have hk' : (k : ℝ) ≤ 3 := by exact_mod_cast hk
    change |(((k : ℤ) : ℝ))| ≤ 2 ^ 128
    simp only [Int.cast_natCast]
    rw [abs_of_nonneg (Nat.cast_nonneg _)]
    refine hk'.trans (by norm_num)
  have v1 := hval 1
  have v2 := hval 2
  have v3 := hval 3
  have f1 := hfin 1 (by norm_num)
  have f2 := hfin 2 (by norm_num)
  have f3 := hfin 3 (by norm_num)
  norm_num at v1 v2 v3
  norm_num at f1 f2 f3
  obtain ⟨p1, p2⟩ := pack_near (p := 24) (emin := -149) (by norm_num) (by norm_num) (x := 1 / 4) (by norm_num)
  obtain ⟨o, e, -, ho⟩ := C91_complex fl 3 0 3 1 E (some (Bin.pack 24 (-149) (1 / 4))) (fun _ _ => .ok 4)
    (List.replicate 4 0) [⟨Bin.int 1, 0⟩, ⟨Bin.int 2, 0⟩, ⟨Bin.int 3, 0⟩] [⟨Bin.int 1, 0⟩, ⟨Bin.int 1, 0⟩] _ _
    0 0 4 7 true (Or.inl ⟨rfl, rfl, by simp⟩) hE (by norm_num) (Or.inl (by norm_num))
    ⟨p1, p2.trans (by rw [abs_of_pos (by norm_num : (0 : ℝ) < 1 / 4), hu]; norm_num)⟩ rfl (by simp) (by simp) (by simp)
    (by
      intro x hx
      simp only [List.mem_cons, List.not_mem_nil, or_false] at hx
      rcases hx with rfl | rfl | rfl
      · exact ⟨f1, by rw [v1]; norm_num⟩
      · exact ⟨f2, by rw [v2]; norm_num⟩
      · exact ⟨f3, by rw [v3]; norm_num⟩)
    (by
      intro x hx
      simp only [List.mem_cons, List.not_mem_nil, or_false, or_self] at hx
      rcases hx with rfl
      exact ⟨f1, by rw [v1]; norm_num⟩) le_rfl (by simp)
    (by rw [hps, hu]; norm_num) (by rw [hu, htn]; norm_num) (by rw [hu, htn]; norm_num) (by rw [hu, htn]; norm_num)
    2 rfl (by rw [hu]; norm_num) (by rw [hps, htn, hhu]; norm_num) (by rw [hps, htn, hhu]; norm_num)
    (by rw [hps, hhu]; norm_num) 6 (3400 * 3 * 5 * 2 ^ (-(24 : ℤ)) * 16 * 3)
    (by simp [Finset.sum_range_succ, sig, v1]; norm_num)
    (by rw [hps, hu]; norm_num)
    (by rw [hu, hhu]; norm_num)
  refine ⟨E, o, e, ?_⟩
  have := (ho 1 (by simp)).2
  rw [hu] at this
  simp only [convAt, if_true, zero_add, List.map_cons, List.map_nil, v1, v2, v3, sig, Finset.sum_range_succ] at this
  norm_num at this ⊢
  refine this.trans (by norm_num)

end PocketF.Example

end Verif
