import Verif.Lemmas.OverlapAddRealFloat
import Verif.Props.OverlapAddRounded

/-! # C95: overlap-add convolution of real signals in floating point -/

set_option linter.unusedSimpArgs false
set_option linter.unusedSectionVars false
set_option linter.unusedVariables false

namespace Verif
open PocketF

namespace PocketF.Ola

theorem num_scaled {u t h n l X e φ : ℝ} (hu : 0 ≤ u) (ht : 0 ≤ t) (h1 : 1 ≤ h) (hn : 1 ≤ n) (hl : 0 ≤ l) (hX : 0 ≤ X)
    (hu2 : 2000 * h ^ 2 * (l + 1) * u ≤ 1) (he : e = 600 * h * n * l * (u * (2 * X) + t)) (hφ : 0 ≤ φ) :
    u * (φ * (n * X + e)) + φ * e ≤ φ * (1201 * h * n * (l + 1) * (u * X + t)) := by
  have hu1 : u ≤ 1 / 2000 := by
    have a : 1 ≤ h ^ 2 := one_le_pow₀ h1
    have b : 1 * 1 ≤ h ^ 2 * (l + 1) := mul_le_mul a (by linarith) (by norm_num) (by linarith)
    have c : 1 * u ≤ h ^ 2 * (l + 1) * u := mul_le_mul_of_nonneg_right (by linarith) hu
    linarith
  have e0 : 0 ≤ e := by rw [he]; positivity
  obtain ⟨D, hD⟩ : ∃ D, D = u * X + t := ⟨_, rfl⟩
  have hD0 : 0 ≤ D := by rw [hD]; positivity
  have e1 : e ≤ 1200 * (h * n * l * D) := by
    rw [he, hD]
    have : 0 ≤ h * n * l * t := by positivity
    nlinarith
  have e2 : u * e ≤ 1 / 2000 * e := mul_le_mul_of_nonneg_right hu1 e0
  have e3 : u * (n * X) ≤ h * n * D := by
    have a : n * (u * X) ≤ n * D := mul_le_mul_of_nonneg_left (by linarith) (by linarith)
    have b : 1 * (n * D) ≤ h * (n * D) := mul_le_mul_of_nonneg_right h1 (by positivity)
    linarith
  have key : u * (n * X + e) + e ≤ 1201 * h * n * (l + 1) * D := by
    have p1 : 0 ≤ h * n * l * D := by positivity
    have p2 : 0 ≤ h * n * D := by positivity
    have : 1201 * h * n * (l + 1) * D = 1201 * (h * n * l * D) + 1201 * (h * n * D) := by ring
    rw [this]
    linarith
  rw [← hD]
  calc u * (φ * (n * X + e)) + φ * e = φ * (u * (n * X + e) + e) := by ring
    _ ≤ _ := mul_le_mul_of_nonneg_left key hφ

theorem num_big {u t h n l X e H : ℝ} (hu : 0 ≤ u) (ht : 0 ≤ t) (h1 : 1 ≤ h) (hn : 1 ≤ n) (hl : 0 ≤ l) (hX : 0 ≤ X)
    (hu2 : 2000 * h ^ 2 * (l + 1) * u ≤ 1) (he : e = 600 * h * n * l * (u * (2 * X) + t))
    (hH : 4800000 * h ^ 3 * (l + 1) * n * (X + t) ≤ H) : 2 * (n * X + e) ≤ H := by
  refine le_trans ?_ hH
  have a : h * l * u ≤ h ^ 2 * (l + 1) * u := by
    apply mul_le_mul_of_nonneg_right _ hu
    have : h * l ≤ h ^ 2 * l := mul_le_mul_of_nonneg_right (by nlinarith) hl
    nlinarith
  have b : 1200 * (h * l * u) ≤ 1 := by linarith
  have e1 : e ≤ n * X + 600 * (h * (l + 1) * n * t) := by
    rw [he]
    have c : 1200 * (h * l * u) * (n * X) ≤ 1 * (n * X) := mul_le_mul_of_nonneg_right b (by positivity)
    have d : 0 ≤ h * n * t := by positivity
    nlinarith
  have f : h * ((l + 1) * n * (X + t)) ≤ h ^ 3 * ((l + 1) * n * (X + t)) := by
    apply mul_le_mul_of_nonneg_right _ (by positivity)
    nlinarith [one_le_pow₀ (n := 2) h1]
  have g : n * X ≤ h * (l + 1) * n * X := by
    have : 1 * 1 ≤ h * (l + 1) := mul_le_mul h1 (by linarith) (by norm_num) (by linarith)
    have := mul_le_mul_of_nonneg_right this (show 0 ≤ n * X by positivity)
    linarith
  have p : 0 ≤ h * (l + 1) * n * t := by positivity
  have p' : 0 ≤ h * (l + 1) * n * X := by positivity
  have ex : h * ((l + 1) * n * (X + t)) = h * (l + 1) * n * X + h * (l + 1) * n * t := by ring
  linarith

end PocketF.Ola

variable {F : Type} [Zero F] [Add F] [Sub F] [Mul F] [Fma F] [Neg F]

/-- The samples of a half spectrum of magnitude at most `X`. -/
theorem PocketF.Ola.hci_abs {n : ℕ} (hn : 0 < n) (Z : ℕ → ℂ) (X : ℝ) (h : ∀ k, k < n / 2 + 1 → ‖Z k‖ ≤ X) (j : ℕ) :
    |halfComplexInverse n (halfComplex Z) j| ≤ n * X := by
  rw [hci_sum hn]
  refine (Complex.abs_re_le_norm _).trans ((norm_sum_le _ _).trans ?_)
  have : ∀ m ∈ Finset.range n, ‖Pocket.hx n Z m * rootOfUnity n ((m : ℤ) * j)‖ ≤ X := by
    intro m hm
    rw [norm_mul, ru_norm, mul_one]
    have := hx_sub_norm (n := n) hn (Z := Z) (W := fun _ => 0) (p := X) (fun k hk => by simpa using h k hk) (Finset.mem_range.1 hm)
    have e : Pocket.hx n (fun _ => 0) m = 0 := by unfold Pocket.hx; simp
    rwa [e, sub_zero] at this
  refine (Finset.sum_le_sum this).trans ?_
  simp

/-- **C94**: the complex-to-real transform with the factor `f` of an inverse transform. -/
theorem C94_samples_scaled (A : FloatArithNeg F) (h X : ℝ) (L : RLits F) (tw : ℕ → Cx F) (f : F) (Z : List (Cx F))
    (tmp scratch out : List F) (ho : out ≠ []) (hs : scratch.length = out.length) (htmp : tmp.length = out.length)
    (hZ : out.length / 2 + 1 ≤ Z.length)
    (h5 : Smooth5 out.length) (h1 : 1 ≤ h) (hL : RLitsOk A h L) (ht : TableOk A h out.length tw)
    (htu : A.tiny ≤ A.u) (h4 : 4 ≤ A.huge) (hff : A.finite f) (hf2 : |A.val f| ≤ 2)
    (hf : ∀ k, k < out.length / 2 + 1 → FinC A (Z.getD k ⟨0, 0⟩) ∧ ‖cval A (Z.getD k ⟨0, 0⟩)‖ ≤ X)
    (hu : 2000 * h ^ 2 * (Nat.log 2 out.length + 1) * A.u ≤ 1)
    (hH : 4800000 * h ^ 3 * (Nat.log 2 out.length + 1) * out.length * (X + A.tiny) ≤ A.huge) :
    ∃ z, c2rExec L tw (some f) Z tmp scratch out = .ok z ∧ z.length = out.length ∧ ∀ j, j < out.length →
      A.finite (z.getD j 0) ∧
      |A.val (z.getD j 0) - A.val f * halfComplexInverse out.length (halfComplex fun k => cval A (Z.getD k ⟨0, 0⟩)) j|
        ≤ |A.val f| * (1201 * h * out.length * (Nat.log 2 out.length + 1) * (A.u * X + A.tiny)) + A.tiny := by
  have u0 := A.u_nonneg
  have t0 := A.tiny_nonneg
  have hn : 0 < out.length := List.length_pos_iff.2 ho
  have hn1 : (1 : ℝ) ≤ out.length := by exact_mod_cast hn
  have hl0 : (0 : ℝ) ≤ Nat.log 2 out.length := Nat.cast_nonneg _
  have hX : 0 ≤ X := (norm_nonneg _).trans (hf 0 (by omega)).2
  obtain ⟨y, e, hl, hy⟩ := PocketF.samples_exec A h X L tw Z tmp scratch out ho hs htmp hZ h5 h1 hL ht htu h4 hf hu (by
    refine le_trans ?_ hH
    have : 0 ≤ h ^ 3 * (Nat.log 2 out.length + 1) * out.length * A.tiny := by positivity
    linarith)
  obtain ⟨E, hE⟩ : ∃ E, E = 600 * h * out.length * Nat.log 2 out.length * (A.u * (2 * X) + A.tiny) := ⟨_, rfl⟩
  rw [← hE] at hy
  have hyn : ∀ j, j < out.length → |A.val (y.getD j 0)| ≤ out.length * X + E := by
    intro j hj
    have a := Ola.hci_abs hn (fun k => cval A (Z.getD k ⟨0, 0⟩)) X (fun k hk => (hf k hk).2) j
    have b := abs_sub_abs_le_abs_sub (A.val (y.getD j 0))
      (halfComplexInverse out.length (halfComplex fun k => cval A (Z.getD k ⟨0, 0⟩)) j)
    linarith [(hy j hj).2]
  have hbig := Ola.num_big u0 t0 h1 hn1 hl0 hX hu hE hH
  obtain ⟨z, z1, z2, z3⟩ := C94_scaled A L tw false f _ scratch y e hff (by
    intro c hc
    obtain ⟨j, hj, rfl⟩ := List.getElem_of_mem hc
    have hj' : j < out.length := by omega
    have e : y.getD j 0 = y[j] := by rw [List.getD_eq_getElem?_getD, List.getElem?_eq_getElem hj]; rfl
    have g1 := (hy j hj').1
    have g2 := hyn j hj'
    rw [e] at g1 g2
    refine ⟨g1, ?_⟩
    rw [abs_mul]
    calc |A.val f| * |A.val y[j]| ≤ 2 * (out.length * X + E) := mul_le_mul hf2 g2 (abs_nonneg _) (by norm_num)
      _ ≤ _ := hbig)
  rw [hl] at z2 z3
  rw [list_tabC z 0, z2] at z1
  have hr := c2rExec_ok (M := Z.length) hn htmp rfl z1 hZ
  rw [← list_tabC, ← z2, ← list_tabC] at hr
  refine ⟨z, hr, z2, fun j hj => ⟨(z3 j hj).1, ?_⟩⟩
  have d1 := (z3 j hj).2
  have d2 := (hy j hj).2
  have d3 := hyn j hj
  generalize halfComplexInverse out.length (halfComplex fun k => cval A (Z.getD k ⟨0, 0⟩)) j = H at *
  have sp : A.val (z.getD j 0) - A.val f * H
      = (A.val (z.getD j 0) - A.val f * A.val (y.getD j 0)) + A.val f * (A.val (y.getD j 0) - H) := by ring
  rw [sp]
  refine (abs_add_le _ _).trans ?_
  rw [abs_mul (A.val f) (A.val (y.getD j 0) - H)]
  rw [abs_mul] at d1
  have n1 := Ola.num_scaled u0 t0 h1 hn1 hl0 hX hu hE (abs_nonneg (A.val f))
  have n2 := mul_le_mul_of_nonneg_left d2 (abs_nonneg (A.val f))
  have n3 := mul_le_mul_of_nonneg_left (mul_le_mul_of_nonneg_left d3 (abs_nonneg (A.val f))) u0
  linarith

/-- **C95**: the library's transforms of `K` real samples, `K` without a prime factor above 5 (every power of two). -/
theorem C95_transform (A : FloatArithNeg F) (h : ℝ) (K : ℕ) (one : F) (E : RFftEnv F) (hK : 1 ≤ K) (h5 : Smooth5 K)
    (hone : A.finite one ∧ A.val one = 1) (h1 : 1 ≤ h) (hL : RLitsOk A h E.lits) (ht : TableOk A h K E.tw)
    (htu : A.tiny ≤ A.u) (h4 : 4 ≤ A.huge) (hu : 2000 * h ^ 2 * (Nat.log 2 K + 1) * A.u ≤ 1) :
    RealTransformWithin A one K (1201 * h * K * (Nat.log 2 K + 1)) (4800000 * h ^ 3 * (Nat.log 2 K + 1) * K)
      E.fftHalf (fun f Z => E.ifftHalf f Z (decide (K % 2 = 0))) := by
  have u0 := A.u_nonneg
  have t0 := A.tiny_nonneg
  have hK1 : (1 : ℝ) ≤ K := by exact_mod_cast hK
  have hl0 : (0 : ℝ) ≤ Nat.log 2 K := Nat.cast_nonneg _
  constructor
  · intro x X hx hf hH
    subst hx
    have hX : 0 ≤ X := (abs_nonneg _).trans (hf _ (List.getElem_mem (by omega : 0 < x.length))).2
    obtain ⟨z, z1, z2, z3, -⟩ := C94_spectrum A h X E.lits E.tw x (Pocket.fresh E.tmp x.length) (Pocket.fresh E.scratch x.length)
      (List.replicate (x.length / 2 + 1) 0) (List.ne_nil_of_length_pos (by omega)) (Pocket.fresh_length _ _)
      (Pocket.fresh_length _ _) (by simp) h5 h1 hL ht htu h4 hf hu (by
        refine le_trans ?_ hH
        have : 0 ≤ h ^ 3 * (Nat.log 2 x.length + 1) * x.length * (X + A.tiny) := by positivity
        linarith)
    refine ⟨z, z1, by simpa using z2, fun k hk => ⟨(z3 k hk).1, (z3 k hk).2.trans ?_⟩⟩
    have p : 0 ≤ h * x.length * Nat.log 2 x.length * (A.u * X + A.tiny) := by positivity
    have p2 : 0 ≤ h * x.length * (A.u * X + A.tiny) := by positivity
    linarith
  · intro f Z X hZ hf hff hf2 hH
    have hX : 0 ≤ X := (norm_nonneg _).trans (hf _ (List.getElem_mem (by omega : 0 < Z.length))).2
    have hlen : (if decide (K % 2 = 0) = true then usub (Z.length * 2) 2 else usub (Z.length * 2) 1) = K := by
      rw [hZ]
      unfold usub
      by_cases hp : K % 2 = 0
      · rw [if_pos (by simpa using hp), if_pos (by omega)]; omega
      · rw [if_neg (by simpa using hp), if_pos (by omega)]; omega
    have hfz : ∀ k, k < K / 2 + 1 → FinC A (Z.getD k ⟨0, 0⟩) ∧ ‖cval A (Z.getD k ⟨0, 0⟩)‖ ≤ X :=
      fun k hk => hf _ (getD_mem (by omega) _)
    have hrun : E.ifftHalf f Z (decide (K % 2 = 0))
        = c2rExec E.lits E.tw f Z (Pocket.fresh E.tmp K) (Pocket.fresh E.scratch K) (List.replicate K 0) := by
      unfold RFftEnv.ifftHalf
      dsimp only
      rw [hlen, cassert_true (Or.inl hZ), Out.ok_bind]
    have hrl : (List.replicate K (0 : F)).length = K := by simp
    have hne : (List.replicate K (0 : F)) ≠ [] := List.ne_nil_of_length_pos (by rw [hrl]; omega)
    rw [hrun]
    cases f with
    | none =>
      obtain ⟨z, z1, z2, z3⟩ := C94_samples A h X E.lits E.tw Z (Pocket.fresh E.tmp K) (Pocket.fresh E.scratch K)
        (List.replicate K 0) hne (by simp [Pocket.fresh_length]) (by simp [Pocket.fresh_length]) (by rw [hrl, hZ])
        (by rw [hrl]; exact h5) h1 hL (by rw [hrl]; exact ht) htu h4 (by rw [hrl]; exact hfz) (by rw [hrl]; exact hu) (by
          rw [hrl]
          refine le_trans ?_ hH
          have : 0 ≤ h ^ 3 * (Nat.log 2 K + 1) * K * A.tiny := by positivity
          linarith)
      rw [hrl] at z2 z3
      refine ⟨z, z1, z2, fun j hj => ⟨(z3 j hj).1, ?_⟩⟩
      simp only [Option.getD_none, hone.2, abs_one, one_mul]
      refine (z3 j hj).2.trans ?_
      have p : 0 ≤ h * K * Nat.log 2 K * (A.u * X + A.tiny) := by positivity
      have p1 : 0 ≤ h * K * Nat.log 2 K * A.tiny := by positivity
      have p2 : 0 ≤ h * K * (A.u * X + A.tiny) := by positivity
      linarith
    | some f =>
      simp only [Option.getD_some] at hff hf2 ⊢
      obtain ⟨z, z1, z2, z3⟩ := C94_samples_scaled A h X E.lits E.tw f Z (Pocket.fresh E.tmp K) (Pocket.fresh E.scratch K)
        (List.replicate K 0) hne (by simp [Pocket.fresh_length]) (by simp [Pocket.fresh_length]) (by rw [hrl, hZ])
        (by rw [hrl]; exact h5) h1 hL (by rw [hrl]; exact ht) htu h4 hff hf2 (by rw [hrl]; exact hfz) (by rw [hrl]; exact hu)
        (by rw [hrl]; exact hH)
      rw [hrl] at z2 z3
      refine ⟨z, z1, z2, fun j hj => ⟨(z3 j hj).1, (z3 j hj).2.trans ?_⟩⟩
      linarith

/-- **C95**: transform, multiply the half spectra, transform back: the circular convolution of two real chunks of `K` samples,
with an error governed by `ρ`, the relative error of one transform. -/
theorem C95_chunk (A : FloatArithNeg F) (one : F) (E : RFftEnv F) (inv : Option F) (K : ℕ) (q G U V : ℝ)
    (hT : RealTransformWithin A one K q G E.fftHalf (fun f Z => E.ifftHalf f Z (decide (K % 2 = 0))))
    (hK : 1 ≤ K) (hq : 64 * K ≤ q) (hG : 1 ≤ G)
    (hinv : A.finite (inv.getD one) ∧ |A.val (inv.getD one) - 1 / K| ≤ 2 * A.u / K) (hu : 192 * A.u ≤ 1)
    (htU : A.tiny ≤ A.u * U) (htV : A.tiny ≤ A.u * V) (htW : A.tiny ≤ A.u * (U * V))
    (hHU : G * (U + A.tiny) ≤ A.huge) (hHV : G * (V + A.tiny) ≤ A.huge)
    (ρ : ℝ) (hρ : ρ = 3 * q * A.u / K) (hHP : 5 * G * (K * (1 + ρ)) ^ 2 * (U * V) ≤ A.huge) :
    ApproxCircularConvolution (reAdd A) (PocketF.olaPipelineReal E inv) K U V (4 * ρ * (1 + ρ) ^ 2 * K ^ 2 * (U * V)) := by
  have hK0 : (0 : ℝ) < K := by exact_mod_cast (by omega : 0 < K)
  have e : (K : ℝ) * (1 + ρ) = K + 3 * q * A.u := by rw [hρ]; field_simp
  rw [e] at hHP
  rw [hρ]
  exact Ola.chunk_near_real A one E inv K q G U V hT hK hq hG hinv hu htU htV htW hHU hHV _ rfl hHP

theorem PocketF.Ola.convAt_ofReal (A : FloatArithNeg F) (u v : List F) (n : ℕ) :
    convAt (u.map (reAdd A).val) (v.map (reAdd A).val) n = ((convAt (u.map A.val) (v.map A.val) n : ℝ) : ℂ) := by
  have e : ∀ (l : List F) j, sig (l.map A.val) j = A.val (sig l j) := by
    intro l j
    unfold sig
    simp only [List.getD_eq_getElem?_getD, List.getElem?_map]
    cases l[j]? with
    | none => simp [A.val_zero]
    | some x => simp
  unfold convAt
  rw [Complex.ofReal_sum]
  apply Finset.sum_congr rfl
  intro i _
  rw [sig_map_val, sig_map_val, e, e, Complex.ofReal_mul]
  rfl

set_option maxHeartbeats 1000000 in
/-- **C95**: one chunk, in terms of the floating point type alone. -/
theorem C95_chunk_smooth (A : FloatArithNeg F) (h U V : ℝ) (E : RFftEnv F) (one : F) (inv : Option F) (K : ℕ) (hK1 : 1 ≤ K)
    (hone : A.finite one ∧ A.val one = 1) (hL : RLitsOk A h E.lits) (ht : TableOk A h K E.tw)
    (h1 : 1 ≤ h) (h5 : Smooth5 K)
    (hinv : A.finite (inv.getD one) ∧ |A.val (inv.getD one) - 1 / K| ≤ 2 * A.u / K) (hU0 : 0 ≤ U) (hV0 : 0 ≤ V)
    (hu : 2000 * h ^ 2 * (Nat.log 2 K + 1) * A.u ≤ 1) (htu : A.tiny ≤ A.u) (h4 : 4 ≤ A.huge)
    (htU : A.tiny ≤ A.u * U) (htV : A.tiny ≤ A.u * V) (htW : A.tiny ≤ A.u * (U * V))
    (hHU : 4800000 * h ^ 3 * (Nat.log 2 K + 1) * K * (U + A.tiny) ≤ A.huge)
    (hHV : 4800000 * h ^ 3 * (Nat.log 2 K + 1) * K * (V + A.tiny) ≤ A.huge)
    (hHP : 190000000 * h ^ 3 * (Nat.log 2 K + 1) * K ^ 3 * (U * V) ≤ A.huge)
    (ε : ℝ) (hε : ε = 114000 * h * (Nat.log 2 K + 1) * A.u * K ^ 2 * (U * V)) :
    ApproxCircularConvolution (reAdd A) (PocketF.olaPipelineReal E inv) K U V ε := by
  have u0 := A.u_nonneg
  have hKr : (1 : ℝ) ≤ K := by exact_mod_cast hK1
  have hT := C95_transform A h K one E hK1 h5 hone h1 hL ht htu h4 hu
  obtain ⟨Q, hQ⟩ : ∃ Q : ℝ, Q = Nat.log 2 K + 1 := ⟨_, rfl⟩
  have hQ1 : 1 ≤ Q := by rw [hQ]; have : (0 : ℝ) ≤ Nat.log 2 K := Nat.cast_nonneg _; linarith
  rw [← hQ] at hT hu hHU hHV hHP hε
  have hhQ : 1 ≤ h * Q := by nlinarith
  have hW0 : 0 ≤ U * V := by positivity
  have hu2000 : 2000 * (h * Q) * A.u ≤ 1 := by
    refine le_trans ?_ hu
    apply mul_le_mul_of_nonneg_right _ u0
    have : h * Q ≤ h ^ 2 * Q := mul_le_mul_of_nonneg_right (by nlinarith) (by linarith)
    linarith
  have hu1 : 192 * A.u ≤ 1 := by
    have : 1 * A.u ≤ (h * Q) * A.u := mul_le_mul_of_nonneg_right hhQ u0
    linarith
  obtain ⟨ρ, hρ⟩ : ∃ ρ, ρ = 3603 * (h * Q) * A.u := ⟨_, rfl⟩
  have hρ0 : 0 ≤ ρ := by rw [hρ]; positivity
  have hρ1 : ρ ≤ 3603 / 2000 := by rw [hρ]; linarith
  have hρ2 : (1 + ρ) ^ 2 ≤ 7.87 := by nlinarith
  have hρe : ρ = 3 * (1201 * h * K * Q) * A.u / K := by rw [hρ]; field_simp; ring
  have hG1 : 1 ≤ 4800000 * h ^ 3 * Q * K := by
    have a : 1 ≤ h ^ 3 := one_le_pow₀ h1
    have c : 1 ≤ h ^ 3 * Q := by nlinarith
    have d : 1 ≤ h ^ 3 * Q * K := by nlinarith
    linarith
  have hcc := C95_chunk A one E inv K (1201 * h * K * Q) (4800000 * h ^ 3 * Q * K) U V hT hK1
    (by have : 1 * (K : ℝ) ≤ h * Q * K := mul_le_mul_of_nonneg_right hhQ (by linarith)
        linarith)
    hG1 hinv hu1 htU htV htW hHU hHV ρ hρe (by
      refine le_trans ?_ hHP
      have : (1 + ρ) ^ 2 * (24000000 * h ^ 3 * Q * K ^ 3 * (U * V)) ≤ 7.87 * (24000000 * h ^ 3 * Q * K ^ 3 * (U * V)) :=
        mul_le_mul_of_nonneg_right hρ2 (by positivity)
      have p : 0 ≤ h ^ 3 * Q * K ^ 3 * (U * V) := by positivity
      rw [mul_pow]
      linarith)
  have hεle : 4 * ρ * (1 + ρ) ^ 2 * K ^ 2 * (U * V) ≤ ε := by
    rw [hε]
    have : (1 + ρ) ^ 2 * (4 * ρ * K ^ 2 * (U * V)) ≤ 7.87 * (4 * ρ * K ^ 2 * (U * V)) :=
      mul_le_mul_of_nonneg_right hρ2 (by positivity)
    have e : 7.87 * (4 * ρ * K ^ 2 * (U * V)) = 113422.44 * h * Q * A.u * K ^ 2 * (U * V) := by rw [hρ]; ring
    have p : 0 ≤ h * Q * A.u * K ^ 2 * (U * V) := by positivity
    linarith
  intro a b ha hb haU hbV
  obtain ⟨c, c1, c2, c3⟩ := hcc a b ha hb haU hbV
  exact ⟨c, c1, c2, fun k hk => ⟨(c3 k hk).1, (c3 k hk).2.trans hεle⟩⟩

set_option maxHeartbeats 1000000 in
/-- **C95** as the user sees it: overlap-add of two real signals in any floating point type, in chunks of a length `K` without a
prime factor above 5.  Every output sample is finite and within the stated distance of the exact convolution (plus the previous
contents, if accumulating), however long the signal is. -/
theorem C95_real (A : FloatArithNeg F) (h A0 U V : ℝ) (E : RFftEnv F) (one : F) (inv : Option F) (auto : ℕ → ℕ → Out ℕ)
    (out u v l s : List F) (offset chunkSize K : ℕ) (clear : Bool)
    (hls : (u = l ∧ v = s ∧ s.length ≤ l.length) ∨ (u = s ∧ v = l ∧ s.length < l.length))
    (hone : A.finite one ∧ A.val one = 1) (hL : RLitsOk A h E.lits) (ht : TableOk A h K E.tw)
    (h1 : 1 ≤ h) (h5 : Smooth5 K)
    (hinv : A.finite (inv.getD one) ∧ |A.val (inv.getD one) - 1 / K| ≤ 2 * A.u / K)
    (hauto : (if chunkSize = 0 then auto l.length s.length else pure chunkSize) = .ok K)
    (hs : s ≠ []) (hK : 2 * s.length - 1 ≤ K) (hb : offset + out.length ≤ l.length + s.length - 1)
    (hU : ∀ x ∈ l, A.finite x ∧ |A.val x| ≤ U) (hV : ∀ x ∈ s, A.finite x ∧ |A.val x| ≤ V)
    (hA : 0 ≤ A0) (ho : clear = false → ∀ x ∈ out, A.finite x ∧ |A.val x| ≤ A0)
    (hu : 2000 * h ^ 2 * (Nat.log 2 K + 1) * A.u ≤ 1) (htu : A.tiny ≤ A.u) (h4 : 4 ≤ A.huge)
    (htU : A.tiny ≤ A.u * U) (htV : A.tiny ≤ A.u * V) (htW : A.tiny ≤ A.u * (U * V))
    (B : ℕ) (hBdef : B = (K - 1) / s.length + 1) (hB : 2 * B * A.u ≤ 1)
    (hHU : 4800000 * h ^ 3 * (Nat.log 2 K + 1) * K * (U + A.tiny) ≤ A.huge)
    (hHV : 4800000 * h ^ 3 * (Nat.log 2 K + 1) * K * (V + A.tiny) ≤ A.huge)
    (hHP : 190000000 * h ^ 3 * (Nat.log 2 K + 1) * K ^ 3 * (U * V) ≤ A.huge)
    (S ε : ℝ) (hS : S = A0 + U * ∑ m ∈ Finset.range s.length, |A.val (sig s m)|)
    (hε : ε = 114000 * h * (Nat.log 2 K + 1) * A.u * K ^ 2 * (U * V))
    (hH : S + 2 * B * (ε + A.u * S) + ε ≤ A.huge) :
    ∃ out', overlapAdd auto (PocketF.olaPipelineReal E inv) out u v offset chunkSize clear = .ok out' ∧
      out'.length = out.length ∧ ∀ j, j < out.length → A.finite (sig out' j) ∧
        |A.val (sig out' j) - ((if clear then 0 else A.val (sig out j)) +
          convAt (u.map A.val) (v.map A.val) (offset + j))| ≤ 2 * B * (ε + A.u * S) := by
  have u0 := A.u_nonneg
  have hs0 : 0 < s.length := List.length_pos_iff.2 hs
  have hsl : s.length ≤ l.length := by rcases hls with h | h <;> omega
  have hK1 : 1 ≤ K := by omega
  have hU0 : 0 ≤ U := by
    obtain ⟨x, hx⟩ := List.exists_mem_of_length_pos (by omega : 0 < l.length)
    exact (abs_nonneg _).trans (hU x hx).2
  have hV0 : 0 ≤ V := by
    obtain ⟨x, hx⟩ := List.exists_mem_of_length_pos hs0
    exact (abs_nonneg _).trans (hV x hx).2
  have hcc' := C95_chunk_smooth A h U V E one inv K hK1 hone hL ht h1 h5 hinv hU0 hV0 hu htu h4 htU htV htW hHU hHV hHP ε hε
  have nrm : ∀ x, ‖(reAdd A).val x‖ = |A.val x| := fun x => Complex.norm_real _
  obtain ⟨out', o1, o2, o3⟩ := C91_overlap_add (reAdd A) auto out u v l s offset chunkSize K clear A0 U V ε hls hcc' hauto hs hK
    hb (fun x hx => ⟨(hU x hx).1, by rw [nrm]; exact (hU x hx).2⟩) (fun x hx => ⟨(hV x hx).1, by rw [nrm]; exact (hV x hx).2⟩)
    hA (fun c x hx => ⟨(ho c x hx).1, by rw [nrm]; exact (ho c x hx).2⟩) S (by rw [hS]; simp only [nrm]) B hBdef hB hH
  refine ⟨out', o1, o2, fun j hj => ⟨(o3 j hj).1, ?_⟩⟩
  have d := (o3 j hj).2
  rw [Ola.convAt_ofReal] at d
  have e : (reAdd A).val (sig out' j) - ((if clear = true then 0 else (reAdd A).val (sig out j))
      + ((convAt (u.map A.val) (v.map A.val) (offset + j) : ℝ) : ℂ))
      = ((A.val (sig out' j) - ((if clear = true then 0 else A.val (sig out j))
        + convAt (u.map A.val) (v.map A.val) (offset + j)) : ℝ) : ℂ) := by
    change (A.val (sig out' j) : ℂ) - ((if clear = true then 0 else (A.val (sig out j) : ℂ)) + _) = _
    split <;> push_cast <;> rfl
  rw [e, Complex.norm_real] at d
  exact d

/-! ### the hypotheses can be met -/

namespace PocketF.Example

/-- `[1, 2, 3]` convolved with `[1, 1]` in chunks of four samples, data in `float`: the second of the sums `1, 3, 5, 3` up to an
error below 16. (In `double` the same bound is below `3 / 10 ^ 8`.) -/
example : ∃ (E : RFftEnv (Bin 24 (-149))) (o : List (Bin 24 (-149))),
    overlapAdd (fun _ _ => .ok 4) (PocketF.olaPipelineReal E (some (Bin.pack 24 (-149) (1 / 4))))
      (List.replicate 4 0) [Bin.int 1, Bin.int 2, Bin.int 3] [Bin.int 1, Bin.int 1] 0 0 true = .ok o ∧
    |fl.val (sig o 1) - 3| ≤ 16 := by
  have hu : fl.u = 2 ^ (-(24 : ℤ)) := rfl
  have htn : fl.tiny = 2 ^ (-150 : ℤ) := by change (2 : ℝ) ^ ((-149 : ℤ) - 1) = _; norm_num
  have hhu : fl.huge = 2 ^ 126 := rfl
  have hdu : db.u = 2 ^ (-(53 : ℤ)) := rfl
  have hlog : Nat.log 2 4 = 2 := by
    rw [Nat.log_eq_iff (by norm_num)]
    norm_num
  have h5 : Smooth5 4 := by
    intro p hp hd
    have hle := Nat.le_of_dvd (by norm_num) hd
    omega
  obtain ⟨-, tw, -, -, t⟩ := C89_twiddle_table db fl ops 2 3 4 (by norm_num) high_ok
      (ops_ok (by norm_num) (by norm_num)) (by rw [hu, htn, hdu]; norm_num)
  have hval : ∀ k : ℕ, fl.val (Bin.int k) = k := by
    intro k
    change (((k : ℤ) : ℝ)) = _
    simp
  have hfin : ∀ k : ℕ, k ≤ 3 → fl.finite (Bin.int k : Bin 24 (-149)) := by
    intro k hk
    have hk' : (k : ℝ) ≤ 3 := by exact_mod_cast hk
    change |(((k : ℤ) : ℝ))| ≤ 2 ^ 128
    simp only [Int.cast_natCast]
    rw [abs_of_nonneg (Nat.cast_nonneg _)]
    refine hk'.trans (by norm_num)
  have v1 := hval 1
  have v2 := hval 2
  have v3 := hval 3
  have f1 := hfin 1 (by norm_num)
  have f2 := hfin 2 (by norm_num)
  have f3 := hfin 3 (by norm_num)
  norm_num at v1 v2 v3
  norm_num at f1 f2 f3
  obtain ⟨p1, p2⟩ := pack_near (p := 24) (emin := -149) (by norm_num) (by norm_num) (x := 1 / 4) (by norm_num)
  obtain ⟨o, e, -, ho⟩ := C95_real fl 3 0 3 1 ⟨rlits, tw, fun _ => 0, fun _ => 0⟩ (Bin.int 1) (some (Bin.pack 24 (-149) (1 / 4)))
    (fun _ _ => .ok 4) (List.replicate 4 0) [Bin.int 1, Bin.int 2, Bin.int 3] [Bin.int 1, Bin.int 1] _ _
    0 0 4 true (Or.inl ⟨rfl, rfl, by simp⟩) ⟨f1, v1⟩ rlits_ok t (by norm_num) h5
    ⟨p1, p2.trans (by rw [abs_of_pos (by norm_num : (0 : ℝ) < 1 / 4), hu]; norm_num)⟩ rfl (by simp) (by simp) (by simp)
    (by
      intro x hx
      simp only [List.mem_cons, List.not_mem_nil, or_false] at hx
      rcases hx with rfl | rfl | rfl
      · exact ⟨f1, by rw [v1]; norm_num⟩
      · exact ⟨f2, by rw [v2]; norm_num⟩
      · exact ⟨f3, by rw [v3]; norm_num⟩)
    (by
      intro x hx
      simp only [List.mem_cons, List.not_mem_nil, or_false, or_self] at hx
      rcases hx with rfl
      exact ⟨f1, by rw [v1]; norm_num⟩) le_rfl (by simp)
    (by rw [hlog, hu]; norm_num) (by rw [hu, htn]; norm_num) (by rw [hhu]; norm_num)
    (by rw [hu, htn]; norm_num) (by rw [hu, htn]; norm_num) (by rw [hu, htn]; norm_num)
    2 rfl (by rw [hu]; norm_num) (by rw [hlog, htn, hhu]; norm_num) (by rw [hlog, htn, hhu]; norm_num)
    (by rw [hlog, hhu]; norm_num) 6 (114000 * 3 * 3 * 2 ^ (-(24 : ℤ)) * 16 * 3)
    (by simp [Finset.sum_range_succ, sig, v1]; norm_num)
    (by rw [hlog, hu]; norm_num)
    (by rw [hu, hhu]; norm_num)
  refine ⟨_, o, e, ?_⟩
  have := (ho 1 (by simp)).2
  rw [hu] at this
  simp only [convAt, if_true, zero_add, List.map_cons, List.map_nil, v1, v2, v3, sig, Finset.sum_range_succ] at this
  norm_num at this ⊢
  refine this.trans (by norm_num)

end PocketF.Example

end Verif
