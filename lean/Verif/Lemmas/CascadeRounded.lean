import Verif.Lemmas.IirRounded
import Mathlib.Tactic.NormNum

/-! # Rounding errors of the cascade of second order sections -/

set_option linter.unusedSimpArgs false
set_option linter.unusedVariables false
set_option linter.unusedSectionVars false

namespace Verif
namespace Rnd
open Finset

/-- one section, as taps -/
theorem sectionOut_taps (b : Biquad ℝ) (X Y : List ℝ) (v : ℝ) (h : Y.length = X.length) :
    sectionOut b X v Y = taps [b.n0, b.n1, b.n2] (X ++ [v]) X.length - taps [b.d0, b.d1] Y ((Y.length : ℤ) - 1) := by
  unfold taps sectionOut
  rw [sec3_snoc]
  unfold sec3
  simp only [List.length_cons, List.length_nil, sum_range_succ, range_zero, sum_empty, sig, List.getD_cons_zero, List.getD_cons_succ]
  have e0 : sigI (X ++ [v]) ((X.length : ℤ) - (0 : ℕ)) = v := by simpa using sigI_append_last X v
  have e1 : sigI (X ++ [v]) ((X.length : ℤ) - (1 : ℕ)) = sigI X ((X.length : ℤ) - 1) :=
    sigI_append_lt _ _ (by omega)
  have e2 : sigI (X ++ [v]) ((X.length : ℤ) - (2 : ℕ)) = sigI X ((X.length : ℤ) - 2) :=
    sigI_append_lt _ _ (by omega)
  rw [e0, e1, e2, h]
  have e3 : (X.length : ℤ) - 1 - (1 : ℕ) = X.length - 2 := by push_cast; ring
  have e4 : (X.length : ℤ) - 1 - (0 : ℕ) = X.length - 1 := by push_cast; ring
  rw [e3, e4]
  norm_num
  ring

section
variable {F : Type} [Zero F] [Add F] [Sub F] [Mul F] [Fma F]

/-- the coefficients of a section as real numbers -/
def valBiquad (A : FloatArith F) (b : Biquad F) : Biquad ℝ :=
  ⟨A.val b.n0, A.val b.n1, A.val b.n2, A.val b.d0, A.val b.d1, b.numOrder, b.denOrder⟩

/-- all coefficients of a section are numbers -/
def finiteBiquad (A : FloatArith F) (b : Biquad F) : Prop :=
  A.finite b.n0 ∧ A.finite b.n1 ∧ A.finite b.n2 ∧ A.finite b.d0 ∧ A.finite b.d1

/-- the constant of a section -/
noncomputable def secQ (b : Biquad ℝ) : ℝ := dotQ [b.n0, b.n1, b.n2] 0 + dotQ [b.d0, b.d1] 0

theorem first_rounded (A : FloatArith F) (hu : A.u ≤ 1) {w c : F} {R : ℝ} (hw : A.finite w) (hwR : |A.val w| ≤ R) (hc : A.finite c)
    (hh : (4 * |A.val c| + 2) * (R + A.tiny) ≤ A.huge) :
    A.finite (w * c) ∧ |A.val (w * c) - A.val c * A.val w| ≤ A.u * |A.val c * A.val w| + A.tiny ∧
    |A.val (w * c) - A.val c * A.val w| ≤ (4 * |A.val c| + 2) * (A.u * R + A.tiny) ∧ |A.val (w * c)| ≤ (4 * |A.val c| + 2) * (R + A.tiny) := by
  have hR : 0 ≤ R := (abs_nonneg _).trans hwR
  have hu0 := A.u_nonneg
  have ht0 := A.tiny_nonneg
  have hc0 := abs_nonneg (A.val c)
  have h1 : |A.val c * A.val w| ≤ |A.val c| * R := by rw [abs_mul]; exact mul_le_mul_of_nonneg_left hwR hc0
  have h2 : 0 ≤ |A.val c| * R := by positivity
  have h3 : 0 ≤ |A.val c| * A.tiny := by positivity
  have hb : |A.val c * A.val w| ≤ A.huge := by
    refine h1.trans (le_trans ?_ hh)
    nlinarith
  obtain ⟨f1, f2⟩ := mul_prod A w c hw hc hb
  have h4 : A.u * |A.val c * A.val w| ≤ |A.val c| * (A.u * R) := by
    calc A.u * |A.val c * A.val w| ≤ A.u * (|A.val c| * R) := mul_le_mul_of_nonneg_left h1 hu0
      _ = _ := by ring
  have h5 : 0 ≤ A.u * R := by positivity
  have h6 : 0 ≤ |A.val c| * (A.u * R) := by positivity
  have h7 : A.u * R ≤ R := by nlinarith
  have h8 : |A.val c| * (A.u * R) ≤ |A.val c| * R := mul_le_mul_of_nonneg_left h7 hc0
  refine ⟨f1, f2, by nlinarith, ?_⟩
  have : A.val (w * c) = (A.val (w * c) - A.val c * A.val w) + A.val c * A.val w := by ring
  rw [this]
  refine (abs_add_le _ _).trans ?_
  nlinarith

/-- rounding error of one section and one sample -/
theorem section_rounded (A : FloatArith F) (hu : A.u ≤ 1) (b : Biquad F) (hb : finiteBiquad A b) {R : ℝ} (hR : 0 ≤ R) (X Y : List F) (v : F)
    (hX : ∀ w ∈ X ++ [v], A.finite w ∧ |A.val w| ≤ R) (hY : ∀ w ∈ Y, A.finite w ∧ |A.val w| ≤ R)
    (hh : 2 * secQ (valBiquad A b) * (R + A.tiny) ≤ A.huge) :
    A.finite (sectionOut b X v Y) ∧
      |A.val (sectionOut b X v Y) - sectionOut (valBiquad A b) (X.map A.val) (A.val v) (Y.map A.val)| ≤
        4 * secQ (valBiquad A b) * (A.u * R + A.tiny) := by
  obtain ⟨b0, b1, b2, b3, b4⟩ := hb
  have ht0 := A.tiny_nonneg
  have hu0 := A.u_nonneg
  have hRt : 0 ≤ R + A.tiny := by linarith
  have huRt : 0 ≤ A.u * R + A.tiny := by positivity
  have c0 := abs_nonneg (A.val b.n0)
  have c1 := abs_nonneg (A.val b.n1)
  have c2 := abs_nonneg (A.val b.n2)
  have c3 := abs_nonneg (A.val b.d0)
  have c4 := abs_nonneg (A.val b.d1)
  obtain ⟨P1, hP1⟩ : ∃ P, P = 4 * |A.val b.n0| + 2 := ⟨_, rfl⟩
  obtain ⟨P2, hP2⟩ : ∃ P, P = 2 * P1 + 4 * |A.val b.n1| + 2 := ⟨_, rfl⟩
  obtain ⟨P3, hP3⟩ : ∃ P, P = 2 * P2 + 4 * |A.val b.n2| + 2 := ⟨_, rfl⟩
  obtain ⟨S1, hS1⟩ : ∃ P, P = 4 * |A.val b.d0| + 2 := ⟨_, rfl⟩
  obtain ⟨S2, hS2⟩ : ∃ P, P = 2 * S1 + 4 * |A.val b.d1| + 2 := ⟨_, rfl⟩
  have hQ : secQ (valBiquad A b) = P3 + S2 := by
    simp only [secQ, valBiquad, dotQ, hP1, hP2, hP3, hS1, hS2]
    ring
  rw [hQ] at hh ⊢
  have l1 : 0 ≤ P1 := by linarith
  have l2 : P1 ≤ P2 := by linarith
  have l3 : P2 ≤ P3 := by linarith
  have l4 : 0 ≤ S1 := by linarith
  have l5 : S1 ≤ S2 := by linarith
  have hub : ∀ P, P ≤ P3 + S2 → P * (R + A.tiny) ≤ A.huge := by
    intro P hP
    have h1 := mul_le_mul_of_nonneg_right hP hRt
    have h2 : 0 ≤ (P3 + S2) * (R + A.tiny) := mul_nonneg (by linarith) hRt
    linarith
  have w0 := sigI_mem A hR hX (((X ++ [v]).length : ℤ) - 3)
  have w1 := sigI_mem A hR hX (((X ++ [v]).length : ℤ) - 2)
  have w2 := sigI_mem A hR hX (((X ++ [v]).length : ℤ) - 1)
  have y1 := sigI_mem A hR hY ((Y.length : ℤ) - 2)
  have y2 := sigI_mem A hR hY ((Y.length : ℤ) - 1)
  have s0 : (sec3 (X ++ [v])).s0 = sigI (X ++ [v]) (((X ++ [v]).length : ℤ) - 3) := rfl
  have s1 : (sec3 (X ++ [v])).s1 = sigI (X ++ [v]) (((X ++ [v]).length : ℤ) - 2) := rfl
  have s2 : (sec3 (X ++ [v])).s2 = sigI (X ++ [v]) (((X ++ [v]).length : ℤ) - 1) := rfl
  have t1 : (sec3 Y).s1 = sigI Y ((Y.length : ℤ) - 2) := rfl
  have t2 : (sec3 Y).s2 = sigI Y ((Y.length : ℤ) - 1) := rfl
  have hv : A.val v = A.val v := rfl
  have er : sectionOut (valBiquad A b) (X.map A.val) (A.val v) (Y.map A.val) =
      (A.val b.n0 * A.val (sec3 (X ++ [v])).s0 + A.val b.n1 * A.val (sec3 (X ++ [v])).s1 + A.val b.n2 * A.val (sec3 (X ++ [v])).s2) -
      (A.val b.d0 * A.val (sec3 Y).s1 + A.val b.d1 * A.val (sec3 Y).s2) := by
    unfold sectionOut valBiquad
    have hm : X.map A.val ++ [A.val v] = (X ++ [v]).map A.val := by simp
    rw [hm]
    simp only [sec3, sigI_map, List.length_map]
    ring
  rw [er]
  unfold sectionOut
  rw [s0, s1, s2, t1, t2]
  obtain ⟨f1, -, f2, f3⟩ := first_rounded A hu w0.1 w0.2 b0 (by rw [← hP1]; exact hub _ (by linarith))
  rw [← hP1] at f2 f3
  obtain ⟨q1, q2, -, -⟩ := first_rounded A hu w1.1 w1.2 b1 (hub _ (by linarith))
  obtain ⟨r1, r2, -, -⟩ := first_rounded A hu w2.1 w2.2 b2 (hub _ (by linarith))
  obtain ⟨g1, -, g2, g3⟩ := first_rounded A hu y1.1 y1.2 b3 (by rw [← hS1]; exact hub _ (by linarith))
  rw [← hS1] at g2 g3
  obtain ⟨k1, k2, -, -⟩ := first_rounded A hu y2.1 y2.2 b4 (hub _ (by linarith))
  obtain ⟨m1, m2, m3⟩ := mac_rounded A hu l1 w1.2 f1 f2 f3 q1 q2 (by rw [← hP2]; exact hub _ (by linarith))
  rw [← hP2] at m2 m3
  obtain ⟨n1, n2, n3⟩ := mac_rounded A hu (l1.trans l2) w2.2 m1 m2 m3 r1 r2 (by rw [← hP3]; exact hub _ (by linarith))
  rw [← hP3] at n2 n3
  obtain ⟨o1, o2, o3⟩ := mac_rounded A hu l4 y2.2 g1 g2 g3 k1 k2 (by rw [← hS2]; exact hub _ (by linarith))
  rw [← hS2] at o2 o3
  have mono : ∀ {P E : ℝ}, P ≤ P3 + S2 → 0 ≤ E → P * E ≤ (P3 + S2) * E := fun h hE => mul_le_mul_of_nonneg_right h hE
  obtain ⟨z1, z2, -⟩ := sub_rounded A hu (Q := P3 + S2) (by linarith) hR n1 o1 (n2.trans (mono (by linarith) huRt))
    (o2.trans (mono (by linarith) huRt)) (n3.trans (mono (by linarith) hRt)) (o3.trans (mono (by linarith) hRt)) hh
  exact ⟨z1, z2⟩

/-- all sections, all samples: `ρ i` bounds the signal entering section `i` -/
theorem cascade_rounded (A : FloatArith F) (hu : A.u ≤ 1) (sys : List (Biquad F)) (hsys : ∀ b ∈ sys, finiteBiquad A b)
    (L : ℕ) (hL : sys.length + 1 ≤ L) (ρ : ℕ → ℝ) (hρ0 : 0 ≤ ρ 0) (hρ : ∀ i, i < sys.length → ρ i ≤ ρ (i + 1))
    (hh : ∀ i (h : i < sys.length), 2 * secQ (valBiquad A sys[i]) * (ρ (i + 1) + A.tiny) ≤ A.huge)
    (hboot : ∀ i (h : i < sys.length), ∀ (xs ys : List ℝ), xs.length = ys.length → (∀ v ∈ xs, |v| ≤ ρ i) →
      (∀ n : ℕ, n < xs.length → |taps ((valBiquad A sys[i]).coeffs.den ++ [1]) ys n - taps (valBiquad A sys[i]).coeffs.num xs n| ≤
        4 * secQ (valBiquad A sys[i]) * (A.u * ρ (i + 1) + A.tiny)) → ∀ w ∈ ys, |w| ≤ ρ (i + 1))
    (zs : List F) (hz : ∀ z ∈ zs, A.finite z ∧ |A.val z| ≤ ρ 0) :
    ∃ ws s', CascadedForm.feed sys zs ⟨List.replicate L ⟨0, 0, 0⟩⟩ = .ok (ws, s') ∧ ∃ X : ℕ → List F, X 0 = zs ∧ X sys.length = ws ∧
      (∀ i, i ≤ sys.length → (X i).length = zs.length ∧ ∀ w ∈ X i, A.finite w ∧ |A.val w| ≤ ρ i) ∧
      ∀ i (h : i < sys.length), ∀ n : ℕ, n < zs.length →
        |taps ((valBiquad A sys[i]).coeffs.den ++ [1]) ((X (i + 1)).map A.val) n -
          taps (valBiquad A sys[i]).coeffs.num ((X i).map A.val) n| ≤ 4 * secQ (valBiquad A sys[i]) * (A.u * ρ (i + 1) + A.tiny) := by
  have hρn : ∀ i, i ≤ sys.length → 0 ≤ ρ i := by
    intro i
    induction i with
    | zero => intro _; exact hρ0
    | succ i ih => intro h; exact (ih (by omega)).trans (hρ i (by omega))
  obtain ⟨ws, s', g1, X, g2, g3, g4, g5, g6⟩ := feedAll_inv_mem (step := CascadedForm.feed1 sys)
    (fun z => A.finite z ∧ |A.val z| ≤ ρ 0)
    (fun xs ys s => ∃ X : ℕ → List F, X 0 = xs ∧
      s = ⟨(List.range L).map fun i => sec3 (X i)⟩ ∧
      (∀ i, i ≤ sys.length → (X i).length = xs.length ∧ ∀ w ∈ X i, A.finite w ∧ |A.val w| ≤ ρ i) ∧
      (∀ i (h : i < sys.length), ∀ n : ℕ, n < xs.length →
        |taps ((valBiquad A sys[i]).coeffs.den ++ [1]) ((X (i + 1)).map A.val) n -
          taps (valBiquad A sys[i]).coeffs.num ((X i).map A.val) n| ≤ 4 * secQ (valBiquad A sys[i]) * (A.u * ρ (i + 1) + A.tiny)) ∧
      (∀ i, sys.length ≤ i → X i = ys))
    (by
      rintro xs ys s x hx ⟨X, rfl, rfl, hb, hr, hy⟩
      have hconst : ∀ i, sys.length ≤ i → chainVal sys X x i = chainVal sys X x sys.length := by
        intro i hi
        induction i with
        | zero => have : sys.length = 0 := by omega
                  rw [this]
        | succ i ih =>
          rcases Nat.lt_or_ge i sys.length with c | c
          · have : sys.length = i + 1 := by omega
            rw [this]
          · rw [← ih c]
            simp only [chainVal]
            rw [dif_neg (by omega)]
      have main : ∀ i, i ≤ sys.length → (A.finite (chainVal sys X x i) ∧ |A.val (chainVal sys X x i)| ≤ ρ i) ∧
          ∀ j (h : j < sys.length), j < i → ∀ n : ℕ, n < (X 0 ++ [x]).length →
            |taps ((valBiquad A sys[j]).coeffs.den ++ [1]) ((X (j + 1) ++ [chainVal sys X x (j + 1)]).map A.val) n -
              taps (valBiquad A sys[j]).coeffs.num ((X j ++ [chainVal sys X x j]).map A.val) n| ≤
              4 * secQ (valBiquad A sys[j]) * (A.u * ρ (j + 1) + A.tiny) := by
        intro i
        induction i with
        | zero => intro _; exact ⟨hx, fun j _ hj => absurd hj (by omega)⟩
        | succ i ih =>
          intro hi
          obtain ⟨ih1, ih2⟩ := ih (by omega)
          have hi' : i < sys.length := by omega
          obtain ⟨lx, bx⟩ := hb i (by omega)
          obtain ⟨ly, by'⟩ := hb (i + 1) hi
          have hR := hρn (i + 1) hi
          have hX' : ∀ w ∈ X i ++ [chainVal sys X x i], A.finite w ∧ |A.val w| ≤ ρ i := by
            intro w hw
            rcases List.mem_append.1 hw with h | h
            · exact bx w h
            · rw [List.mem_singleton.1 h]; exact ih1
          obtain ⟨o1, o2⟩ := section_rounded A hu sys[i] (hsys _ (List.getElem_mem _)) hR (X i) (X (i + 1)) (chainVal sys X x i)
            (fun w hw => ⟨(hX' w hw).1, (hX' w hw).2.trans (hρ i hi')⟩) by' (hh i hi')
          have hcv : chainVal sys X x (i + 1) = sectionOut sys[i] (X i) (chainVal sys X x i) (X (i + 1)) := by
            simp only [chainVal]
            rw [dif_pos hi']
          rw [← hcv] at o1 o2
          have hnew : ∀ n : ℕ, n < (X 0 ++ [x]).length →
            |taps ((valBiquad A sys[i]).coeffs.den ++ [1]) ((X (i + 1) ++ [chainVal sys X x (i + 1)]).map A.val) n -
              taps (valBiquad A sys[i]).coeffs.num ((X i ++ [chainVal sys X x i]).map A.val) n| ≤
              4 * secQ (valBiquad A sys[i]) * (A.u * ρ (i + 1) + A.tiny) := by
            intro n hn
            simp only [List.length_append, List.length_singleton] at hn
            rcases Nat.lt_succ_iff_lt_or_eq.1 hn with h | h
            · have := hr i hi' n h
              simp only [List.map_append]
              rw [taps_append_lt _ ((X (i + 1)).map A.val) _ (by simp [ly]; omega), taps_append_lt _ ((X i).map A.val) _ (by simp [lx]; omega)]
              exact this
            · have hlen : (X (i + 1)).length = (X i).length := by rw [lx, ly]
              have e0 := sectionOut_taps (valBiquad A sys[i]) ((X i).map A.val) ((X (i + 1)).map A.val) (A.val (chainVal sys X x i)) (by simp [hlen])
              rw [List.length_map, List.length_map] at e0
              have e1 : taps ((valBiquad A sys[i]).coeffs.den ++ [1]) ((X (i + 1) ++ [chainVal sys X x (i + 1)]).map A.val) n =
                  1 * A.val (chainVal sys X x (i + 1)) + taps (valBiquad A sys[i]).coeffs.den ((X (i + 1)).map A.val) (((X (i + 1)).length : ℤ) - 1) := by
                have := taps_snoc (valBiquad A sys[i]).coeffs.den 1 ((X (i + 1)).map A.val) (A.val (chainVal sys X x (i + 1)))
                rw [List.length_map] at this
                rw [h, ← ly, ← this]
                simp
              have e2 : taps (valBiquad A sys[i]).coeffs.num ((X i ++ [chainVal sys X x i]).map A.val) n =
                  taps [(valBiquad A sys[i]).n0, (valBiquad A sys[i]).n1, (valBiquad A sys[i]).n2]
                    ((X i).map A.val ++ [A.val (chainVal sys X x i)]) ((X i).length : ℕ) := by
                rw [h, ← lx]; simp [Biquad.coeffs]
              rw [e1, e2]
              have e3 : 1 * A.val (chainVal sys X x (i + 1)) + taps (valBiquad A sys[i]).coeffs.den ((X (i + 1)).map A.val) (((X (i + 1)).length : ℤ) - 1) -
                  taps [(valBiquad A sys[i]).n0, (valBiquad A sys[i]).n1, (valBiquad A sys[i]).n2]
                    ((X i).map A.val ++ [A.val (chainVal sys X x i)]) ((X i).length : ℕ) =
                  A.val (chainVal sys X x (i + 1)) - sectionOut (valBiquad A sys[i]) ((X i).map A.val) (A.val (chainVal sys X x i)) ((X (i + 1)).map A.val) := by
                rw [e0]
                simp only [Biquad.coeffs]
                ring
              rw [e3]
              exact o2
          have hbd := hboot i hi' ((X i ++ [chainVal sys X x i]).map A.val) ((X (i + 1) ++ [chainVal sys X x (i + 1)]).map A.val)
            (by simp [lx, ly]) (by
              intro v hv
              obtain ⟨w, hw, rfl⟩ := List.mem_map.1 hv
              exact (hX' w hw).2) (by
              intro n hn
              exact hnew n (by simpa [lx] using hn))
          refine ⟨⟨o1, hbd _ (List.mem_map_of_mem (by simp))⟩, fun j h hj => ?_⟩
          rcases Nat.lt_succ_iff_lt_or_eq.1 hj with h' | h'
          · exact ih2 j h h'
          · subst h'; exact hnew
      refine ⟨_, _, cascade_feed1 sys L hL X x, fun i => X i ++ [chainVal sys X x i], rfl, rfl,
        fun i h => ⟨by simp [(hb i h).1], fun w hw => ?_⟩, fun i h => (main sys.length le_rfl).2 i h h, fun i hi => ?_⟩
      · rcases List.mem_append.1 hw with h' | h'
        · exact (hb i h).2 w h'
        · rw [List.mem_singleton.1 h']; exact (main i h).1
      · simp only
        rw [hy i hi, hconst i hi, hconst L (by omega)])
    zs [] [] ⟨List.replicate L ⟨0, 0, 0⟩⟩ hz
    ⟨fun _ => [], rfl, by
        congr 1
        apply List.ext_getElem (by simp)
        intro i _ _
        simp [sec3, sigI, sig],
      fun i h => ⟨rfl, by simp⟩, fun i h n hn => absurd hn (by simp), fun i _ => rfl⟩
  simp only [List.nil_append] at g2 g4 g5 g6
  refine ⟨ws, s', g1, X, g2, g6 _ le_rfl, g4, g5⟩

end
end Rnd
end Verif
