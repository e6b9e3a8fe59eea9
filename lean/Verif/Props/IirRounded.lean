import Verif.Lemmas.CascadeRounded
import Verif.Lemmas.BinaryFormat
import Verif.Props.Stability

/-!
# C83: recursive filters in floating point

A recursive filter feeds its own rounding errors back for ever.  For a stable filter the error nevertheless stays below a bound that does
not depend on how long the filter runs.  `FloatArithFun` (Spec/FloatArith.lean) is what IEEE 754 promises about one operation;
`IsResponse` (Spec/DifferenceEquation.lean) is the exact output.
-/

set_option linter.unusedVariables false

namespace Verif
open Finset Rnd

/-- `M` bounds how much the recursive part amplifies a bounded signal. -/
def IsGain (den : List ℝ) (M : ℝ) : Prop :=
  0 ≤ M ∧ ∀ (x y : List ℝ) (B : ℝ), IsResponse [1] den x y → (∀ v ∈ x, |v| ≤ B) → ∀ w ∈ y, |w| ≤ M * B

/-- Every stable filter has a finite gain. -/
theorem exists_gain (sys : TransferFn ℝ) (hlead : sig sys.den (sys.den.length - 1) ≠ 0) (hst : sys.IsStable) :
    ∃ M, IsGain sys.den M := by
  obtain ⟨M, h⟩ := C82_bounded ⟨[1], sys.den⟩ hlead hst
  refine ⟨|M|, abs_nonneg _, fun x y B hr hx w hw => ?_⟩
  have hB : 0 ≤ B := by
    cases x with
    | nil => have := hr.1; simp at this; subst this; simp at hw
    | cons v _ => exact (abs_nonneg v).trans (hx v (by simp))
  exact (h x y B hr hx w hw).trans (mul_le_mul_of_nonneg_right (le_abs_self M) hB)

theorem gain_taps {den : List ℝ} {M : ℝ} (h : IsGain den M) (ys : List ℝ) (ε : ℝ)
    (hε : ∀ n : ℕ, n < ys.length → |taps den ys n| ≤ ε) : ∀ w ∈ ys, |w| ≤ M * ε := by
  refine h.2 ((List.range ys.length).map fun n : ℕ => taps den ys n) ys ε ⟨by simp, fun n hn => ?_⟩ ?_
  · have hn' : n < ys.length := by simpa using hn
    simp [taps, sigI_nat, sig, hn']
  · intro v hv
    obtain ⟨n, hn, rfl⟩ := List.mem_map.1 hv
    exact hε n (List.mem_range.1 hn)

theorem response_taps {b a x y : List ℝ} (h : IsResponse b a x y) {n : ℕ} (hn : n < x.length) : taps a y n = taps b x n := h.2 n hn

/-- the sum of the magnitudes of coefficients -/
noncomputable def coefSize (c : List ℝ) : ℝ := ∑ k ∈ range c.length, |sig c (c.length - 1 - k)|

theorem coefSize_nonneg (c : List ℝ) : 0 ≤ coefSize c := sum_nonneg fun _ _ => abs_nonneg _

/-- if the difference equation holds up to `ε`, the output is right up to `M * ε` -/
theorem perturbed {b a x ŷ : List ℝ} {M ε : ℝ} (hM : IsGain a M) (hl : ŷ.length = x.length)
    (hr : ∀ n : ℕ, n < x.length → |taps a ŷ n - taps b x n| ≤ ε) {y : List ℝ} (hy : IsResponse b a x y) :
    ∀ n, n < x.length → |sig ŷ n - sig y n| ≤ M * ε := by
  intro n hn
  have hll : ŷ.length = y.length := hl.trans hy.1.symm
  have key := gain_taps hM (List.zipWith (fun a b => a - b) ŷ y) ε (by
    intro m hm
    have hm' : m < x.length := by simpa [hl, hy.1] using hm
    rw [taps_sub hll, response_taps hy hm']
    exact hr m hm')
  have e : sigI (List.zipWith (fun a b => a - b) ŷ y) (n : ℤ) = sigI ŷ n - sigI y n := sigI_sub hll n
  rw [sigI_nat, sigI_nat, sigI_nat] at e
  rw [← e]
  have hn' : n < (List.zipWith (fun a b => a - b) ŷ y).length := by simp [hl, hy.1, hn]
  have : sig (List.zipWith (fun a b => a - b) ŷ y) n = (List.zipWith (fun a b => a - b) ŷ y)[n] := by
    unfold sig
    rw [List.getD_eq_getElem?_getD, List.getElem?_eq_getElem hn', Option.getD_some]
  rw [this]
  exact key _ (List.getElem_mem _)

private theorem boot {b a : List ℝ} {M X R H u t : ℝ} (hM : IsGain a M) (hX : 0 ≤ X) (hH : 0 ≤ H) (ht : 0 ≤ t)
    (hR : R = (2 * (M * coefSize b) + 1) * X + 2 * (M * H) * t) (hc : M * H * (u + t) ≤ 1 / 2) :
    ∀ (xs ys : List ℝ), xs.length = ys.length → (∀ v ∈ xs, |v| ≤ X) →
      (∀ n : ℕ, n < xs.length → |taps a ys n - taps b xs n| ≤ H * (u * R + t * (1 + R))) → ∀ w ∈ ys, |w| ≤ R := by
  intro xs ys hl hx hr w hw
  have h1 := gain_taps hM ys (coefSize b * X + H * (u * R + t * (1 + R))) (fun n hn => by
    have e : taps a ys n = taps b xs n + (taps a ys n - taps b xs n) := by ring
    rw [e]
    refine (abs_add_le _ _).trans (add_le_add (taps_bound b xs X hX hx n) (hr n (hl ▸ hn)))) w hw
  refine h1.trans ?_
  have hM0 := hM.1
  have hb0 := coefSize_nonneg b
  have hMH : 0 ≤ M * H := by positivity
  have hR0 : 0 ≤ R := by rw [hR]; positivity
  have h2 : M * H * (u + t) * R ≤ 1 / 2 * R := mul_le_mul_of_nonneg_right hc hR0
  have h3 : M * (coefSize b * X + H * (u * R + t * (1 + R))) = M * coefSize b * X + M * H * (u + t) * R + M * H * t := by ring
  rw [h3]
  have h4 : 1 / 2 * R = M * coefSize b * X + 1 / 2 * X + M * H * t := by rw [hR]; ring
  linarith

/-- The constant of direct form I: it depends on the real coefficients and the gain only. -/
noncomputable def dfiConst (b a : List ℝ) (M : ℝ) : ℝ :=
  let ν := 1 / sig a (a.length - 1)
  let Q := dotQ b 0 + dotQ a.dropLast 0
  let H := |sig a (a.length - 1)| * stepH Q ν
  1 + |ν| + M * H * (2 * (M * coefSize b) + 5) + 4 * Q * (2 * |ν| + 1) * (2 * (M * coefSize b) + 3)

/-- **C83**, direct form I, with an explicit constant. -/
theorem C83_direct_form_I_explicit (b a : List ℝ) (M : ℝ) (hlead : sig a (a.length - 1) ≠ 0) (hM : IsGain a M)
    {F : Type} [Zero F] [One F] [Add F] [Sub F] [Mul F] [Div F] [Fma F] [FloatFun F] (A : FloatArithFun F) (h1 : A.finite 1) (hv1 : A.val 1 = 1)
    (sys : TransferFn F) (hb : sys.num.map A.val = b) (ha : sys.den.map A.val = a) (hbf : ∀ c ∈ sys.num, A.finite c)
    (haf : ∀ c ∈ sys.den, A.finite c) (ord : ℕ) (hord : sys.order ≤ ord) (x : List F) (X : ℝ) (hX : 0 ≤ X)
    (hx : ∀ v ∈ x, A.finite v ∧ |A.val v| ≤ X) (hprec : dfiConst b a M * (A.u + A.tiny) ≤ 1) (hover : dfiConst b a M * (1 + X) ≤ A.huge) :
    ∃ ŷ s, DirectFormI.feed sys x (DirectFormI.make ord) = .ok (ŷ, s) ∧ ŷ.length = x.length ∧ (∀ w ∈ ŷ, A.finite w) ∧
      ∀ y, IsResponse b a (x.map A.val) y → ∀ n, n < x.length →
        |A.val (sig ŷ n) - sig y n| ≤ dfiConst b a M * (A.u * X + A.tiny * (1 + X)) := by
  obtain ⟨num, den⟩ := sys
  simp only at hb ha hbf haf
  have hden : den ≠ [] := by
    rintro rfl
    simp at ha
    subst ha
    simp [sig] at hlead
  obtain ⟨r, lead, rfl⟩ : ∃ r lead, den = r ++ [lead] := ⟨den.dropLast, den.getLast hden, (List.dropLast_append_getLast hden).symm⟩
  rw [List.map_append, List.map_singleton] at ha
  have hal : sig a (a.length - 1) = A.val lead := by rw [← ha]; simp [sig]
  have hadl : a.dropLast = r.map A.val := by rw [← ha]; simp
  obtain ⟨Q, hQ⟩ : ∃ Q, Q = dotQ b 0 + dotQ a.dropLast 0 := ⟨_, rfl⟩
  obtain ⟨H, hH⟩ : ∃ H, H = |A.val lead| * stepH Q (1 / A.val lead) := ⟨_, rfl⟩
  obtain ⟨ν, hν⟩ : ∃ ν, ν = |1 / A.val lead| := ⟨_, rfl⟩
  obtain ⟨S, hS⟩ : ∃ S, S = M * coefSize b := ⟨_, rfl⟩
  have hC : dfiConst b a M = 1 + ν + M * H * (2 * S + 5) + 4 * Q * (2 * ν + 1) * (2 * S + 3) := by
    unfold dfiConst
    simp only
    rw [hal, hν, hS, hH, hQ]
  rw [hC] at hprec hover ⊢
  rw [hal] at hlead
  have hM0 := hM.1
  have hQb : 0 ≤ dotQ b 0 := le_dotQ b 0 le_rfl
  have hQa : 0 ≤ dotQ a.dropLast 0 := le_dotQ a.dropLast 0 le_rfl
  have hQ0 : 0 ≤ Q := by rw [hQ]; linarith
  have hν0 : 0 ≤ ν := by rw [hν]; positivity
  have hH0 : 0 ≤ H := by rw [hH]; unfold stepH; positivity
  have hS0 : 0 ≤ S := by rw [hS]; have := coefSize_nonneg b; positivity
  have hu0 := A.u_nonneg
  have ht0 := A.tiny_nonneg
  have hMH : 0 ≤ M * H := by positivity
  have hut : 0 ≤ A.u + A.tiny := by linarith
  obtain ⟨T, hT⟩ : ∃ T, T = 4 * Q * (2 * ν + 1) := ⟨_, rfl⟩
  have hT0 : 0 ≤ T := by rw [hT]; positivity
  rw [← hT] at hprec hover ⊢
  obtain ⟨K, hK⟩ : ∃ K, K = M * H := ⟨_, rfl⟩
  rw [← hK] at hMH hprec hover ⊢
  have hKS : 0 ≤ K * S := by positivity
  have hTS : 0 ≤ T * S := by positivity
  have p1 : A.u + A.tiny ≤ 1 := by
    refine le_trans ?_ hprec
    have : 0 ≤ (ν + K * (2 * S + 5) + T * (2 * S + 3)) * (A.u + A.tiny) := by positivity
    have e : (1 + ν + K * (2 * S + 5) + T * (2 * S + 3)) * (A.u + A.tiny) =
      A.u + A.tiny + (ν + K * (2 * S + 5) + T * (2 * S + 3)) * (A.u + A.tiny) := by ring
    linarith
  have p2 : K * (A.u + A.tiny) ≤ 1 / 2 := by
    have : 0 ≤ (1 + ν + K * (2 * S + 3) + T * (2 * S + 3)) * (A.u + A.tiny) := by positivity
    have e : (1 + ν + K * (2 * S + 5) + T * (2 * S + 3)) * (A.u + A.tiny) =
      2 * (K * (A.u + A.tiny)) + (1 + ν + K * (2 * S + 3) + T * (2 * S + 3)) * (A.u + A.tiny) := by ring
    linarith
  have hu : A.u ≤ 1 := by linarith
  have ht : A.tiny ≤ 1 := by linarith
  have hKu0 : 0 ≤ K * A.u := by positivity
  have hKt0 : 0 ≤ K * A.tiny := by positivity
  have hKut : K * (A.u + A.tiny) = K * A.u + K * A.tiny := by ring
  have hKt : K * A.tiny ≤ 1 / 2 := by linarith
  have hKu : K * A.u ≤ 1 / 2 := by linarith
  obtain ⟨R, hR⟩ : ∃ R, R = (2 * (M * coefSize b) + 1) * X + 2 * (M * H) * A.tiny := ⟨_, rfl⟩
  have hR' : R = (2 * S + 1) * X + 2 * K * A.tiny := by rw [hR, ← hS, ← hK]
  have hSX : 0 ≤ S * X := by positivity
  have hXR : X ≤ R := by rw [hR']; linarith
  obtain ⟨ŷ, s, g1, g2, g3, g4⟩ := dfi_rounded A hu ht h1 hv1 num r lead hbf (fun c hc => haf c (by simp [hc])) (haf lead (by simp)) hlead
    ord hord X R Q (A.u * R + A.tiny * (1 + R)) hX hXR hQ0 (by rw [hb, hQ]; linarith) (by rw [← hadl, hQ]; linarith) rfl
    (by rw [← hν]; refine le_trans ?_ hover
        have h0 : 0 ≤ 1 + K * (2 * S + 5) + T * (2 * S + 3) := by positivity
        have h2 : 0 ≤ (1 + ν + K * (2 * S + 5) + T * (2 * S + 3)) * X := by positivity
        linarith)
    (by rw [← hν, ← hT]; refine le_trans ?_ hover
        have h0 : 0 ≤ (1 + ν + K * (2 * S + 5)) * (1 + X) := by positivity
        have h2 : T * (R + A.tiny) ≤ T * ((2 * S + 3) * (1 + X)) := by
          apply mul_le_mul_of_nonneg_left _ hT0
          have e7 : (2 * S + 3) * (1 + X) = 2 * S + 3 + 2 * (S * X) + 3 * X := by ring
          have e8 : R = 2 * (S * X) + X + 2 * (K * A.tiny) := by rw [hR']; ring
          rw [e7, e8]
          linarith
        linarith)
    (by rw [← hH, hb, ha]; exact boot hM hX hH0 ht0 hR (by rw [← hK]; exact p2)) x hx
  rw [← hH, hb, ha] at g4
  refine ⟨ŷ, s, g1, g2, fun w hw => (g3 w hw).1, fun y hy n hn => ?_⟩
  have key := perturbed hM (b := b) (x := x.map A.val) (ŷ := ŷ.map A.val) (by simp [g2]) (by simpa using g4) hy n (by simpa using hn)
  rw [sig_map A.toFloatArith] at key
  refine key.trans ?_
  have e1 : M * (H * (A.u * R + A.tiny * (1 + R))) = K * (2 * S + 1) * (A.u * X + A.tiny * X) + 2 * (K * A.u + K * A.tiny) * (K * A.tiny) + K * A.tiny := by
    rw [hR', hK]; ring
  rw [e1]
  have e2 : (K * A.u + K * A.tiny) * (K * A.tiny) ≤ 1 * (K * A.tiny) := mul_le_mul_of_nonneg_right (by linarith) hKt0
  have hx1 : 0 ≤ A.u * X := by positivity
  have hx2 : 0 ≤ A.tiny * X := by positivity
  have e3 : (1 + ν + K * (2 * S + 5) + T * (2 * S + 3)) * (A.u * X + A.tiny * (1 + X)) =
      K * (2 * S + 1) * (A.u * X + A.tiny * X) + 4 * K * (A.u * X + A.tiny * X) + (2 * S + 5) * (K * A.tiny) + (1 + ν + T * (2 * S + 3)) * (A.u * X + A.tiny * (1 + X)) := by
    ring
  rw [e3]
  have e4 : 0 ≤ (1 + ν + T * (2 * S + 3)) * (A.u * X + A.tiny * (1 + X)) := by positivity
  have e5 : 0 ≤ 4 * K * (A.u * X + A.tiny * X) := by positivity
  have e6 : 0 ≤ S * (K * A.tiny) := by positivity
  linarith

/-- **C83**, direct form I: for every stable filter there is a constant such that in any sufficiently precise floating point format and for
inputs of any length the output is finite and as close to the exact output as the rounding unit times the input level. -/
theorem C83_direct_form_I (sys : TransferFn ℝ) (hlead : sig sys.den (sys.den.length - 1) ≠ 0) (hst : sys.IsStable) :
    ∃ C : ℝ, ∀ (F : Type) [Zero F] [One F] [Add F] [Sub F] [Mul F] [Div F] [Fma F] [FloatFun F] (A : FloatArithFun F) (fsys : TransferFn F)
      (ord : ℕ) (x : List F) (X : ℝ), A.finite 1 → A.val 1 = 1 → fsys.num.map A.val = sys.num → fsys.den.map A.val = sys.den →
      (∀ c ∈ fsys.num, A.finite c) → (∀ c ∈ fsys.den, A.finite c) → fsys.order ≤ ord → 0 ≤ X → (∀ v ∈ x, A.finite v ∧ |A.val v| ≤ X) →
      C * (A.u + A.tiny) ≤ 1 → C * (1 + X) ≤ A.huge →
      ∃ ŷ s, DirectFormI.feed fsys x (DirectFormI.make ord) = .ok (ŷ, s) ∧ ŷ.length = x.length ∧ (∀ w ∈ ŷ, A.finite w) ∧
        ∀ y, IsResponse sys.num sys.den (x.map A.val) y → ∀ n, n < x.length →
          |A.val (sig ŷ n) - sig y n| ≤ C * (A.u * X + A.tiny * (1 + X)) := by
  obtain ⟨M, hM⟩ := exists_gain sys hlead hst
  exact ⟨dfiConst sys.num sys.den M, fun F _ _ _ _ _ _ _ _ A fsys ord x X h1 hv1 hb ha hbf haf hord hX hx hp ho =>
    C83_direct_form_I_explicit _ _ M hlead hM A h1 hv1 fsys hb ha hbf haf ord hord x X hX hx hp ho⟩

/-! ### direct form II -/

/-- The constant of direct form II. -/
noncomputable def dfiiConst (b a : List ℝ) (M : ℝ) : ℝ :=
  let Q := dotQ b 0 + dotQ a.dropLast 0
  1 + 2 * (M * (10 + 2 * Q)) + M * (coefSize b * (10 + 2 * Q) + coefSize a * Q) * (2 * M + 3) + (6 + Q) * (2 * M + 3)

/-- **C83**, direct form II (monic denominators, see C21), with an explicit constant. -/
theorem C83_direct_form_II_explicit (b a : List ℝ) (M : ℝ) (hlead : sig a (a.length - 1) = 1) (hM : IsGain a M)
    {F : Type} [Zero F] [One F] [Add F] [Sub F] [Mul F] [Div F] [Fma F] [FloatFun F] (A : FloatArithFun F) (h1 : A.finite 1) (hv1 : A.val 1 = 1)
    (sys : TransferFn F) (hb : sys.num.map A.val = b) (ha : sys.den.map A.val = a) (hbf : ∀ c ∈ sys.num, A.finite c)
    (haf : ∀ c ∈ sys.den, A.finite c) (ord : ℕ) (hord : sys.order ≤ ord) (x : List F) (X : ℝ) (hX : 0 ≤ X)
    (hx : ∀ v ∈ x, A.finite v ∧ |A.val v| ≤ X) (hprec : dfiiConst b a M * (A.u + A.tiny) ≤ 1) (hover : dfiiConst b a M * (1 + X) ≤ A.huge) :
    ∃ ŷ s, DirectFormII.feed sys x (DirectFormII.make ord) = .ok (ŷ, s) ∧ ŷ.length = x.length ∧ (∀ w ∈ ŷ, A.finite w) ∧
      ∀ y, IsResponse b a (x.map A.val) y → ∀ n, n < x.length →
        |A.val (sig ŷ n) - sig y n| ≤ dfiiConst b a M * (A.u * X + A.tiny * (1 + X)) := by
  obtain ⟨num, den⟩ := sys
  simp only at hb ha hbf haf
  have hden : den ≠ [] := by
    rintro rfl
    simp at ha
    subst ha
    simp [sig] at hlead
  obtain ⟨r, lead, rfl⟩ : ∃ r lead, den = r ++ [lead] := ⟨den.dropLast, den.getLast hden, (List.dropLast_append_getLast hden).symm⟩
  rw [List.map_append, List.map_singleton] at ha
  have hal : A.val lead = 1 := by rw [← hlead, ← ha]; simp [sig]
  have hadl : a.dropLast = r.map A.val := by rw [← ha]; simp
  obtain ⟨Q, hQ⟩ : ∃ Q, Q = dotQ b 0 + dotQ a.dropLast 0 := ⟨_, rfl⟩
  obtain ⟨G, hG⟩ : ∃ G, G = coefSize b * (10 + 2 * Q) + coefSize a * Q := ⟨_, rfl⟩
  obtain ⟨K, hK⟩ : ∃ K, K = M * (10 + 2 * Q) := ⟨_, rfl⟩
  have hC : dfiiConst b a M = 1 + 2 * K + M * G * (2 * M + 3) + (6 + Q) * (2 * M + 3) := by
    unfold dfiiConst
    simp only
    rw [hK, hG, hQ]
  rw [hC] at hprec hover ⊢
  have hM0 := hM.1
  have hQb : 0 ≤ dotQ b 0 := le_dotQ b 0 le_rfl
  have hQa : 0 ≤ dotQ a.dropLast 0 := le_dotQ a.dropLast 0 le_rfl
  have hQ0 : 0 ≤ Q := by rw [hQ]; linarith
  have hsb := coefSize_nonneg b
  have hsa := coefSize_nonneg a
  have hG0 : 0 ≤ G := by rw [hG]; positivity
  have hK0 : 0 ≤ K := by rw [hK]; positivity
  have hu0 := A.u_nonneg
  have ht0 := A.tiny_nonneg
  have hut : 0 ≤ A.u + A.tiny := by linarith
  have hMG : 0 ≤ M * G := by positivity
  have p1 : A.u + A.tiny ≤ 1 := by
    refine le_trans ?_ hprec
    have : 0 ≤ (2 * K + M * G * (2 * M + 3) + (6 + Q) * (2 * M + 3)) * (A.u + A.tiny) := by positivity
    have e : (1 + 2 * K + M * G * (2 * M + 3) + (6 + Q) * (2 * M + 3)) * (A.u + A.tiny) =
      A.u + A.tiny + (2 * K + M * G * (2 * M + 3) + (6 + Q) * (2 * M + 3)) * (A.u + A.tiny) := by ring
    linarith
  have p2 : K * (A.u + A.tiny) ≤ 1 / 2 := by
    have : 0 ≤ (1 + M * G * (2 * M + 3) + (6 + Q) * (2 * M + 3)) * (A.u + A.tiny) := by positivity
    have e : (1 + 2 * K + M * G * (2 * M + 3) + (6 + Q) * (2 * M + 3)) * (A.u + A.tiny) =
      2 * (K * (A.u + A.tiny)) + (1 + M * G * (2 * M + 3) + (6 + Q) * (2 * M + 3)) * (A.u + A.tiny) := by ring
    linarith
  have hu : A.u ≤ 1 := by linarith
  have ht : A.tiny ≤ 1 := by linarith
  have hKu0 : 0 ≤ K * A.u := by positivity
  have hKt0 : 0 ≤ K * A.tiny := by positivity
  have hKut : K * (A.u + A.tiny) = K * A.u + K * A.tiny := by ring
  have hcs : coefSize [1] = 1 := by simp [coefSize, sig]
  obtain ⟨R, hR⟩ : ∃ R, R = (2 * (M * coefSize [1]) + 1) * X + 2 * (M * (10 + 2 * Q)) * A.tiny := ⟨_, rfl⟩
  have hMX : 0 ≤ M * X := by positivity
  have hR' : R = 2 * (M * X) + X + 2 * (K * A.tiny) := by rw [hR, hcs, hK]; ring
  have hXR : X ≤ R := by rw [hR']; linarith
  have hη0 : 0 ≤ A.u * R + A.tiny * (1 + R) := by
    have : 0 ≤ R := hX.trans hXR
    positivity
  have h1h : 1 ≤ A.huge := by
    refine le_trans ?_ hover
    have : 0 ≤ (2 * K + M * G * (2 * M + 3) + (6 + Q) * (2 * M + 3)) * (1 + X) := by positivity
    linarith
  have ha' : r.map A.val ++ [1] = a := by rw [← ha, hal]
  obtain ⟨ŷ, s, W, g1, g2, g3, g4, g5, g6⟩ := dfii_rounded A hu ht h1 hv1 num r lead hbf (fun c hc => haf c (by simp [hc])) (haf lead (by simp)) hal
    ord hord X R Q (A.u * R + A.tiny * (1 + R)) hX hXR hQ0 (by rw [hb, hQ]; linarith) (by rw [← hadl, hQ]; linarith) rfl h1h
    (by refine le_trans ?_ hover
        have h0 : 0 ≤ (1 + 2 * K + M * G * (2 * M + 3)) * (1 + X) := by positivity
        have h2 : (6 + Q) * (R + A.tiny) ≤ (6 + Q) * ((2 * M + 3) * (1 + X)) := by
          apply mul_le_mul_of_nonneg_left _ (by linarith)
          have e7 : (2 * M + 3) * (1 + X) = 2 * M + 3 + 2 * (M * X) + 3 * X := by ring
          rw [e7, hR']
          linarith
        linarith)
    (by rw [ha']; exact boot hM hX (by linarith) ht0 hR (by rw [← hK]; exact p2)) x hx
  rw [ha'] at g5
  rw [hb] at g6
  have hcomp := compose_rounded a b (x.map A.val) W (ŷ.map A.val) x.length _ _ (mul_nonneg (by linarith) hη0) (mul_nonneg hQ0 hη0) g5 g6
  refine ⟨ŷ, s, g1, g2, g3, fun y hy n hn => ?_⟩
  have key := perturbed hM (b := b) (x := x.map A.val) (ŷ := ŷ.map A.val) (by simp [g2]) (by simpa using hcomp) hy n (by simpa using hn)
  rw [sig_map A.toFloatArith] at key
  refine key.trans ?_
  have e1 : M * (coefSize b * ((10 + 2 * Q) * (A.u * R + A.tiny * (1 + R))) + coefSize a * (Q * (A.u * R + A.tiny * (1 + R)))) =
      M * G * ((2 * M + 1) * (A.u * X + A.tiny * X) + 2 * (K * A.u + K * A.tiny) * A.tiny + A.tiny) := by
    rw [hG, hR']; ring
  have e0 : ∀ c : List ℝ, (∑ k ∈ range c.length, |sig c (c.length - 1 - k)|) = coefSize c := fun _ => rfl
  rw [e0, e0, e1]
  have e2 : (K * A.u + K * A.tiny) * A.tiny ≤ 1 / 2 * A.tiny := mul_le_mul_of_nonneg_right (by linarith) ht0
  have hx1 : 0 ≤ A.u * X := by positivity
  have hx2 : 0 ≤ A.tiny * X := by positivity
  have e3 : (2 * M + 1) * (A.u * X + A.tiny * X) + 2 * (K * A.u + K * A.tiny) * A.tiny + A.tiny ≤ (2 * M + 3) * (A.u * X + A.tiny * (1 + X)) := by
    have h0 : 0 ≤ M * A.tiny := by positivity
    have e : (2 * M + 3) * (A.u * X + A.tiny * (1 + X)) = (2 * M + 1) * (A.u * X + A.tiny * X) + 2 * (A.u * X) + 2 * (A.tiny * X) + 2 * (M * A.tiny) + 3 * A.tiny := by ring
    rw [e]
    linarith
  have e4 : M * G * ((2 * M + 1) * (A.u * X + A.tiny * X) + 2 * (K * A.u + K * A.tiny) * A.tiny + A.tiny) ≤
      M * G * ((2 * M + 3) * (A.u * X + A.tiny * (1 + X))) := mul_le_mul_of_nonneg_left e3 hMG
  refine e4.trans ?_
  have e5 : 0 ≤ (1 + 2 * K + (6 + Q) * (2 * M + 3)) * (A.u * X + A.tiny * (1 + X)) := by positivity
  have e6 : (1 + 2 * K + M * G * (2 * M + 3) + (6 + Q) * (2 * M + 3)) * (A.u * X + A.tiny * (1 + X)) =
    M * G * ((2 * M + 3) * (A.u * X + A.tiny * (1 + X))) + (1 + 2 * K + (6 + Q) * (2 * M + 3)) * (A.u * X + A.tiny * (1 + X)) := by ring
  linarith

/-- **C83**, direct form II (monic denominators, see C21). -/
theorem C83_direct_form_II (sys : TransferFn ℝ) (hlead : sig sys.den (sys.den.length - 1) = 1) (hst : sys.IsStable) :
    ∃ C : ℝ, ∀ (F : Type) [Zero F] [One F] [Add F] [Sub F] [Mul F] [Div F] [Fma F] [FloatFun F] (A : FloatArithFun F) (fsys : TransferFn F)
      (ord : ℕ) (x : List F) (X : ℝ), A.finite 1 → A.val 1 = 1 → fsys.num.map A.val = sys.num → fsys.den.map A.val = sys.den →
      (∀ c ∈ fsys.num, A.finite c) → (∀ c ∈ fsys.den, A.finite c) → fsys.order ≤ ord → 0 ≤ X → (∀ v ∈ x, A.finite v ∧ |A.val v| ≤ X) →
      C * (A.u + A.tiny) ≤ 1 → C * (1 + X) ≤ A.huge →
      ∃ ŷ s, DirectFormII.feed fsys x (DirectFormII.make ord) = .ok (ŷ, s) ∧ ŷ.length = x.length ∧ (∀ w ∈ ŷ, A.finite w) ∧
        ∀ y, IsResponse sys.num sys.den (x.map A.val) y → ∀ n, n < x.length →
          |A.val (sig ŷ n) - sig y n| ≤ C * (A.u * X + A.tiny * (1 + X)) := by
  obtain ⟨M, hM⟩ := exists_gain sys (by rw [hlead]; exact one_ne_zero) hst
  exact ⟨dfiiConst sys.num sys.den M, fun F _ _ _ _ _ _ _ _ A fsys ord x X h1 hv1 hb ha hbf haf hord hX hx hp ho =>
    C83_direct_form_II_explicit _ _ M hlead hM A h1 hv1 fsys hb ha hbf haf ord hord x X hX hx hp ho⟩

/-! ### the cascade -/

/-- section `i` -/
def cascSec (secs : List (Biquad ℝ)) (i : ℕ) : Biquad ℝ := secs.getD i ⟨0, 0, 0, 0, 0, 0, 0⟩

/-- how much larger than the input the signal entering section `i` can be -/
noncomputable def cascRange (secs : List (Biquad ℝ)) (M : ℕ → ℝ) : ℕ → ℝ
  | 0 => 1
  | i + 1 => (2 * (M i * coefSize (cascSec secs i).coeffs.num) + 1) * cascRange secs M i + 2 * (M i * (4 * secQ (cascSec secs i)))

/-- the error of the signal entering section `i` -/
noncomputable def cascError (secs : List (Biquad ℝ)) (M : ℕ → ℝ) : ℕ → ℝ
  | 0 => 0
  | i + 1 => M i * (4 * secQ (cascSec secs i) * (cascRange secs M (i + 1) + 1) + coefSize (cascSec secs i).coeffs.num * cascError secs M i)

/-- The constant of the cascade. -/
noncomputable def cascConst (secs : List (Biquad ℝ)) (M : ℕ → ℝ) : ℝ :=
  1 + (∑ i ∈ range secs.length, (2 * (M i * (4 * secQ (cascSec secs i))) + 2 * secQ (cascSec secs i) * (cascRange secs M (i + 1) + 1))) +
    cascError secs M secs.length

private theorem boot2 {b a : List ℝ} {M X R H u t : ℝ} (hM : IsGain a M) (hX : 0 ≤ X) (hH : 0 ≤ H) (ht : 0 ≤ t)
    (hR : R = (2 * (M * coefSize b) + 1) * X + 2 * (M * H) * t) (hc : M * H * u ≤ 1 / 2) :
    ∀ (xs ys : List ℝ), xs.length = ys.length → (∀ v ∈ xs, |v| ≤ X) →
      (∀ n : ℕ, n < xs.length → |taps a ys n - taps b xs n| ≤ H * (u * R + t)) → ∀ w ∈ ys, |w| ≤ R := by
  intro xs ys hl hx hr w hw
  have h1 := gain_taps hM ys (coefSize b * X + H * (u * R + t)) (fun n hn => by
    have e : taps a ys n = taps b xs n + (taps a ys n - taps b xs n) := by ring
    rw [e]
    refine (abs_add_le _ _).trans (add_le_add (taps_bound b xs X hX hx n) (hr n (hl ▸ hn)))) w hw
  refine h1.trans ?_
  have hM0 := hM.1
  have hb0 := coefSize_nonneg b
  have hMH : 0 ≤ M * H := by positivity
  have hR0 : 0 ≤ R := by rw [hR]; positivity
  have h2 : M * H * u * R ≤ 1 / 2 * R := mul_le_mul_of_nonneg_right hc hR0
  have h3 : M * (coefSize b * X + H * (u * R + t)) = M * coefSize b * X + M * H * u * R + M * H * t := by ring
  rw [h3]
  have h4 : 1 / 2 * R = M * coefSize b * X + 1 / 2 * X + M * H * t := by rw [hR]; ring
  linarith

private theorem cascade_chain : ∀ (secs : List (SectionCoeffs ℝ)) (x y : List ℝ), IsCascadeResponse secs x y →
    ∃ Y : ℕ → List ℝ, Y 0 = x ∧ Y secs.length = y ∧ ∀ i (h : i < secs.length), IsResponse secs[i].num (secs[i].den ++ [1]) (Y i) (Y (i + 1))
  | [], x, y, h => ⟨fun _ => x, rfl, h.symm, fun i hi => absurd hi (by simp)⟩
  | s :: ss, x, y, ⟨m, h1, h2⟩ => by
    obtain ⟨Y, y0, y1, y2⟩ := cascade_chain ss m y h2
    refine ⟨fun i => match i with | 0 => x | i + 1 => Y i, rfl, y1, fun i hi => ?_⟩
    cases i with
    | zero => simpa [y0] using h1
    | succ i => simpa using y2 i (by simpa using hi)

private theorem secQ_nonneg (b : Biquad ℝ) : 0 ≤ secQ b := add_nonneg (le_dotQ _ 0 le_rfl) (le_dotQ _ 0 le_rfl)

/-- one more section: difference of the computed and the exact signal -/
private theorem section_error {b a xh x ŷ y : List ℝ} {M δ ε : ℝ} (hM : IsGain a M) (hδ : 0 ≤ δ) (hlx : xh.length = x.length) (hly : ŷ.length = x.length)
    (hr : ∀ n : ℕ, n < x.length → |taps a ŷ n - taps b xh n| ≤ ε) (hx : ∀ n, n < x.length → |sig xh n - sig x n| ≤ δ)
    (hy : IsResponse b a x y) : ∀ n, n < x.length → |sig ŷ n - sig y n| ≤ M * (ε + coefSize b * δ) := by
  refine perturbed hM hly (fun n hn => ?_) hy
  have hd : ∀ v ∈ List.zipWith (fun a b => a - b) xh x, |v| ≤ δ := by
    intro v hv
    obtain ⟨k, hk, rfl⟩ := List.mem_iff_getElem.1 hv
    have hk1 : k < x.length := by simp [hlx] at hk; exact hk
    have hk2 : k < xh.length := by omega
    have := hx k hk1
    have e1 : sig xh k = xh[k] := by simp [sig, hk2]
    have e2 : sig x k = x[k] := by simp [sig, hk1]
    rw [e1, e2] at this
    simpa using this
  have h3 := taps_bound b _ δ hδ hd n
  rw [taps_sub hlx] at h3
  have e : taps a ŷ n - taps b x n = (taps a ŷ n - taps b xh n) + (taps b xh n - taps b x n) := by ring
  rw [e]
  exact (abs_add_le _ _).trans (add_le_add (hr n hn) h3)

/-- **C83**, cascade of second order sections, with an explicit constant. -/
theorem C83_cascade_explicit (secs : List (Biquad ℝ)) (M : ℕ → ℝ) (hM : ∀ i (h : i < secs.length), IsGain (secs[i].coeffs.den ++ [1]) (M i))
    {F : Type} [Zero F] [Add F] [Sub F] [Mul F] [Fma F] (A : FloatArith F)
    (sys : List (Biquad F)) (hs : sys.map (valBiquad A) = secs) (hf : ∀ b ∈ sys, finiteBiquad A b)
    (ord : ℕ) (hord : 2 * sys.length ≤ (CascadedForm.make ord : CascadedForm F).order) (x : List F) (X : ℝ) (hX : 0 ≤ X)
    (hx : ∀ v ∈ x, A.finite v ∧ |A.val v| ≤ X) (hprec : cascConst secs M * A.u ≤ 1) (hover : cascConst secs M * (X + A.tiny) ≤ A.huge) :
    ∃ ŷ s, CascadedForm.feed sys x (CascadedForm.make ord) = .ok (ŷ, s) ∧ ŷ.length = x.length ∧ (∀ w ∈ ŷ, A.finite w) ∧
      ∀ y, IsCascadeResponse (secs.map Biquad.coeffs) (x.map A.val) y → ∀ n, n < x.length →
        |A.val (sig ŷ n) - sig y n| ≤ cascConst secs M * (A.u * X + A.tiny) := by
  have hu0 := A.u_nonneg
  have ht0 := A.tiny_nonneg
  have hlen : secs.length = sys.length := by rw [← hs]; simp
  have hat : ∀ i (h : i < secs.length), cascSec secs i = secs[i] := by
    intro i h
    simp [cascSec, h]
  have hat' : ∀ i (h : i < sys.length), valBiquad A sys[i] = cascSec secs i := by
    intro i h
    rw [hat i (by omega)]
    simp [← hs]
  have hG : ∀ i, i < sys.length → IsGain ((cascSec secs i).coeffs.den ++ [1]) (M i) := by
    intro i h
    rw [hat i (by omega)]
    exact hM i (by omega)
  have hM0 : ∀ i, i < sys.length → 0 ≤ M i := fun i h => (hG i h).1
  have hQ0 : ∀ i, 0 ≤ secQ (cascSec secs i) := fun i => secQ_nonneg _
  have hc0 : ∀ i, i ≤ sys.length → 0 ≤ cascRange secs M i := by
    intro i
    induction i with
    | zero => intro _; simp [cascRange]
    | succ i ih =>
      intro h
      have := ih (by omega)
      have h1 := hM0 i (by omega)
      have h2 := hQ0 i
      have h3 := coefSize_nonneg (cascSec secs i).coeffs.num
      unfold cascRange
      positivity
  have hg0 : ∀ i, i ≤ sys.length → 0 ≤ cascError secs M i := by
    intro i
    induction i with
    | zero => intro _; simp [cascError]
    | succ i ih =>
      intro h
      have := ih (by omega)
      have h1 := hM0 i (by omega)
      have h2 := hQ0 i
      have h3 := coefSize_nonneg (cascSec secs i).coeffs.num
      have h4 := hc0 (i + 1) h
      unfold cascError
      positivity
  have hterm : ∀ i, i < sys.length → 0 ≤ 2 * (M i * (4 * secQ (cascSec secs i))) + 2 * secQ (cascSec secs i) * (cascRange secs M (i + 1) + 1) := by
    intro i h
    have h1 := hM0 i h
    have h2 := hQ0 i
    have h4 := hc0 (i + 1) h
    positivity
  have hsum0 : 0 ≤ ∑ i ∈ range secs.length, (2 * (M i * (4 * secQ (cascSec secs i))) + 2 * secQ (cascSec secs i) * (cascRange secs M (i + 1) + 1)) :=
    sum_nonneg fun i hi => hterm i (by rw [← hlen]; exact mem_range.1 hi)
  have hC1 : 1 ≤ cascConst secs M := by
    have := hg0 secs.length (by omega)
    unfold cascConst
    linarith
  have hCi : ∀ i, i < sys.length → 2 * (M i * (4 * secQ (cascSec secs i))) + 2 * secQ (cascSec secs i) * (cascRange secs M (i + 1) + 1) ≤ cascConst secs M := by
    intro i h
    have h1 := single_le_sum (f := fun i => 2 * (M i * (4 * secQ (cascSec secs i))) + 2 * secQ (cascSec secs i) * (cascRange secs M (i + 1) + 1))
      (s := range secs.length) (fun j hj => hterm j (by rw [← hlen]; exact mem_range.1 hj)) (mem_range.2 (by omega : i < secs.length))
    have := hg0 secs.length (by omega)
    unfold cascConst
    linarith
  have hCe : cascError secs M secs.length ≤ cascConst secs M := by
    unfold cascConst
    linarith
  have hu : A.u ≤ 1 := by nlinarith
  have hK : ∀ i, i < sys.length → M i * (4 * secQ (cascSec secs i)) * A.u ≤ 1 / 2 := by
    intro i h
    have h1 := hCi i h
    have h2 := hQ0 i
    have h4 := hc0 (i + 1) h
    have h5 : 0 ≤ 2 * secQ (cascSec secs i) * (cascRange secs M (i + 1) + 1) := by positivity
    have h6 : (2 * (M i * (4 * secQ (cascSec secs i)))) * A.u ≤ cascConst secs M * A.u := mul_le_mul_of_nonneg_right (by linarith) hu0
    linarith
  obtain ⟨ρ, hρ⟩ : ∃ ρ : ℕ → ℝ, ρ = fun i => Nat.rec X (fun i p => (2 * (M i * coefSize (cascSec secs i).coeffs.num) + 1) * p +
    2 * (M i * (4 * secQ (cascSec secs i))) * A.tiny) i := ⟨_, rfl⟩
  have hρ0 : ρ 0 = X := by subst hρ; rfl
  have hρs : ∀ i, ρ (i + 1) = (2 * (M i * coefSize (cascSec secs i).coeffs.num) + 1) * ρ i + 2 * (M i * (4 * secQ (cascSec secs i))) * A.tiny := by
    intro i; subst hρ; rfl
  have hρn : ∀ i, i ≤ sys.length → 0 ≤ ρ i := by
    intro i
    induction i with
    | zero => intro _; rw [hρ0]; exact hX
    | succ i ih =>
      intro h
      have := ih (by omega)
      have h1 := hM0 i (by omega)
      have h2 := hQ0 i
      have h3 := coefSize_nonneg (cascSec secs i).coeffs.num
      rw [hρs]
      positivity
  have hρm : ∀ i, i < sys.length → ρ i ≤ ρ (i + 1) := by
    intro i h
    have h0 := hρn i (by omega)
    have h1 := hM0 i (by omega)
    have h2 := hQ0 i
    have h3 := coefSize_nonneg (cascSec secs i).coeffs.num
    have h4 : 0 ≤ M i * coefSize (cascSec secs i).coeffs.num * ρ i := by positivity
    have h5 : 0 ≤ M i * (4 * secQ (cascSec secs i)) * A.tiny := by positivity
    rw [hρs]
    linarith
  have hρc : ∀ i, i ≤ sys.length → ρ i ≤ cascRange secs M i * (X + A.tiny) := by
    intro i
    induction i with
    | zero => intro _; rw [hρ0]; simp [cascRange]; exact ht0
    | succ i ih =>
      intro h
      have h0 := ih (by omega)
      have h1 := hM0 i (by omega)
      have h2 := hQ0 i
      have h3 := coefSize_nonneg (cascSec secs i).coeffs.num
      rw [hρs]
      simp only [cascRange]
      have h4 : (2 * (M i * coefSize (cascSec secs i).coeffs.num) + 1) * ρ i ≤
        (2 * (M i * coefSize (cascSec secs i).coeffs.num) + 1) * (cascRange secs M i * (X + A.tiny)) := mul_le_mul_of_nonneg_left h0 (by positivity)
      have h5 : 0 ≤ 2 * (M i * (4 * secQ (cascSec secs i))) * X := by positivity
      linarith
  have hmk : (CascadedForm.make ord : CascadedForm F) = ⟨List.replicate (1 + (ord + 1) / 2) ⟨0, 0, 0⟩⟩ := rfl
  have hL : sys.length + 1 ≤ 1 + (ord + 1) / 2 := by
    rw [hmk] at hord
    simp [CascadedForm.order] at hord
    omega
  obtain ⟨ŷ, s, g1, X', g2, g3, g4, g5⟩ := cascade_rounded A hu sys hf (1 + (ord + 1) / 2) hL ρ (by rw [hρ0]; exact hX) hρm
    (fun i h => by
      rw [hat' i h]
      refine le_trans ?_ hover
      have h1 := hCi i h
      have h2 := hQ0 i
      have h3 := hρc (i + 1) h
      have h6 := hM0 i h
      have h4 : 0 ≤ 2 * (M i * (4 * secQ (cascSec secs i))) := by positivity
      have hXt : 0 ≤ X + A.tiny := by linarith
      calc 2 * secQ (cascSec secs i) * (ρ (i + 1) + A.tiny) ≤ 2 * secQ (cascSec secs i) * ((cascRange secs M (i + 1) + 1) * (X + A.tiny)) := by
            apply mul_le_mul_of_nonneg_left _ (by positivity)
            linarith
        _ = 2 * secQ (cascSec secs i) * (cascRange secs M (i + 1) + 1) * (X + A.tiny) := by ring
        _ ≤ _ := mul_le_mul_of_nonneg_right (by linarith) hXt)
    (fun i h => by
      rw [hat' i h]
      exact boot2 (hG i h) (hρn i (by omega)) (by have := hQ0 i; positivity) ht0 (hρs i) (hK i h))
    x (by rw [hρ0]; exact hx)
  refine ⟨ŷ, s, g1, ?_, ?_, fun y hy n hn => ?_⟩
  · rw [← g3]; exact (g4 _ le_rfl).1
  · intro w hw
    rw [← g3] at hw
    exact ((g4 _ le_rfl).2 w hw).1
  obtain ⟨Y, y0, y1, y2⟩ := cascade_chain _ _ _ hy
  have hYl : ∀ i, i ≤ sys.length → (Y i).length = x.length := by
    intro i
    induction i with
    | zero => intro _; rw [y0]; simp
    | succ i ih =>
      intro h
      rw [(y2 i (by simp; omega)).1]
      exact ih (by omega)
  have huXt : 0 ≤ A.u * X + A.tiny := by positivity
  have main : ∀ i, i ≤ sys.length → ∀ n, n < x.length → |sig ((X' i).map A.val) n - sig (Y i) n| ≤ cascError secs M i * (A.u * X + A.tiny) := by
    intro i
    induction i with
    | zero =>
      intro _ n _
      rw [g2, y0, sub_self, abs_zero]
      simp [cascError]
    | succ i ih =>
      intro h n hn
      have h1 := hM0 i (by omega)
      have h2 := hQ0 i
      have h3 := coefSize_nonneg (cascSec secs i).coeffs.num
      have hy2 := y2 i (by simp; omega)
      have e : (secs.map Biquad.coeffs)[i]'(by simp; omega) = (cascSec secs i).coeffs := by simp [hat i (by omega)]
      rw [e] at hy2
      have hl := hYl i (by omega)
      have hr := g5 i (by omega)
      rw [hat' i (by omega)] at hr
      have key := section_error (hG i (by omega)) (mul_nonneg (hg0 i (by omega)) huXt) (xh := (X' i).map A.val) (x := Y i) (ŷ := (X' (i + 1)).map A.val)
        (by simp [hl, (g4 i (by omega)).1]) (by simp [hl, (g4 (i + 1) h).1]) (by rw [hl]; exact hr) (by rw [hl]; exact ih (by omega)) hy2 n (by omega)
      refine key.trans ?_
      simp only [cascError]
      rw [mul_assoc (M i)]
      apply mul_le_mul_of_nonneg_left _ h1
      have h5 : A.u * ρ (i + 1) + A.tiny ≤ (cascRange secs M (i + 1) + 1) * (A.u * X + A.tiny) := by
        have h6 := hρc (i + 1) h
        have h7 := hc0 (i + 1) h
        have h8 : A.u * ρ (i + 1) ≤ A.u * (cascRange secs M (i + 1) * (X + A.tiny)) := mul_le_mul_of_nonneg_left h6 hu0
        have h9 : A.u * A.tiny ≤ A.tiny := by nlinarith
        have h10 : cascRange secs M (i + 1) * (A.u * A.tiny) ≤ cascRange secs M (i + 1) * A.tiny := mul_le_mul_of_nonneg_left h9 h7
        have h11 : 0 ≤ A.u * X := by positivity
        linarith
      have h6 : 4 * secQ (cascSec secs i) * (A.u * ρ (i + 1) + A.tiny) ≤ 4 * secQ (cascSec secs i) * ((cascRange secs M (i + 1) + 1) * (A.u * X + A.tiny)) :=
        mul_le_mul_of_nonneg_left h5 (by positivity)
      linarith
  have hfin := main sys.length le_rfl n hn
  rw [g3] at hfin
  rw [List.length_map, hlen] at y1
  rw [y1, sig_map A] at hfin
  rw [hlen] at hCe
  exact hfin.trans (mul_le_mul_of_nonneg_right hCe huXt)

/-- **C83**, cascade of stable second order sections. -/
theorem C83_cascade (secs : List (Biquad ℝ))
    (hst : ∀ b ∈ secs, (⟨b.coeffs.num, b.coeffs.den ++ [1]⟩ : TransferFn ℝ).IsStable) :
    ∃ C : ℝ, ∀ (F : Type) [Zero F] [Add F] [Sub F] [Mul F] [Fma F] (A : FloatArith F) (sys : List (Biquad F)) (ord : ℕ) (x : List F) (X : ℝ),
      sys.map (valBiquad A) = secs → (∀ b ∈ sys, finiteBiquad A b) → 2 * sys.length ≤ (CascadedForm.make ord : CascadedForm F).order → 0 ≤ X →
      (∀ v ∈ x, A.finite v ∧ |A.val v| ≤ X) → C * A.u ≤ 1 → C * (X + A.tiny) ≤ A.huge →
      ∃ ŷ s, CascadedForm.feed sys x (CascadedForm.make ord) = .ok (ŷ, s) ∧ ŷ.length = x.length ∧ (∀ w ∈ ŷ, A.finite w) ∧
        ∀ y, IsCascadeResponse (secs.map Biquad.coeffs) (x.map A.val) y → ∀ n, n < x.length →
          |A.val (sig ŷ n) - sig y n| ≤ C * (A.u * X + A.tiny) := by
  have hex : ∀ i : ℕ, ∃ M : ℝ, ∀ h : i < secs.length, IsGain (secs[i].coeffs.den ++ [1]) M := by
    intro i
    by_cases h : i < secs.length
    · obtain ⟨M, hM⟩ := exists_gain ⟨secs[i].coeffs.num, secs[i].coeffs.den ++ [1]⟩ (by simp [sig]) (hst _ (List.getElem_mem _))
      exact ⟨M, fun _ => hM⟩
    · exact ⟨0, fun h' => absurd h' h⟩
  choose M hM using hex
  exact ⟨cascConst secs M, fun F _ _ _ _ _ A sys ord x X hs hf hord hX hx hp ho =>
    C83_cascade_explicit secs M (fun i h => hM i h) A sys hs hf ord hord x X hX hx hp ho⟩

/-! ### the hypotheses hold for `float` -/

section example_float

noncomputable local instance : One (Bin 24 (-149)) := ⟨.num 1 ⟨2 ^ 149, by push_cast; norm_num⟩⟩

/-- `-1/2` -/
private noncomputable def mhalf : Bin 24 (-149) := .num (-1 / 2) ⟨-2 ^ 148, by push_cast; norm_num⟩

/-- the gain of `y n = x n + y (n - 1) / 2` is 2, however the denominator is padded -/
theorem half_gain (a : List ℝ) (ha : ∀ (y : List ℝ) (n : ℤ), taps a y n = sigI y n - sigI y (n - 1) / 2) : IsGain a 2 := by
  refine ⟨by norm_num, fun x y B hr hx w hw => ?_⟩
  have hB : 0 ≤ B := by
    cases x with
    | nil => have := hr.1; simp at this; subst this; simp at hw
    | cons v _ => exact (abs_nonneg v).trans (hx v (by simp))
  have key : ∀ n : ℕ, n < x.length → |sigI y n| ≤ 2 * B := by
    intro n
    induction n with
    | zero =>
      intro h
      have e := response_taps hr h
      rw [ha, taps_one, sigI_neg (by norm_num : ((0 : ℕ) : ℤ) - 1 < 0), sigI_nat x] at e
      have : sig x 0 = x[0] := by simp [sig, h]
      have hb := hx x[0] (List.getElem_mem _)
      rw [this] at e
      rw [zero_div, sub_zero] at e
      rw [e]
      linarith
    | succ n ih =>
      intro h
      have e := response_taps hr h
      have h2 := ih (by omega)
      rw [ha, taps_one, sigI_nat x, show ((n + 1 : ℕ) : ℤ) - 1 = n by push_cast; ring] at e
      have : sig x (n + 1) = x[n + 1] := by simp [sig, h]
      have hb := hx x[n + 1] (List.getElem_mem _)
      rw [this] at e
      have : sigI y (n + 1 : ℕ) = x[n + 1] + sigI y n / 2 := by linarith
      rw [this]
      refine (abs_add_le _ _).trans ?_
      rw [abs_div, abs_two]
      linarith
  obtain ⟨n, hn, rfl⟩ := List.mem_iff_getElem.1 hw
  have := key n (by rw [← hr.1]; exact hn)
  rw [sigI_nat] at this
  have e : sig y n = y[n] := by simp [sig, hn]
  rwa [e] at this

theorem half_taps (y : List ℝ) (n : ℤ) : taps [-1 / 2, 1] y n = sigI y n - sigI y (n - 1) / 2 := by
  simp [taps, sum_range_succ, sig]
  ring

private theorem half_taps' (y : List ℝ) (n : ℤ) : taps [0, -1 / 2, 1] y n = sigI y n - sigI y (n - 1) / 2 := by
  simp [taps, sum_range_succ, sig]
  ring

/-- `y n = x n + y (n - 1) / 2` in `float`, direct form I, for inputs of any length up to 100 in magnitude: the error never exceeds 0.04 -/
example (x : List (Bin 24 (-149))) (hx : ∀ v ∈ x, v.finite ∧ |v.val| ≤ 100) :
    ∃ ŷ s, DirectFormI.feed ⟨[1], [mhalf, 1]⟩ x (DirectFormI.make 1) = .ok (ŷ, s) ∧
      ∀ y, IsResponse [1] [-1 / 2, 1] (x.map Bin.val) y → ∀ n, n < x.length → |(sig ŷ n).val - sig y n| ≤ 0.04 := by
  have hC : dfiConst [1] [-1 / 2, 1] 2 = 5180 := by
    norm_num [dfiConst, dotQ, stepH, coefSize, sig, sum_range_succ, abs_div]
  obtain ⟨A, hA⟩ : ∃ A, A = Bin.arithFun 24 (-149) (by norm_num) (by norm_num) := ⟨_, rfl⟩
  have hu : A.u = 2 ^ (-(24 : ℤ)) := by rw [hA]; rfl
  have ht : A.tiny = 2 ^ (-150 : ℤ) := by rw [hA]; change (2 : ℝ) ^ ((-149 : ℤ) - 1) = _; norm_num
  have hh : A.huge = 2 ^ 126 := by rw [hA]; rfl
  have hval : A.val = Bin.val := by rw [hA]; rfl
  have hfin : A.finite = Bin.finite := by rw [hA]; rfl
  have f1 : A.finite (1 : Bin 24 (-149)) := by rw [hfin]; change |(1 : ℝ)| ≤ 2 ^ 128; norm_num
  have f2 : A.finite mhalf := by rw [hfin]; change |(-1 / 2 : ℝ)| ≤ 2 ^ 128; norm_num [abs_div]
  have v1 : A.val (1 : Bin 24 (-149)) = 1 := by rw [hval]; rfl
  have v2 : A.val mhalf = -1 / 2 := by rw [hval]; rfl
  obtain ⟨ŷ, s, h1, -, -, h2⟩ := C83_direct_form_I_explicit [1] [-1 / 2, 1] 2 (by simp [sig]) (half_gain _ half_taps) A f1 v1
    ⟨[1], [mhalf, 1]⟩ (by simp [v1]) (by simp [v1, v2]) (by simp [f1]) (by simp [f1, f2]) 1 (by simp [TransferFn.order, polyOrder]) x 100 (by norm_num)
    (by rw [hfin, hval]; exact hx) (by rw [hC, hu, ht]; norm_num) (by rw [hC, hh]; norm_num)
  refine ⟨ŷ, s, h1, fun y hy n hn => ?_⟩
  have h3 := h2 y (by rw [hval]; exact hy) n hn
  rw [hval, hC, hu, ht] at h3
  refine h3.trans ?_
  norm_num

/-- ... direct form II -/
example (x : List (Bin 24 (-149))) (hx : ∀ v ∈ x, v.finite ∧ |v.val| ≤ 100) :
    ∃ ŷ s, DirectFormII.feed ⟨[1], [mhalf, 1]⟩ x (DirectFormII.make 1) = .ok (ŷ, s) ∧
      ∀ y, IsResponse [1] [-1 / 2, 1] (x.map Bin.val) y → ∀ n, n < x.length → |(sig ŷ n).val - sig y n| ≤ 0.01 := by
  have hC : dfiiConst [1] [-1 / 2, 1] 2 = 863 := by
    norm_num [dfiiConst, dotQ, coefSize, sig, sum_range_succ, abs_div]
  obtain ⟨A, hA⟩ : ∃ A, A = Bin.arithFun 24 (-149) (by norm_num) (by norm_num) := ⟨_, rfl⟩
  have hu : A.u = 2 ^ (-(24 : ℤ)) := by rw [hA]; rfl
  have ht : A.tiny = 2 ^ (-150 : ℤ) := by rw [hA]; change (2 : ℝ) ^ ((-149 : ℤ) - 1) = _; norm_num
  have hh : A.huge = 2 ^ 126 := by rw [hA]; rfl
  have hval : A.val = Bin.val := by rw [hA]; rfl
  have hfin : A.finite = Bin.finite := by rw [hA]; rfl
  have f1 : A.finite (1 : Bin 24 (-149)) := by rw [hfin]; change |(1 : ℝ)| ≤ 2 ^ 128; norm_num
  have f2 : A.finite mhalf := by rw [hfin]; change |(-1 / 2 : ℝ)| ≤ 2 ^ 128; norm_num [abs_div]
  have v1 : A.val (1 : Bin 24 (-149)) = 1 := by rw [hval]; rfl
  have v2 : A.val mhalf = -1 / 2 := by rw [hval]; rfl
  obtain ⟨ŷ, s, h1, -, -, h2⟩ := C83_direct_form_II_explicit [1] [-1 / 2, 1] 2 (by simp [sig]) (half_gain _ half_taps) A f1 v1
    ⟨[1], [mhalf, 1]⟩ (by simp [v1]) (by simp [v1, v2]) (by simp [f1]) (by simp [f1, f2]) 1 (by simp [TransferFn.order, polyOrder]) x 100 (by norm_num)
    (by rw [hfin, hval]; exact hx) (by rw [hC, hu, ht]; norm_num) (by rw [hC, hh]; norm_num)
  refine ⟨ŷ, s, h1, fun y hy n hn => ?_⟩
  have h3 := h2 y (by rw [hval]; exact hy) n hn
  rw [hval, hC, hu, ht] at h3
  refine h3.trans ?_
  norm_num

/-- ... and as a second order section -/
example (x : List (Bin 24 (-149))) (hx : ∀ v ∈ x, v.finite ∧ |v.val| ≤ 1) :
    ∃ ŷ s, CascadedForm.feed [⟨0, 0, 1, 0, mhalf, 0, 1⟩] x (CascadedForm.make 2) = .ok (ŷ, s) ∧
      ∀ y, IsCascadeResponse [⟨[0, 0, 1], [0, -1 / 2]⟩] (x.map Bin.val) y → ∀ n, n < x.length → |(sig ŷ n).val - sig y n| ≤ 0.01 := by
  obtain ⟨A, hA⟩ : ∃ A, A = Bin.arith 24 (-149) (by norm_num) (by norm_num) := ⟨_, rfl⟩
  have hu : A.u = 2 ^ (-(24 : ℤ)) := by rw [hA]; rfl
  have ht : A.tiny = 2 ^ (-150 : ℤ) := by rw [hA]; change (2 : ℝ) ^ ((-149 : ℤ) - 1) = _; norm_num
  have hh : A.huge = 2 ^ 126 := by rw [hA]; rfl
  have hval : A.val = Bin.val := by rw [hA]; rfl
  have hfin : A.finite = Bin.finite := by rw [hA]; rfl
  have f1 : A.finite (1 : Bin 24 (-149)) := by rw [hfin]; change |(1 : ℝ)| ≤ 2 ^ 128; norm_num
  have f2 : A.finite mhalf := by rw [hfin]; change |(-1 / 2 : ℝ)| ≤ 2 ^ 128; norm_num [abs_div]
  have v1 : A.val (1 : Bin 24 (-149)) = 1 := by rw [hval]; rfl
  have v2 : A.val mhalf = -1 / 2 := by rw [hval]; rfl
  have hC : cascConst [⟨0, 0, 1, 0, -1 / 2, 0, 1⟩] (fun _ => 2) = 110137 := by
    norm_num [cascConst, cascRange, cascError, cascSec, secQ, Biquad.coeffs, dotQ, coefSize, sig, sum_range_succ, abs_div]
  obtain ⟨ŷ, s, h1, -, -, h2⟩ := C83_cascade_explicit [⟨0, 0, 1, 0, -1 / 2, 0, 1⟩] (fun _ => 2) (fun i h => by
      have : i = 0 := by simpa using h
      subst this
      exact half_gain _ half_taps') A
    [⟨0, 0, 1, 0, mhalf, 0, 1⟩] (by simp [valBiquad, v1, v2, A.val_zero]) (by simp [finiteBiquad, f1, f2, A.zero_finite])
    2 (by simp [CascadedForm.make, CascadedForm.order]) x 1 (by norm_num)
    (by rw [hfin, hval]; exact hx) (by rw [hC, hu]; norm_num) (by rw [hC, hh, ht]; norm_num)
  refine ⟨ŷ, s, h1, fun y hy n hn => ?_⟩
  have h3 := h2 y (by rw [hval]; exact hy) n hn
  rw [hval, hC, hu, ht] at h3
  refine h3.trans ?_
  norm_num

end example_float

end Verif
