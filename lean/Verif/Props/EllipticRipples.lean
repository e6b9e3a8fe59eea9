import Verif.Lemmas.EllipticLimit
import Verif.Props.EllipticPrototype

set_option linter.unusedSimpArgs false
set_option linter.unusedSectionVars false

/-! # C75: the ripples of the elliptic filter -/

namespace Verif
open Complex Filter Topology

/-- **C75**: the degree equation has exactly one solution. -/
theorem C75_selectivity {n : ℕ} {p s : ℝ} (hn : 1 ≤ n) (hp : 0 < p) (hs : 0 < s) (hps : s < 1 - p) :
    ∃! k, (0 < k ∧ k < 1) ∧ legendreK k = degreeQuotient n p s * legendreKp k := by
  obtain ⟨h1, h2, h3, -, -⟩ := ripple_facts hp hs hps
  have hn0 : (0 : ℝ) < n := by exact_mod_cast hn
  have hq : 0 < degreeQuotient n p s := by
    rw [degreeQuotient_eq]
    have := kquot_pos h2 h3
    positivity
  obtain ⟨k, hk0, hk1, hk⟩ := kquot_surj hq
  have hiff : ∀ x, 0 < x → x < 1 → (legendreK x = degreeQuotient n p s * legendreKp x ↔ kquot x = degreeQuotient n p s) := by
    intro x h0 h1
    rw [kquot, div_eq_iff (kp_pos h0 h1.le).ne']
  refine ⟨k, ⟨⟨hk0, hk1⟩, (hiff k hk0 hk1).mpr hk⟩, ?_⟩
  rintro x ⟨⟨hx0, hx1⟩, hx⟩
  exact kquot_inj hx0 hx1 hk0 hk1 (((hiff x hx0 hx1).mp hx).trans hk.symm)

theorem response_perturb {n : ℕ} {p s k δ : ℝ} {g g' : ℝ → ℝ} (h : EllipticResponse n p s k 0 g) (hd : ∀ w, |g' w - g w| ≤ δ) :
    EllipticResponse n p s k δ g' := by
  have hb : ∀ w, g w - δ ≤ g' w ∧ g' w ≤ g w + δ := fun w => by
    have := abs_le.mp (hd w)
    constructor <;> linarith
  refine ⟨fun w hw => ?_, fun w h1 h2 => ?_, fun w hw => ?_, fun i hi φ hφ => ?_, fun i h0 hi φ hφ => ?_⟩
  · have := h.pass w hw
    have := hb w
    constructor <;> linarith
  · have := h.transition w h1 h2
    have := hb w
    constructor <;> linarith
  · have := h.stop w hw
    have := hb w
    linarith
  · have h1 := h.pass_ripples i hi φ hφ
    rw [← sub_eq_zero.mp (abs_nonpos_iff.mp h1)]
    exact hd _
  · have h1 := h.stop_ripples i h0 hi φ hφ
    rw [← sub_eq_zero.mp (abs_nonpos_iff.mp h1)]
    exact hd _

section
variable {n : ℕ} (hn : 1 ≤ n) {p s k : ℝ} (hp : 0 < p) (hs : 0 < s) (hps : s < 1 - p) (hk0 : 0 < k) (hk1 : k < 1)
  (hdeg : legendreK k = degreeQuotient n p s * legendreKp k)
include hn hp hs hps hk0 hk1 hdeg

theorem exact_response : EllipticResponse n p s k 0 fun w => Real.sqrt (exactGain k n (1 / rippleFactor p ^ 2) (w ^ 2)) := by
  have hk : k ^ 2 < 1 := by nlinarith
  obtain ⟨h1, h2, h3, h4, h5⟩ := ripple_facts hp hs hps
  have hy : 0 < 1 / rippleFactor p ^ 2 := by positivity
  have hj := jmodulus_exact hn hp hs hps hk0 hk1 hdeg
  have hp1 : 0 < 1 - p := by linarith
  have hn0 : (0 : ℝ) < n := by exact_mod_cast hn
  have hgrid : ∀ (i : ℕ) φ, legendreF φ k = i / n * legendreK k → Real.sin φ ^ 2 = grid k n i := by
    intro i φ h
    rw [grid, jsn, jam_unique hk (φ := φ) (by rw [h]; ring)]
  refine ⟨fun w hw => ?_, fun w hw1 hw2 => ?_, fun w hw => ?_, fun i hi φ hφ => ?_, fun i hi0 hi φ hφ => ?_⟩
  · have hx : w ^ 2 ≤ 1 := (sq_le_one_iff_abs_le_one w).mpr hw
    obtain ⟨a, b⟩ := gain_pass hk0 hk hn hy (sq_nonneg w) hx
    rw [h4] at a
    refine ⟨?_, ?_⟩
    · rw [sub_zero]
      exact Real.le_sqrt_of_sq_le a
    · rw [add_zero]
      exact Real.sqrt_le_one.mpr b
  · have hx1 : 1 ≤ w ^ 2 := (one_le_sq_iff_one_le_abs w).mpr hw1
    have hx2 : k ^ 2 * w ^ 2 ≤ 1 := by
      rw [← sq_abs w, ← mul_pow]
      exact pow_le_one₀ (by positivity) hw2
    obtain ⟨a, b⟩ := gain_transition hk0 hk hn hy hx1 hx2
    rw [hj, h5] at a
    rw [h4] at b
    refine ⟨?_, ?_⟩
    · rw [sub_zero]
      exact Real.le_sqrt_of_sq_le a
    · rw [add_zero]
      exact (Real.sqrt_le_left hp1.le).mpr b
  · have hx : 1 ≤ k ^ 2 * w ^ 2 := by
      rw [← sq_abs w, ← mul_pow]
      exact one_le_pow₀ hw
    obtain ⟨-, b⟩ := gain_stop hk0 hk hn hy hx
    rw [hj, h5] at b
    rw [add_zero]
    exact (Real.sqrt_le_left hs.le).mpr b
  · rw [hgrid i φ hφ]
    split_ifs with h
    · rw [gain_bottom hk0 hk hn hy hi h, h4, Real.sqrt_sq hp1.le, sub_self, abs_zero]
    · rw [gain_top hk0 hk hn hy hi (by omega), Real.sqrt_one, sub_self, abs_zero]
  · rw [div_pow, one_pow, mul_pow, hgrid i φ hφ]
    split_ifs with h
    · rw [gain_stop_top hk0 hk hn hy hi0 hi h, hj, h5, Real.sqrt_sq hs.le, sub_self, abs_zero]
    · rw [gain_zero hk0 hk hn hi0 hi (by omega), Real.sqrt_zero, sub_self, abs_zero]

theorem exact_angle : ∃ ψ, 0 < ψ ∧ ψ < Real.pi / 2 ∧ legendreF ψ (Real.sqrt (1 - k ^ 2)) = poleArgument n p s k := by
  have hk : k ^ 2 < 1 := by nlinarith
  obtain ⟨h1, h2, h3, h4, h5⟩ := ripple_facts hp hs hps
  have hn0 : (0 : ℝ) < n := by exact_mod_cast hn
  have hj := jmodulus_exact hn hp hs hps hk0 hk1 hdeg
  have hm := multiplier_pos hk hn
  have hK := legendreK_pos hk
  have e1 := jmodulus_K hk0 hk hn
  have e2 := jmodulus_Kp hk0 hk hn
  rw [hj] at e1 e2
  have hc := (kp_sq h2 h3.le).2.1
  have hmono := legendreF_strictMono hc
  have a1 : 0 < legendreF (Real.arctan (1 / rippleFactor p)) (Real.sqrt (1 - discrimination p s ^ 2)) := by
    have := hmono (Real.arctan_pos.mpr (show 0 < 1 / rippleFactor p by positivity))
    simpa [legendreF_zero] using this
  have a2 : legendreF (Real.arctan (1 / rippleFactor p)) (Real.sqrt (1 - discrimination p s ^ 2)) < legendreKp (discrimination p s) :=
    hmono (Real.arctan_lt_pi_div_two _)
  have e3 : poleArgument n p s k = legendreF (Real.arctan (1 / rippleFactor p)) (Real.sqrt (1 - discrimination p s ^ 2)) / multiplier k n := by
    rw [poleArgument, e1]
    field_simp
  have hmem := jam_mem (kp_sq hk0 hk1.le).2.1 (u := poleArgument n p s k) (by rw [e3]; positivity) (by
    rw [e3, div_lt_iff₀ hm, mul_comm, ← e2]
    exact a2)
  exact ⟨jam (Real.sqrt (1 - k ^ 2)) (poleArgument n p s k), hmem.1, hmem.2, legendreF_jam (kp_sq hk0 hk1.le).2.1 _⟩

end

/-- the magnitude response, in terms of the shape -/
theorem prototype_magnitude {n : ℕ} {p k ψ : ℝ} {θ : ℕ → ℝ} {sys : Zpk} (hk0 : 0 < k) (hk : k ^ 2 < 1)
    (hθ : ∀ j < n / 2, 0 < θ j ∧ θ j < Real.pi / 2) (hψ0 : 0 < ψ) (hψ1 : ψ < Real.pi / 2)
    (hz : sys.zeros.roots = rootsOf [] ((List.range (n / 2)).map fun j => I / ((k * Real.sin (θ j) : ℝ) : ℂ)))
    (hpo : sys.poles.roots = rootsOf (List.replicate (n % 2) (-Real.tan ψ)) ((List.range (n / 2)).map fun j => I * complexSn k (θ j) ψ))
    (h0 : sys.eval (0 : ℂ) = if n % 2 = 1 then 1 else ((1 - p : ℝ) : ℂ)) (w : ℝ) :
    ‖sys.eval (I * (w : ℂ))‖ ^ 2 = (if n % 2 = 1 then 1 else (1 - p) ^ 2) * ellipticShape k n θ ψ (w ^ 2) := by
  rw [← normSq_eq_norm_sq, elliptic_magnitude hk0 hk hθ hψ0 hψ1 hz hpo w, h0]
  split_ifs
  · rw [normSq_one]
  · rw [normSq_ofReal, sq (1 - p)]

/-- **C75**, in exact arithmetic: whatever system has the zeros and the poles of the elliptic design, and the value `1` or `1 - p` at zero, has
the response of an elliptic filter. -/
theorem C75_exact {n : ℕ} {p s k ψ : ℝ} {θ : ℕ → ℝ} {sys : Zpk} (hn : 1 ≤ n) (hp : 0 < p) (hs : 0 < s) (hps : s < 1 - p)
    (hk0 : 0 < k) (hk1 : k < 1) (hdeg : legendreK k = degreeQuotient n p s * legendreKp k)
    (hθ : ∀ j < n / 2, legendreF (θ j) k = ((2 * j + 1 + n % 2 : ℕ) : ℝ) / n * legendreK k)
    (hψ0 : 0 < ψ) (hψ1 : ψ < Real.pi / 2) (hψ : legendreF ψ (Real.sqrt (1 - k ^ 2)) = poleArgument n p s k)
    (hz : sys.zeros.roots = rootsOf [] ((List.range (n / 2)).map fun j => I / ((k * Real.sin (θ j) : ℝ) : ℂ)))
    (hpo : sys.poles.roots = rootsOf (List.replicate (n % 2) (-Real.tan ψ)) ((List.range (n / 2)).map fun j => I * complexSn k (θ j) ψ))
    (h0 : sys.eval (0 : ℂ) = if n % 2 = 1 then 1 else ((1 - p : ℝ) : ℂ)) :
    EllipticResponse n p s k 0 fun w => ‖sys.eval (I * (w : ℂ))‖ := by
  have hk : k ^ 2 < 1 := by nlinarith
  have hn0 : (0 : ℝ) < n := by exact_mod_cast hn
  obtain ⟨-, -, -, h4, -⟩ := ripple_facts hp hs hps
  have hθe : ∀ j < n / 2, θ j = poleAngle k n j := fun j hj => by
    rw [poleAngle]
    exact (jam_unique hk (by rw [hθ j hj]; ring)).symm
  have e1 : ((List.range (n / 2)).map fun j => I / ((k * Real.sin (θ j) : ℝ) : ℂ)) =
      (List.range (n / 2)).map fun j => I / ((k * Real.sin (poleAngle k n j) : ℝ) : ℂ) :=
    List.map_congr_left fun j hj => by rw [hθe j (List.mem_range.mp hj)]
  have e2 : ((List.range (n / 2)).map fun j => I * complexSn k (θ j) ψ) = (List.range (n / 2)).map fun j => I * complexSn k (poleAngle k n j) ψ :=
    List.map_congr_left fun j hj => by rw [hθe j (List.mem_range.mp hj)]
  rw [e1] at hz
  rw [e2] at hpo
  have hlev := poleLevel_exact hn hp hs hps hk0 hk1 hdeg hψ0 hψ1 hψ
  have hr := exact_response hn hp hs hps hk0 hk1 hdeg
  convert hr using 2 with w
  have hm := prototype_magnitude hk0 hk (fun j hj => poleAngle_mem hk0 hk hn hj) hψ0 hψ1 hz hpo h0 w
  have hg := gain_shape hk0 hk hn hψ0 hψ1 (w ^ 2)
  rw [hlev, h4, ← hm] at hg
  rw [← hg, Real.sqrt_sq (norm_nonneg _)]

theorem abs_sub_le_sqrt {a b δ : ℝ} (ha : 0 ≤ a) (hb : 0 ≤ b) (hδ : 0 ≤ δ) (h : |a ^ 2 - b ^ 2| ≤ δ ^ 2) : |a - b| ≤ δ := by
  by_contra hc
  push Not at hc
  have h1 : |a - b| ≤ a + b := abs_sub_le_iff.mpr ⟨by linarith, by linarith⟩
  have h2 : |a ^ 2 - b ^ 2| = |a - b| * (a + b) := by
    rw [show a ^ 2 - b ^ 2 = (a - b) * (a + b) by ring, abs_mul, abs_of_nonneg (by linarith : 0 ≤ a + b)]
  rw [h2] at h
  nlinarith

/-- **C75**, the limit: the response of every design whose parameters satisfy the equations of the elliptic design closely enough is, at all
frequencies at once, as close as desired to that of the exact elliptic filter. -/
theorem C75_limit {n : ℕ} {p s k : ℝ} (hn : 1 ≤ n) (hp : 0 < p) (hs : 0 < s) (hps : s < 1 - p)
    (hk0 : 0 < k) (hk1 : k < 1) (hdeg : legendreK k = degreeQuotient n p s * legendreKp k) {δ : ℝ} (hδ : 0 < δ) :
    ∃ e0 > 0, ∀ e, 0 ≤ e → e ≤ e0 → ∀ (k' ψ : ℝ) (θ : ℕ → ℝ) (sys : Zpk), 0 < k' → k' < 1 →
      legendreK k' ≤ (1 + e) * (degreeQuotient n p s * legendreKp k') → degreeQuotient n p s * legendreKp k' ≤ (1 + e) * legendreK k' →
      (∀ j < n / 2, 0 < θ j ∧ θ j < Real.pi / 2 ∧
        |legendreF (θ j) k' - ((2 * j + 1 + n % 2 : ℕ) : ℝ) / n * legendreK k'| ≤ 5 * e * legendreK k' ^ 2) →
      (0 < ψ ∧ ψ < Real.pi / 2 ∧ |legendreF ψ (Real.sqrt (1 - k' ^ 2)) - poleArgument n p s k'| ≤ 5 * e * legendreKp k' ^ 2) →
      sys.zeros.roots = rootsOf [] ((List.range (n / 2)).map fun j => I / ((k' * Real.sin (θ j) : ℝ) : ℂ)) →
      sys.poles.roots = rootsOf (List.replicate (n % 2) (-Real.tan ψ)) ((List.range (n / 2)).map fun j => I * complexSn k' (θ j) ψ) →
      (sys.eval (0 : ℂ) = if n % 2 = 1 then 1 else ((1 - p : ℝ) : ℂ)) →
      |k' - k| < δ ∧ EllipticResponse n p s k δ fun w => ‖sys.eval (I * (w : ℂ))‖ := by
  have hk : k ^ 2 < 1 := by nlinarith
  have hn0 : (0 : ℝ) < n := by exact_mod_cast hn
  obtain ⟨h1, h2, h3, h4, h5⟩ := ripple_facts hp hs hps
  obtain ⟨ψ0, hψ0, hψ1, hψ⟩ := exact_angle hn hp hs hps hk0 hk1 hdeg
  have hlev := poleLevel_exact hn hp hs hps hk0 hk1 hdeg hψ0 hψ1 hψ
  have hr := exact_response hn hp hs hps hk0 hk1 hdeg
  have hang : ∀ j < n / 2, 0 < poleAngle k n j ∧ poleAngle k n j < Real.pi / 2 := fun j hj => poleAngle_mem hk0 hk hn hj
  obtain ⟨ρ, hρ, hnear⟩ := shape_near hk0 hk hang hψ0 hψ1 (show 0 < δ ^ 2 by positivity)
  -- the amplitudes
  have hK := legendreK_continuousAt hk
  have hKp := legendreKp_continuousAt hk0 hk1.le
  have hfst : ContinuousAt (fun q : ℝ × ℝ => q.1) (0, k) := by fun_prop
  have hsnd : ContinuousAt (fun q : ℝ × ℝ => q.2) (0, k) := by fun_prop
  have hK2 : ContinuousAt (fun q : ℝ × ℝ => legendreK q.2) (0, k) := hK.comp (f := fun q : ℝ × ℝ => q.2) (x := (0, k)) hsnd
  have hKp2 : ContinuousAt (fun q : ℝ × ℝ => legendreKp q.2) (0, k) := hKp.comp (f := fun q : ℝ × ℝ => q.2) (x := (0, k)) hsnd
  have hθev : ∀ᶠ q : ℝ × ℝ in 𝓝 (0, k), ∀ j ∈ Finset.range (n / 2), ∀ φ,
      |legendreF φ q.2 - ((2 * j + 1 + n % 2 : ℕ) : ℝ) / n * legendreK q.2| ≤ 5 * q.1 * legendreK q.2 ^ 2 → |φ - poleAngle k n j| < ρ := by
    rw [eventually_all_finset]
    intro j hj
    refine amplitude_near (κ := fun x => x) (u := fun x => ((2 * j + 1 + n % 2 : ℕ) : ℝ) / n * legendreK x)
      (E := fun q => 5 * q.1 * legendreK q.2 ^ 2) continuousAt_id hk (continuousAt_const.mul hK) ((continuousAt_const.mul hfst).mul (hK2.pow 2))
      (by simp) ?_ hρ
    rw [poleAngle, legendreF_jam hk]
    ring
  have hψev : ∀ᶠ q : ℝ × ℝ in 𝓝 (0, k), ∀ φ,
      |legendreF φ (Real.sqrt (1 - q.2 ^ 2)) - poleArgument n p s q.2| ≤ 5 * q.1 * legendreKp q.2 ^ 2 → |φ - ψ0| < ρ := by
    refine amplitude_near (κ := fun x => Real.sqrt (1 - x ^ 2)) (u := fun x => poleArgument n p s x)
      (E := fun q => 5 * q.1 * legendreKp q.2 ^ 2) compl_continuous.continuousAt (kp_sq hk0 hk1.le).2.1 ?_ ((continuousAt_const.mul hfst).mul (hKp2.pow 2))
      (by simp) hψ hρ
    unfold poleArgument
    exact continuousAt_const.mul ((hK.div_const _).div_const _)
  obtain ⟨r, hr0, hall⟩ := Metric.eventually_nhds_iff.mp (hθev.and hψev)
  have hkq : kquot k = degreeQuotient n p s := by rw [kquot, div_eq_iff (kp_pos hk0 hk1.le).ne', hdeg]
  obtain ⟨e1, he1, hmod⟩ := modulus_near hk0 hk1 hkq (lt_min hδ (lt_min hρ hr0))
  refine ⟨min e1 (r / 2), lt_min he1 (by linarith), fun e h0 he k' ψ θ sys hk0' hk1' g1 g2 gθ gψ hz hpo hs0 => ?_⟩
  have hke := hmod e (he.trans (min_le_left _ _)) k' hk0' hk1' g1 g2
  have hkδ : |k' - k| < δ := hke.trans_le (min_le_left _ _)
  have hkρ : |k' - k| < ρ := hke.trans_le ((min_le_right _ _).trans (min_le_left _ _))
  have hkr : |k' - k| < r := hke.trans_le ((min_le_right _ _).trans (min_le_right _ _))
  have her : e ≤ r / 2 := he.trans (min_le_right _ _)
  have hdist : dist ((e, k') : ℝ × ℝ) (0, k) < r := by
    rw [Prod.dist_eq]
    refine max_lt ?_ ?_
    · rw [Real.dist_eq, sub_zero, abs_of_nonneg h0]
      linarith
    · rwa [Real.dist_eq]
  obtain ⟨b1, b2⟩ := hall hdist
  have hclose := hnear k' θ ψ hkρ (fun j hj => b1 j (Finset.mem_range.mpr hj) _ (gθ j hj).2.2) (b2 _ gψ.2.2)
  refine ⟨hkδ, response_perturb hr fun w => ?_⟩
  refine abs_sub_le_sqrt (norm_nonneg _) (Real.sqrt_nonneg _) hδ.le ?_
  have hk' : k' ^ 2 < 1 := by nlinarith
  rw [prototype_magnitude hk0' hk' (fun j hj => ⟨(gθ j hj).1, (gθ j hj).2.1⟩) gψ.1 gψ.2.1 hz hpo hs0 w]
  have hg := gain_shape hk0 hk hn hψ0 hψ1 (w ^ 2)
  rw [hlev, h4] at hg
  have hnn : 0 ≤ exactGain k n (1 / rippleFactor p ^ 2) (w ^ 2) := by
    rw [exactGain]
    have := gridA_pos hk hn
    have h6 := rD_nonneg hk0 hk hn (w ^ 2)
    have h7 := rN_nonneg hk0 hk hn (sq_nonneg w)
    positivity
  rw [Real.sq_sqrt hnn, ← hg, ← mul_sub, abs_mul]
  have hc := (hclose (w ^ 2) (sq_nonneg w)).le
  have hfac : |(if n % 2 = 1 then 1 else (1 - p) ^ 2 : ℝ)| ≤ 1 := by
    split_ifs
    · rw [abs_one]
    · rw [abs_of_nonneg (sq_nonneg _)]
      nlinarith
  calc _ ≤ 1 * δ ^ 2 := mul_le_mul hfac hc (abs_nonneg _) zero_le_one
    _ = δ ^ 2 := one_mul _

/-- **C75**: the elliptic prototype the library designs has the ripples it is designed for, and the selectivity `k` of the degree equation,
up to deviations that vanish with the precision of the arithmetic: for every order, every pair of ripples and every deviation `δ` there is a
precision from which on the prototype is within `δ` of the response of the exact elliptic filter, at all frequencies. -/
theorem C75_ripples {n : ℕ} {p s : ℝ} (hn : 1 ≤ n) (hp : 0 < p) (hs : 0 < s) (hps : s < 1 - p) :
    ∃ k, 0 < k ∧ k < 1 ∧ legendreK k = degreeQuotient n p s * legendreKp k ∧
      ∀ δ > 0, ∃ e0 > 0, ∀ eps τ η M, FineEnough n p s eps τ η M → 3 * eps + 3 * τ * Real.exp (5 * M) ≤ e0 →
        ∀ (A : BisectArith ℝ), A.Precise τ η → ∀ values : Finset ℝ, (∀ a b, A.dist a b ∈ values) →
          ∃ N : ℕ, ∀ fuel, N ≤ fuel → ∃ sys : Zpk, elliptic A (values.card + 1) fuel eps n p s = .ok sys ∧ sys.IsPrototype n ∧
            EllipticResponse n p s k δ fun w => ‖sys.eval (I * (w : ℂ))‖ := by
  obtain ⟨k, ⟨⟨hk0, hk1⟩, hdeg⟩, -⟩ := C75_selectivity hn hp hs hps
  refine ⟨k, hk0, hk1, hdeg, fun δ hδ => ?_⟩
  obtain ⟨e0, he0, hlim⟩ := C75_limit hn hp hs hps hk0 hk1 hdeg hδ
  refine ⟨e0, he0, fun eps τ η M hf hle A hA values hv => ?_⟩
  obtain ⟨N, hN⟩ := C72_design hn hp hs hps hf hA values hv
  refine ⟨N, fun fuel hfuel => ?_⟩
  obtain ⟨k', θ, ψ, sys, a1, a2, -, -, ⟨a3, a4, a5, a6⟩, a7, ⟨a8, a9, a10⟩, a11, a12, a13⟩ := hN fuel hfuel
  have heps : 0 ≤ eps := le_trans (by positivity) hf.eps_ge
  have hτ : 0 ≤ τ * Real.exp (5 * M) := mul_nonneg hf.tau_nonneg (Real.exp_pos _).le
  have hsmall : eps ≤ 3 * eps + 3 * τ * Real.exp (5 * M) := by nlinarith
  have hn0 : 0 ≤ 3 * eps + 3 * τ * Real.exp (5 * M) := heps.trans hsmall
  refine ⟨sys, a1, a2, (hlim (3 * eps + 3 * τ * Real.exp (5 * M)) hn0 hle k' ψ θ sys a3 a4 (by rw [← add_assoc]; exact a5)
    (by rw [← add_assoc]; exact a6) (fun j hj => ?_) ⟨a8, a9, ?_⟩ a11 a12 a13).2⟩
  · refine ⟨(a7 j hj).1, (a7 j hj).2.1, (a7 j hj).2.2.trans ?_⟩
    gcongr
  · refine a10.trans ?_
    gcongr

/-- **C75**: so does the digital low pass designed from it: with the cutoff `c` (in units of the Nyquist frequency), the response is within
`1 - p` and `1` up to `δ` for the frequencies up to `c π`, and at most `s + δ` where `k tan(w/2) ≥ tan(c π / 2)`. -/
theorem C75_ripples_lowpass {n : ℕ} {p s : ℝ} (hn : 1 ≤ n) (hp : 0 < p) (hs : 0 < s) (hps : s < 1 - p) :
    ∃ k, 0 < k ∧ k < 1 ∧ legendreK k = degreeQuotient n p s * legendreKp k ∧
      ∀ δ > 0, ∃ e0 > 0, ∀ eps τ η M, FineEnough n p s eps τ η M → 3 * eps + 3 * τ * Real.exp (5 * M) ≤ e0 →
        ∀ (A : BisectArith ℝ), A.Precise τ η → ∀ values : Finset ℝ, (∀ a b, A.dist a b ∈ values) → ∀ c, 0 < c → c < 1 →
          ∃ N : ℕ, ∀ fuel, N ≤ fuel → ∃ f : Zpk, designLowpass (fun n => elliptic A (values.card + 1) fuel eps n p s) n c = .ok f ∧ f.Stable ∧
            ∀ w, |w| < Real.pi →
              (|w| ≤ c * Real.pi → 1 - p - δ ≤ ‖response f w‖ ∧ ‖response f w‖ ≤ 1 + δ) ∧
              (c * Real.pi ≤ |w| → k * Real.tan (|w| / 2) ≤ Real.tan (c * Real.pi / 2) → s - δ ≤ ‖response f w‖ ∧ ‖response f w‖ ≤ 1 - p + δ) ∧
              (Real.tan (c * Real.pi / 2) ≤ k * Real.tan (|w| / 2) → ‖response f w‖ ≤ s + δ) := by
  obtain ⟨k, hk0, hk1, hdeg, h⟩ := C75_ripples hn hp hs hps
  refine ⟨k, hk0, hk1, hdeg, fun δ hδ => ?_⟩
  obtain ⟨e0, he0, h⟩ := h δ hδ
  refine ⟨e0, he0, fun eps τ η M hf hle A hA values hv c hc0 hc1 => ?_⟩
  obtain ⟨N, h⟩ := h eps τ η M hf hle A hA values hv
  refine ⟨N, fun fuel hfuel => ?_⟩
  obtain ⟨sys, a1, a2, a3⟩ := h fuel hfuel
  obtain ⟨f, b1, b2, b3, b4, b5, b6⟩ := C61_lowpass (fun n => elliptic A (values.card + 1) fuel eps n p s) n sys a1 a2 c hc0 hc1
  refine ⟨f, b1, b5, fun w hw => ?_⟩
  have hpi := Real.pi_pos
  have hw' := abs_lt.mp hw
  have hcos : Real.cos (w / 2) ≠ 0 := (Real.cos_pos_of_mem_Ioo ⟨by linarith, by linarith⟩).ne'
  have ht : 0 < Real.tan (c * Real.pi / 2) := Real.tan_pos_of_pos_of_lt_pi_div_two (by positivity) (by nlinarith)
  have habs : |Real.tan (w / 2) / Real.tan (c * Real.pi / 2)| = Real.tan (|w| / 2) / Real.tan (c * Real.pi / 2) := by
    rw [abs_div, abs_of_pos ht]
    congr 1
    rcases le_total 0 w with h | h
    · rw [abs_of_nonneg h, abs_of_nonneg (Real.tan_nonneg_of_nonneg_of_le_pi_div_two (by linarith) (by linarith))]
    · rw [abs_of_nonpos h, neg_div, Real.tan_neg, abs_of_nonpos]
      have := Real.tan_nonneg_of_nonneg_of_le_pi_div_two (x := -(w / 2)) (by linarith) (by linarith)
      rw [Real.tan_neg] at this
      linarith
  have hwn := abs_nonneg w
  have hmono : |w| ≤ c * Real.pi ↔ Real.tan (|w| / 2) ≤ Real.tan (c * Real.pi / 2) := by
    rw [Real.strictMonoOn_tan.le_iff_le ⟨by linarith, by linarith⟩ ⟨by nlinarith, by nlinarith⟩]
    constructor <;> intro h <;> linarith
  have hmono' : c * Real.pi ≤ |w| ↔ Real.tan (c * Real.pi / 2) ≤ Real.tan (|w| / 2) := by
    rw [Real.strictMonoOn_tan.le_iff_le ⟨by nlinarith, by nlinarith⟩ ⟨by linarith, by linarith⟩]
    constructor <;> intro h <;> linarith
  rw [b6 w hcos]
  refine ⟨fun h => a3.pass _ ?_, fun h1 h2 => a3.transition _ ?_ ?_, fun h => a3.stop _ ?_⟩
  · rw [habs, div_le_one ht]
    exact hmono.mp h
  · rw [habs, one_le_div ht]
    exact hmono'.mp h1
  · rw [habs, mul_div_assoc', div_le_one ht]
    exact h2
  · rw [habs, mul_div_assoc', one_le_div ht]
    exact h

/-! ### the hypotheses can be met -/

theorem exists_poly (r : List ℝ) (z : List ℂ) : ∃ P : FactoredPoly, P.roots = rootsOf r z := by
  refine ⟨⟨r ++ flatC z, r.length, z.length⟩, ?_⟩
  rw [FactoredPoly.roots, FactoredPoly.realRoots, FactoredPoly.complexPairs]
  simp only []
  rw [List.take_left']
  · congr 1
    have key : ∀ (z : List ℂ) (i : ℕ) (hi : i < z.length), sig (flatC z) (2 * i) = z[i].re ∧ sig (flatC z) (2 * i + 1) = z[i].im := by
      intro z
      induction z with
      | nil => intro i hi; simp at hi
      | cons a l ih =>
        intro i hi
        have e : flatC (a :: l) = a.re :: a.im :: flatC l := by simp [flatC]
        rw [e]
        cases i with
        | zero => simp [sig]
        | succ i =>
          have := ih i (by simpa using hi)
          simp only [sig] at this ⊢
          rw [show 2 * (i + 1) = (2 * i) + 1 + 1 by ring]
          simpa using this
    apply List.ext_getElem
    · simp
    · intro i h1 h2
      obtain ⟨a, b⟩ := key z i h2
      simp only [List.getElem_map, List.getElem_range]
      have e : ∀ j, sig (r ++ flatC z) (r.length + j) = sig (flatC z) j := fun j => by
        simp only [sig, List.getD_eq_getElem?_getD]
        rw [List.getElem?_append_right (by omega), show r.length + j - r.length = j by omega]
      rw [e, add_assoc, e, a, b]
  · rfl

theorem rootsOf_real_at_zero (r : List ℝ) (z : List ℂ) : ∃ v : ℝ, rootProduct (rootsOf r z) 0 = (v : ℂ) := by
  have h1 : ∃ v : ℝ, rootProduct (r.map Complex.ofReal) 0 = (v : ℂ) := by
    refine ⟨(r.map fun x => -x).prod, ?_⟩
    rw [rootProduct, ← Complex.ofRealHom_eq_coe, map_list_prod, List.map_map, List.map_map]
    congr 1
    exact List.map_congr_left fun x _ => by simp
  have h2 : ∃ v : ℝ, rootProduct z 0 * rootProduct (z.map (starRingEnd ℂ)) 0 = (v : ℂ) := by
    refine ⟨normSq (rootProduct z 0), ?_⟩
    rw [← mul_conj]
    congr 1
    rw [rootProduct, rootProduct, map_list_prod, List.map_map, List.map_map]
    congr 1
    exact List.map_congr_left fun x _ => by simp
  obtain ⟨a, ha⟩ := h1
  obtain ⟨b, hb⟩ := h2
  exact ⟨a * b, by rw [rootsOf, rootProduct_append, rootProduct_append, mul_assoc, ha, hb]; push_cast; rfl⟩

/-- the exact zeros, poles and gain of an order and a pair of ripples exist, so that `C75_exact` speaks of a system for every order -/
theorem C75_exact_exists {n : ℕ} {p s : ℝ} (hn : 1 ≤ n) (hp : 0 < p) (hs : 0 < s) (hps : s < 1 - p) :
    ∃ (k ψ : ℝ) (θ : ℕ → ℝ) (sys : Zpk), (0 < k ∧ k < 1) ∧ legendreK k = degreeQuotient n p s * legendreKp k ∧
      (∀ j < n / 2, legendreF (θ j) k = ((2 * j + 1 + n % 2 : ℕ) : ℝ) / n * legendreK k) ∧
      (0 < ψ ∧ ψ < Real.pi / 2) ∧ legendreF ψ (Real.sqrt (1 - k ^ 2)) = poleArgument n p s k ∧
      sys.zeros.roots = rootsOf [] ((List.range (n / 2)).map fun j => I / ((k * Real.sin (θ j) : ℝ) : ℂ)) ∧
      sys.poles.roots = rootsOf (List.replicate (n % 2) (-Real.tan ψ)) ((List.range (n / 2)).map fun j => I * complexSn k (θ j) ψ) ∧
      sys.eval (0 : ℂ) = (if n % 2 = 1 then 1 else ((1 - p : ℝ) : ℂ)) ∧
      EllipticResponse n p s k 0 fun w => ‖sys.eval (I * (w : ℂ))‖ := by
  obtain ⟨k, ⟨⟨hk0, hk1⟩, hdeg⟩, -⟩ := C75_selectivity hn hp hs hps
  have hk : k ^ 2 < 1 := by nlinarith
  obtain ⟨ψ, hψ0, hψ1, hψ⟩ := exact_angle hn hp hs hps hk0 hk1 hdeg
  obtain ⟨Z, hZ⟩ := exists_poly [] ((List.range (n / 2)).map fun j => I / ((k * Real.sin (poleAngle k n j) : ℝ) : ℂ))
  obtain ⟨P, hP⟩ := exists_poly (List.replicate (n % 2) (-Real.tan ψ)) ((List.range (n / 2)).map fun j => I * complexSn k (poleAngle k n j) ψ)
  obtain ⟨z, hz⟩ := rootsOf_real_at_zero [] ((List.range (n / 2)).map fun j => I / ((k * Real.sin (poleAngle k n j) : ℝ) : ℂ))
  obtain ⟨q, hq⟩ := rootsOf_real_at_zero (List.replicate (n % 2) (-Real.tan ψ)) ((List.range (n / 2)).map fun j => I * complexSn k (poleAngle k n j) ψ)
  rw [← hZ] at hz
  rw [← hP] at hq
  have hθ : ∀ j < n / 2, 0 < poleAngle k n j ∧ poleAngle k n j < Real.pi / 2 := fun j hj => poleAngle_mem hk0 hk hn hj
  have hz0 : rootProduct Z.roots 0 ≠ 0 := by
    apply rootProduct_ne_zero
    intro x hx
    rw [hZ] at hx
    simp only [rootsOf, List.map_nil, List.nil_append, List.mem_append, List.mem_map, List.mem_range] at hx
    have hne : ∀ j < n / 2, I / ((k * Real.sin (poleAngle k n j) : ℝ) : ℂ) ≠ 0 := fun j hj => by
      have := Real.sin_pos_of_pos_of_lt_pi (hθ j hj).1 (by linarith [(hθ j hj).2, Real.pi_pos])
      exact div_ne_zero I_ne_zero (by exact_mod_cast (mul_pos hk0 this).ne')
    rcases hx with ⟨j, hj, rfl⟩ | ⟨x, ⟨j, hj, rfl⟩, rfl⟩
    · exact hne j hj
    · exact (map_ne_zero _).mpr (hne j hj)
  have hq0 : rootProduct P.roots 0 ≠ 0 := by
    apply rootProduct_ne_zero
    intro x hx h0
    rw [hP] at hx
    have := elliptic_pole_re hk hψ0 hψ1 hθ x hx
    rw [h0] at this
    simp at this
  obtain ⟨v, hv⟩ : ∃ v : ℝ, (if n % 2 = 1 then 1 else ((1 - p : ℝ) : ℂ)) = (v : ℂ) := by
    split_ifs
    · exact ⟨1, by simp⟩
    · exact ⟨1 - p, rfl⟩
  have hval : (⟨v * q / z, Z, P⟩ : Zpk).eval (0 : ℂ) = if n % 2 = 1 then 1 else ((1 - p : ℝ) : ℂ) := by
    rw [zpk_value, hv]
    simp only []
    rw [hz] at hz0 ⊢
    rw [hq] at hq0 ⊢
    push_cast
    field_simp
  have hang : ∀ j < n / 2, legendreF (poleAngle k n j) k = ((2 * j + 1 + n % 2 : ℕ) : ℝ) / n * legendreK k := fun j _ => by
    rw [poleAngle, legendreF_jam hk]
    ring
  exact ⟨k, ψ, poleAngle k n, ⟨v * q / z, Z, P⟩, ⟨hk0, hk1⟩, hdeg, hang, ⟨hψ0, hψ1⟩, hψ, hZ, hP, hval,
    C75_exact hn hp hs hps hk0 hk1 hdeg hang hψ0 hψ1 hψ hZ hP hval⟩

/-- a third order filter with a pass band between 4/5 and 1 and a stop band below 1/10 -/
example : ∃ sys : Zpk, ∃ k, EllipticResponse 3 (1 / 5) (1 / 10) k 0 fun w => ‖sys.eval (I * (w : ℂ))‖ := by
  obtain ⟨k, -, -, sys, -, -, -, -, -, -, -, -, h⟩ := C75_exact_exists (n := 3) (p := 1 / 5) (s := 1 / 10) (by norm_num) (by norm_num) (by norm_num) (by norm_num)
  exact ⟨sys, k, h⟩

end Verif
